import Verif.Conc.Methods
import Verif.Conc.Trace
import Verif.Conc.Spec

/-! Between two claims of an index there is a release of it, in the order of the atomic calls. -/

namespace Verif.Conc
open Verif.IdxTable
variable {κ κ₀ σ ρ ρ₀ β α : Type}

/-- `id` is claimed -/
def Pres (t : Table α) (id : U64) : Prop := t.m.get? id ≠ none

theorem add_pres {t : Table α} {id : U64} (h : Pres t id) (e : Entry α) : Pres (add t e).1 id := by
  unfold add
  split
  · exact h
  · split
    · exact h
    · unfold Pres at *
      simp only [GoMap.get?_set]
      split
      · simp
      · exact h

theorem add_ok {t : Table α} {e : Entry α} (h : (add t e).2 = .ok ()) : ¬ Pres t e.id ∧ Pres (add t e).1 e.id := by
  unfold add at *
  cases hv : validate t e.id with
  | error er => rw [hv] at h; cases h
  | ok u =>
    rw [hv] at h
    cases hf : isFreeB t e.id with
    | false => simp [hf] at h
    | true =>
      unfold Pres
      refine ⟨?_, ?_⟩
      · simpa [isFreeB] using hf
      · simp [GoMap.get?_set]

theorem update_pres {t : Table α} {id : U64} (h : Pres t id) (e : Entry α) : Pres (updateE t e).1 id := by
  unfold updateE
  split
  · exact h
  · split
    · exact h
    · unfold Pres at *
      simp only [GoMap.get?_set]
      split
      · simp
      · exact h

theorem delete_pres {t : Table α} {id i : U64} (h : Pres t id) (hn : ¬ Pres (delete t i).1 id) :
    i = id ∧ (delete t i).2 = .ok () := by
  unfold delete at *
  cases hv : validate t i with
  | error er => rw [hv] at hn; exact absurd h hn
  | ok u =>
    rw [hv] at hn
    unfold Pres at *
    simp only [GoMap.get?_del] at hn
    split at hn
    · rename_i hi
      exact ⟨hi.symm, rfl⟩
    · exact absurd h hn

theorem addAll_pres {t : Table α} {id : U64} (h : Pres t id) (d : α) : ∀ ids, Pres (addAll t d ids).1 id
  | [] => h
  | i :: ids => by
    unfold addAll
    have h1 := add_pres h ⟨i, d⟩
    revert h1
    rcases add t ⟨i, d⟩ with ⟨t', er | u⟩
    · exact fun h1 => h1
    · exact fun h1 => addAll_pres h1 d ids

theorem addAllE_pres {t : Table α} {id : U64} (h : Pres t id) (d : α) : ∀ ids es, Pres (addAllE t d ids es).1 id
  | [], _ => h
  | i :: ids, es => by
    unfold addAllE
    have h1 := add_pres h ⟨i, d⟩
    revert h1
    rcases add t ⟨i, d⟩ with ⟨t', er | u⟩
    · exact fun h1 => h1
    · exact fun h1 => addAllE_pres h1 d ids _

theorem addAllE_ok (d : α) : ∀ (ids : List U64) (es : List (Entry α)) (t : Table α) (es' : List (Entry α)),
    (addAllE t d ids es).2 = .ok es' → ∀ e ∈ es', e ∈ es ∨ (¬ Pres t e.id ∧ Pres (addAllE t d ids es).1 e.id)
  | [], es, t, es', h => by
    cases h
    exact fun e he => .inl he
  | i :: ids, es, t, es', h => by
    unfold addAllE at h ⊢
    have h1 := add_ok (t := t) (e := ⟨i, d⟩)
    have h2 := fun id (hp : Pres t id) => add_pres hp ⟨i, d⟩
    revert h h1 h2
    rcases add t ⟨i, d⟩ with ⟨t', er | u⟩
    · intro h; cases h
    · intro h h1 h2 e he
      have h1 := h1 rfl
      simp only at h h1 h2 ⊢
      rcases addAllE_ok d ids _ t' es' h e he with h3 | ⟨h3, h4⟩
      · rcases List.mem_append.1 h3 with h3 | h3
        · exact .inl h3
        · simp only [List.mem_cons, List.not_mem_nil, or_false] at h3
          subst h3
          exact .inr ⟨h1.1, addAllE_pres h1.2 d ids _⟩
      · exact .inr ⟨fun hp => h3 (h2 _ hp), h4⟩

theorem claimDynamic_pres {t : Table α} {id : U64} (h : Pres t id) (d : α) : Pres (claimDynamic t d).1 id := by
  unfold claimDynamic
  simp only
  split
  · rename_i hb
    have h1 := add_pres h ⟨(iterateFree t).advance.id hb, d⟩
    revert h1
    rcases add t ⟨(iterateFree t).advance.id hb, d⟩ with ⟨t', er | u⟩
    · exact fun h1 => h1
    · exact fun h1 => h1
  · exact h

theorem claimDynamic_ok {t : Table α} {d : α} {e : Entry α} (h : (claimDynamic t d).2 = .ok e) :
    ¬ Pres t e.id ∧ Pres (claimDynamic t d).1 e.id := by
  unfold claimDynamic at *
  simp only at *
  split at h
  · rename_i hb
    have h1 := add_ok (t := t) (e := ⟨(iterateFree t).advance.id hb, d⟩)
    rw [dif_pos hb]
    revert h h1
    rcases add t ⟨(iterateFree t).advance.id hb, d⟩ with ⟨t', er | u⟩
    · intro h; cases h
    · intro h h1
      cases h
      exact h1 rfl
  · cases h

/-- a claim takes a free id -/
theorem step_claims {t : Table α} {c : Call α} {id : U64} (h : Claims id c (step t c).2) :
    ¬ Pres t id ∧ Pres (step t c).1 id := by
  cases c with
  | claim i d =>
    obtain ⟨rfl, h⟩ := h
    apply add_ok (e := ⟨i, d⟩)
    show (claim t i d).2 = _
    simp only [step] at h
    cases hc : (claim t i d).2 with
    | error e => rw [hc] at h; cases h
    | ok u => rfl
  | claimDynamic d =>
    obtain ⟨d', h⟩ := h
    simp only [step] at h ⊢
    cases hc : (claimDynamic t d).2 with
    | error e => rw [hc] at h; cases h
    | ok e =>
      rw [hc] at h
      cases h
      exact claimDynamic_ok hc
  | claimSize n d =>
    obtain ⟨es, d', h, hm⟩ := h
    simp only [step] at h ⊢
    cases hc : (claimSize t n d).2 with
    | error e => rw [hc] at h; cases h
    | ok es' =>
      rw [hc] at h
      cases h
      obtain ⟨e, he, h1⟩ := List.mem_map.1 hm
      cases h1
      unfold claimSize at hc ⊢
      revert hc
      cases findFreeSize t n with
      | error e => intro hc; cases hc
      | ok ids =>
        intro hc
        rcases addAllE_ok d ids [] t es' hc _ he with h | h
        · cases h
        · exact h
  | _ => cases h

/-- only a release frees an id -/
theorem step_frees {t : Table α} {c : Call α} {id : U64} (h : Pres t id) (hn : ¬ Pres (step t c).1 id) :
    Releases id c (step t c).2 := by
  cases c with
  | claim i d => exact absurd (add_pres h ⟨i, d⟩) hn
  | claimDynamic d => exact absurd (claimDynamic_pres h d) hn
  | claimRange start n d =>
    refine absurd ?_ hn
    show Pres (claimRange t start n d).1 id
    unfold claimRange
    cases findFreeRange t start n with
    | error e => exact h
    | ok ids => exact addAll_pres h d ids
  | claimSize n d =>
    refine absurd ?_ hn
    show Pres (claimSize t n d).1 id
    unfold claimSize
    cases findFreeSize t n with
    | error e => exact h
    | ok ids => exact addAllE_pres h d ids []
  | release i =>
    obtain ⟨rfl, h1⟩ := delete_pres h hn
    refine ⟨rfl, ?_⟩
    show replyUnit (delete t i).2 = _
    rw [h1]
    rfl
  | update i d => exact absurd (update_pres h ⟨i, d⟩) hn
  | _ => exact absurd h hn

theorem runs_frees {t t' : Table α} {G : List (Nat × Call α × Reply α)} (hr : Runs step t G t') {id : U64}
    (h : Pres t id) (hn : ¬ Pres t' id) : ∃ y ∈ G, Releases id y.2.1 y.2.2 := by
  induction hr with
  | nil => exact absurd h hn
  | @cons m m' n c G _ ih =>
    by_cases hp : Pres (step m c).1 id
    · obtain ⟨y, hy, h1⟩ := ih hp hn
      exact ⟨y, List.mem_cons_of_mem _ hy, h1⟩
    · exact ⟨_, List.mem_cons_self, step_frees h hp⟩

/-- between two claims of an id there is a release of it -/
theorem runs_between {t t' : Table α} {G : List (Nat × Call α × Reply α)} (hr : Runs step t G t') {id : U64}
    {x z : Nat × Call α × Reply α} (hs : [x, z].Sublist G) (hx : Claims id x.2.1 x.2.2)
    (hz : Claims id z.2.1 z.2.2) :
    ∃ y, Releases id y.2.1 y.2.2 ∧ [x, y].Sublist G ∧ [y, z].Sublist G := by
  obtain ⟨G1, G2, rfl, hx', hz'⟩ : ∃ G1 G2, G = G1 ++ G2 ∧ x ∈ G1 ∧ z ∈ G2 := by
    have := List.cons_sublist_iff.1 hs
    obtain ⟨r₁, r₂, h1, h2, h3⟩ := this
    exact ⟨r₁, r₂, h1, h2, h3.subset (by simp)⟩
  obtain ⟨A, B, rfl⟩ := List.append_of_mem hx'
  obtain ⟨C, D, rfl⟩ := List.append_of_mem hz'
  have hG : A ++ x :: B ++ (C ++ z :: D) = A ++ x :: ((B ++ C) ++ z :: D) := by simp
  rw [hG] at hr
  obtain ⟨t1, _, h2⟩ := Runs.split A hr
  cases h2 with
  | @cons _ _ n c _ h2 =>
    obtain ⟨t2, h3, h4⟩ := Runs.split (B ++ C) h2
    cases h4 with
    | @cons _ _ n' c' _ h4 =>
      obtain ⟨y, hy, h5⟩ := runs_frees h3 (step_claims hx).2 (step_claims hz).1
      refine ⟨y, h5, ?_, ?_⟩
      · rw [hG]
        refine List.Sublist.trans ?_ (List.sublist_append_right _ _)
        refine List.Sublist.cons_cons _ ?_
        rw [List.singleton_sublist]
        exact List.mem_append_left _ hy
      · rw [hG]
        refine List.Sublist.trans ?_ (List.sublist_append_right _ _)
        refine List.Sublist.cons _ ?_
        obtain ⟨E, F, hEF⟩ := List.append_of_mem hy
        rw [hEF, List.append_assoc]
        refine List.Sublist.trans ?_ (List.sublist_append_right _ _)
        refine List.Sublist.cons_cons _ ?_
        rw [List.singleton_sublist]
        exact List.mem_append_right _ (by simp)

theorem sublist_pair {A : Type} {x y : A} {l : List A} (hx : x ∈ l) (hy : y ∈ l) (h : x ≠ y) :
    [x, y].Sublist l ∨ [y, x].Sublist l := by
  obtain ⟨A, B, rfl⟩ := List.append_of_mem hx
  rcases List.mem_append.1 hy with hy | hy
  · refine .inr ?_
    obtain ⟨C, D, rfl⟩ := List.append_of_mem hy
    rw [List.append_assoc]
    refine List.Sublist.trans ?_ (List.sublist_append_right _ _)
    refine List.Sublist.cons_cons _ ?_
    rw [List.singleton_sublist]
    simp
  · refine .inl (List.Sublist.trans ?_ (List.sublist_append_right _ _))
    refine List.Sublist.cons_cons _ ?_
    rw [List.singleton_sublist]
    rcases List.mem_cons.1 hy with h' | h'
    · exact absurd h'.symm h
    · exact h'

/-- The heart of C61: the calls `a`, `b` made atomic claims of the same index; all calls with an
atomic release of it are releases in the sense of `rel`. -/
theorem only_after_release {code : κ → Client (Call α) (Reply α) (Table α) ρ} {see : Table α → Table α → Prop}
    {m₀ : Table α} {a : ACfg κ (Call α) (Reply α) (Table α) ρ} {G H} (h : AExec code step see m₀ a G H)
    {rel : κ → ρ → Prop} {idx : U64}
    (hrel : ∀ c l d x r, (code c).Path l d → (x, r) ∈ l → Releases idx x r →
      (∃ r', rel c r') ∧ ∀ r', d = .ret r' → rel c r')
    {n n' : Nat} (hn : n ≠ n') {x z : Call α × Reply α} (hx : x ∈ callsOf G n) (hz : z ∈ callsOf G n')
    (hcx : Claims idx x.1 x.2) (hcz : Claims idx z.1 z.2) : OnlyAfterRelease H rel n n' := by
  have hf := h.facts
  have key : ∀ {n n' : Nat} {x z : Call α × Reply α}, Claims idx x.1 x.2 → Claims idx z.1 z.2 →
      [(n, x), (n', z)].Sublist G → ¬ Before H n' n ∧ ReleasedBetween H rel n n' := by
    intro n n' x z hcx hcz hs
    obtain ⟨⟨i, y⟩, hy, h1, h2⟩ := runs_between hf.runs hs hcx hcz
    have hyG : (i, y) ∈ G := h1.subset (by simp)
    obtain ⟨c, d, hinv, hp⟩ := hf.started h.hasRet hyG
    refine ⟨fun hb => hf.order _ _ hb _ _ rfl rfl hs, i, c, hinv, ?_, ?_, ?_, ?_⟩
    · exact (hrel c _ d _ _ hp (mem_callsOf.2 hyG) hy).1
    · intro r hr
      have hp' := hf.returned hinv hr
      exact (hrel c _ _ _ _ hp' (mem_callsOf.2 hyG) hy).2 r rfl
    · exact fun hb => hf.order _ _ hb _ _ rfl rfl h1
    · exact fun hb => hf.order _ _ hb _ _ rfl rfl h2
  rcases sublist_pair (mem_callsOf.1 hx) (mem_callsOf.1 hz) (fun he => hn (congrArg Prod.fst he)) with hs | hs
  · exact .inl (key hcx hcz hs)
  · exact .inr (key hcz hcx hs)

end Verif.Conc
