import Verif.Conc.TreePend
import Verif.Conc.Solo

/-!
The calls on a tree of claimed prefixes in an order: calls that no changing call overlaps with have exact replies
(C87), the others as in C81.
-/

set_option linter.unusedSectionVars false
namespace Verif.Conc
open Verif.Id Verif.GTree
open Verif.Tree (widthOk_of Out AtMost newTree)

variable {I : Impl} {L : Type} [Labels L] {N : Nat}

/-! ### `ClaimRange` as one section -/

/-- the calls, if no other call overlaps with `ClaimRange` -/
def scode (N : Nat) (g : GTree I L) : TCall I L → TClient I L
  | .claimRange s l =>
    match (parseRange s : Option (Rng I.P)) with
    | none => .ret .err
    | some r =>
      match r.ids with
      | none => .ret .panic
      | some ids => .call (.setAll l ids) (replyDone .done)
  | c => tcode N g c

/-- a `ClaimRange` that changes the tree -/
def TCall.Loops : TCall I L → Prop
  | .claimRange s _ => ∃ (r : Rng I.P) (ids : List (MyId I.P)), parseRange s = some r ∧ r.ids = some ids
  | _ => False

theorem scode_fits (g : GTree I L) {c : TCall I L} (hc : c.Fits) : scode N g c = tcode N g c := by
  cases c with
  | claimRange s l => cases hc
  | _ => rfl

theorem scode_same (g : GTree I L) (c : TCall I L) (hc : ¬ c.Loops) : tprog N g c = (scode N g c).compile tsec := by
  cases c with
  | claimRange s l =>
    simp only [tprog, claimRangeP, scode]
    cases hp : (parseRange s : Option (Rng I.P)) with
    | none => rfl
    | some r =>
      simp only
      cases hi : r.ids with
      | none => rfl
      | some ids => exact absurd ⟨r, ids, hp, hi⟩ hc
  | _ => rfl

theorem scode_loops (g : GTree I L) (c : TCall I L) (hc : c.Loops) : NoLock (tprog N g c) ∧
    ∃ k, (scode N g c).compile tsec = .lock k ∧ ∀ m, InW ((tprog N g c).exec m).1 (.ret ((tprog N g c).exec m).2) m k := by
  cases c with
  | claimRange s l =>
    obtain ⟨r, ids, hp, hi⟩ := hc
    simp only [tprog, claimRangeP, scode, hp, hi]
    refine ⟨(noLock_setAllP l ids).bind fun r => by split <;> exact .ret _, _, rfl, ?_⟩
    intro m
    have h1 : InW ((setAllP l ids).exec m).1 (.ret ((setAllP (I := I) l ids).exec m).2) m
        ((setAllP l ids).bind fun r => .unlock (.ret r)) := InW.seq (noLock_setAllP l ids) .last
    have h2 := h1.bind (fun r => (replyDone (I := I) (L := L) .done r).compile tsec)
    rw [exec_bind]
    refine Eq.subst (motive := fun q => InW _ q m _) ?_ (Eq.subst (motive := fun a => InW a _ m _) ?_ h2)
    · show (replyDone (I := I) (L := L) .done ((setAllP l ids).exec m).2).compile tsec = _
      generalize (setAllP l ids).exec m = x
      obtain ⟨x1, x2⟩ := x
      cases x2 <;> rfl
    · generalize (setAllP l ids).exec m = x
      obtain ⟨x1, x2⟩ := x
      cases x2 <;> rfl
  | _ => cases hc

/-- `ClaimRange` under the write lock -/
theorem exec_sync {g₀ : GTree I L} {g : Cfg (TCall I L) (GTree I L) (TReply I L)} {H} (h : Exec (tprog N g₀) g₀ g H)
    (ha : Alone TCall.Loops H) : ∃ g', Exec (fun c => (scode N g₀ c).compile tsec) g₀ g' H := by
  have hq : ∀ g H, Exec (fun c => (scode N g₀ c).compile tsec) g₀ g H → ∀ x ∈ g.th, x.prog = none → x.rd = 0 ∧ x.wr = .none := by
    intro g H h x hx hp
    obtain ⟨a, G, _, hR⟩ := sim (sem := tsem) tsections h
    obtain ⟨i, hi⟩ := List.mem_iff_getElem?.1 hx
    have hia : ∃ y, a.th[i]? = some y :=
      ⟨_, List.getElem?_eq_getElem (by rw [← hR.len]; exact (List.getElem?_eq_some_iff.1 hi).1)⟩
    obtain ⟨y, hy⟩ := hia
    cases hR.th i x y hi hy with
    | done => exact ⟨rfl, rfl⟩
    | _ => cases hp
  obtain ⟨g', h1, _⟩ := exec_solo (scode_same g₀) (scode_loops g₀) hq h ha
  exact ⟨g', h1⟩

/-! ### A call alone -/

theorem InR.exec {σ ρ : Type} {m : σ} {q p : Prog σ ρ} {n : Nat} (h : InR m q n p) : p.exec m = q.exec m := by
  induction h with
  | read _ ih => exact ih
  | rlock _ ih => exact ih
  | runlock _ ih => exact ih
  | last => rfl

theorem InW.exec {σ ρ : Type} {m m' : σ} {q p : Prog σ ρ} (h : InW m' q m p) : p.exec m = q.exec m' := by
  induction h with
  | read _ ih => exact ih
  | write _ ih => exact ih
  | last => rfl

theorem tsec_exec (x : TSec I L) (m : GTree I L) : (tsec x).exec m = tsem m x := by
  rcases tsections x with ⟨k, h1, h2⟩ | ⟨k, h1, h2⟩
  · rw [h1]
    show k.exec m = _
    rw [(h2 m).2.exec]
    exact Prod.ext (h2 m).1.symm rfl
  · rw [h1]
    show k.exec m = _
    rw [(h2 m).exec]
    rfl

theorem alone_call (x : TSec I L) (k : TSecR I L → TClient I L) (m : GTree I L) :
    alone (.call x k) m = alone (k (tsem m x).2) (tsem m x).1 := by
  unfold alone
  rw [Client.compile, exec_bind, tsec_exec]

theorem setAllS_of_setAll (l : L) : ∀ {ids : List (MyId I.P)} {g g' : GTree I L}, g.setAll l ids = .ok g' → setAllS l ids g = (g', .ok)
  | [], g, g', h => by cases h; rfl
  | id :: ids, g, g', h => by
    have h' : (g.set id ⟨id, l⟩ >>= fun g => g.setAll l ids) = .ok g' := h
    rw [setAllS]
    cases hs : g.set id ⟨id, l⟩ with
    | ok g1 =>
      rw [hs] at h'
      exact setAllS_of_setAll l h'
    | _ => rw [hs] at h'; cases h'

/-- how many prefixes a call may claim -/
def TCall.cost : TCall I L → Nat
  | .claimRange s _ =>
    match (parseRange s : Option (Rng I.P)) with
    | none => 0
    | some r =>
      match r.ids with
      | none => 0
      | some ids => ids.length
  | _ => 1

/-- the lengths of the ids passed -/
def TCall.Sized : TCall I L → Prop
  | .claim id _ => id.len ≤ I.P.W
  | .update id _ => id.len ≤ I.P.W
  | .release id => id.len ≤ I.P.W
  | _ => True

/-- a text of `ClaimRange` names ids below `2^31` only -/
def TCall.Low : TCall I L → Prop
  | .claimRange s _ => ∀ a b, IsRange I.P.W s a b → a < 2 ^ 31 ∧ b < 2 ^ 31
  | _ => True

theorem TStep.weak {length : Nat} {M M' : Map I.P L} {c : TCall I L} {r : TReply I L} (h : TStep length M c M' r) :
    TStepW length M c M' r := by
  cases c with
  | clone => exact h.1
  | getByLabel sel => exact h.1
  | getAll => exact h.1
  | size => exact h.1
  | releaseByLabel sel =>
    intro q
    rw [h.1 q]
    cases M q with
    | none => exact .inl rfl
    | some e =>
      cases hs : sel e.labels with
      | true => exact .inr (by simp [hs])
      | false => exact .inl (by simp [hs])
  | claimFree l =>
    rcases h with h | ⟨x, h1, _, h2, h3⟩
    · exact .inl h
    · exact .inr ⟨x, h1, h2, h3⟩
  | _ => exact h

theorem atMost_put {k : Nat} {M : Map I.P L} (h : AtMost k M) (id : MyId I.P) (l : L) : AtMost (k + 1) (GTree.put M id l) :=
  eff_atMost h (.set id l)

theorem atMost_le {k k' : Nat} {M : Map I.P L} (h : AtMost k M) (hk : k ≤ k') : AtMost k' M := by
  obtain ⟨ks, h1, h2⟩ := h
  exact ⟨ks, by omega, h2⟩

theorem atMost_puts (l : L) : ∀ (ids : List (MyId I.P)) {k : Nat} {M : Map I.P L}, AtMost k M → AtMost (k + ids.length) (puts M l ids)
  | [], _, _, h => h
  | id :: ids, k, M, h => by
    have := atMost_puts l ids (atMost_put h id l)
    rw [List.length_cons]
    exact atMost_le this (by omega)

/-- how many prefixes are claimed after a call -/
theorem step_atMost {length : Nat} {M M' : Map I.P L} {c : TCall I L} {r : TReply I L} (h : TStepW length M c M' r) {k : Nat}
    (ha : AtMost k M) : AtMost (k + c.cost) M' := by
  have same : ∀ {c : TCall I L}, M' = M → AtMost (k + c.cost) M' := fun h => h ▸ atMost_le ha (by omega)
  cases c with
  | clone | getByLabel sel | getAll | size => exact same h
  | get id | children id | parents id => exact same h.1
  | update id l | claim id l =>
    simp only [TStepW, TStep] at h
    split at h
    · rw [h.1]; exact atMost_put ha id l
    · exact same h.1
  | claimFree l =>
    rcases h with h | ⟨x, _, h, _⟩
    · exact same h.1
    · rw [h]; exact atMost_put ha _ l
  | claimRange s l =>
    rcases h with ⟨_, h, _⟩ | ⟨x, ids, h1, h2, h3, _⟩
    · exact same h
    · rw [h3]
      simp only [TCall.cost, h1, h2]
      exact atMost_puts l ids ha
  | release id =>
    simp only [TStepW, TStep] at h
    split at h
    · refine atMost_le (atMost_mono ha ?_) (Nat.le_add_right _ _)
      intro q hq hn
      apply hq
      rw [h.1 q, hn]
      split <;> rfl
    · exact same h.1
  | releaseByLabel sel =>
    refine atMost_le (atMost_mono ha ?_) (Nat.le_add_right _ _)
    intro q hq hn
    rcases h q with h | h
    · exact hq (h.trans hn)
    · exact hq h

theorem ids_low' {P : Pkg} (hP : P = id32) {s : List UInt8} {x : Rng P} (hx : parseRange s = some x)
    (h : ∀ a b, IsRange P.W s a b → a < 2 ^ 31 ∧ b < 2 ^ 31) {ids : List (MyId P)} (hi : x.ids = some ids) :
    ∀ i ∈ ids, i.id.toNat < 2 ^ 31 ∧ i.len ≤ P.W := by
  subst hP
  exact ids_low hx h hi

/-- all ids stay below `2^31` -/
theorem step_low (hI : I.P = id32) {length : Nat} (hl : length ≤ 31) {M M' : Map I.P L} {c : TCall I L} {r : TReply I L}
    (h : TStepW length M c M' r) (hs : c.Sized) (hc : c.Low) (ha : LowMap M) : LowMap M' := by
  have same : M' = M → LowMap M' := fun h => h ▸ ha
  have hp : 2 ^ length ≤ 2 ^ 31 := Nat.pow_le_pow_right (by decide) hl
  cases c with
  | clone | getByLabel sel | getAll | size => exact same h
  | get id | children id | parents id => exact same h.1
  | update id l | claim id l =>
    simp only [TStepW, TStep] at h
    split at h
    · rw [h.1]; exact lowMap_put ha (by omega) hs l
    · exact same h.1
  | claimFree l =>
    rcases h with h | ⟨x, h0, h, _⟩
    · exact same h.1
    · rw [h]; exact lowMap_put ha (show x.toNat < _ by omega) (Nat.le_refl _) l
  | claimRange s l =>
    rcases h with ⟨_, h, _⟩ | ⟨x, ids, h1, h2, h3, _⟩
    · exact same h
    · rw [h3]
      exact lowMap_puts l ha (ids_low' hI h1 hc h2)
  | release id =>
    simp only [TStepW, TStep] at h
    split at h
    · refine lowMap_sub ha fun q e he => ?_
      rw [h.1 q] at he
      split at he
      · exact (Option.filter_eq_some_iff.1 he).1
      · exact he
    · exact same h.1
  | releaseByLabel sel =>
    refine lowMap_sub ha fun q e he => ?_
    rcases h q with h | h
    · exact h.symm.trans he
    · cases h.symm.trans he

theorem room_of {M : Map I.P L} {k : Nat} (ha : AtMost k M) (hk : I.P.W = 32 → k ≤ 2 ^ 31) : Room M :=
  Verif.GTree.room_few (fun hw => atMost_le ha (by have := hk hw; omega))

/-- an id of full length that the tree does not see is not claimed -/
theorem not_claimed {length : Nat} {m : GTree I L} {M : Map I.P L} (hm : GInv length m M) {rl : Nat} (hrl : rl < I.P.W)
    {x : BitVec I.P.W} (hx : ¬ Seen M rl x) : M (pre ⟨x, I.P.W⟩) = none := by
  cases hq : M (pre ⟨x, I.P.W⟩) with
  | none => rfl
  | some e =>
    exfalso
    obtain ⟨w1, w2⟩ := hm.wf _ _ hq
    have hlen : I.P.W = e.id.len := by
      have := congrArg List.length w1
      rwa [pre_length, pre_length] at this
    refine hx ⟨_, e, hq, by omega, ?_⟩
    have := (covers_iff_pre (a := e.id) (b := ⟨x, I.P.W⟩) (Nat.le_refl _) w2).2 (by rw [w1]; exact List.prefix_refl _)
    exact this

/-- a call alone does what it should -/
theorem solo_spec (hI : I = tree16 ∨ I = tree32) {length : Nat} (hle : length ≤ I.P.W) (hroot : I.rootLen length < I.P.W)
    {m : GTree I L} {M : Map I.P L} (hm : GInv length m M) {c : TCall I L} (hc : c.Sized)
    (hroomW : ∀ {M' : Map I.P L} {r : TReply I L}, TStepW length M c M' r → Room M') :
    ∃ M', GInv length (alone (scode N (newG I L length) c) m).1 M' ∧ TStepX length M c M' (alone (scode N (newG I L length) c) m).2 := by
  have hX : ∀ {M' : Map I.P L} {c : TCall I L} {r : TReply I L}, TStep length M c M' r → (∀ l, c ≠ .claimFree l) → TStepX length M c M' r :=
    fun h hc => ⟨h, fun l hl => absurd hl (hc l)⟩
  -- a call that may have effects without being disturbed
  have hroom : ∀ {M' : Map I.P L} {r : TReply I L}, TStep length M c M' r → Room M' :=
    fun h => hroomW h.weak
  have hv := valid_new (L := L) hI hle
  have hclaim : ∀ {c : TCall I L} {id : MyId I.P} {l : L}, c = .claim id l ∨ c = .update id l → id.len ≤ I.P.W →
      (∀ {M' : Map I.P L} {r : TReply I L}, TStep length M c M' r → Room M') →
      ∃ M', GInv length (alone (scode N (newG I L length) c) m).1 M' ∧ TStep length M c M' (alone (scode N (newG I L length) c) m).2 := by
    intro c id l hc hid hroom
    have hcode : scode N (newG I L length) c = if !(newG I L length).valid id then .ret .err else .call (.set id l) (replyDone .done) := by
      rcases hc with rfl | rfl <;> rfl
    have hstep : ∀ M' r, TStep length M c M' r ↔ if id.id.toNat < 2 ^ length then M' = GTree.put M id l ∧ r = .done else M' = M ∧ r = .err := by
      rcases hc with rfl | rfl <;> exact fun _ _ => Iff.rfl
    rw [hcode]
    by_cases hlt : id.id.toNat < 2 ^ length
    · obtain ⟨g', e1, e2⟩ := set_inv (ok_of hI) hm hid l (hroom ((hstep (GTree.put M id l) .done).2 (by rw [if_pos hlt]; exact ⟨rfl, rfl⟩)))
      have hal : alone (.call (.set id l) (replyDone .done)) m = (g', .done) := by
        rw [alone_call]
        simp only [tsem, e1]
        rfl
      rw [if_neg (by simp [(hv id).2 hlt]), hal]
      exact ⟨_, e2, (hstep _ _).2 (by rw [if_pos hlt]; exact ⟨rfl, rfl⟩)⟩
    · rw [if_pos (by simpa using fun h => hlt ((hv id).1 h))]
      exact ⟨M, hm, (hstep _ _).2 (by rw [if_neg hlt]; exact ⟨rfl, rfl⟩)⟩
  cases c with
  | clone => exact ⟨M, hm, hX ⟨rfl, rfl⟩ (by simp)⟩
  | get id =>
    have hal : alone (scode N (newG I L length) (.get id)) m =
        (m, match (M (pre id)).filter (fun e => decide (e.id = id)) with | some e => .got e | none => .err) := by
      show alone (.call (.get id) _) m = _
      rw [alone_call]
      simp only [tsem, get_spec hm, TSecR.ofFound]
      cases (M (pre id)).filter (fun e => decide (e.id = id)) <;> rfl
    rw [hal]
    refine ⟨M, hm, hX ⟨rfl, ?_⟩ (by simp)⟩
    rcases found_cases (o := M (pre id)) (id := id) with ⟨e, h1, h2, h3⟩ | ⟨h1, h2⟩
    · exact .inl ⟨e, h1, h2, by simp only [h3]⟩
    · exact .inr ⟨h1, by simp only [h2]⟩
  | update id l =>
    obtain ⟨M', h1, h2⟩ := hclaim (.inr rfl) hc hroom
    exact ⟨M', h1, hX h2 (by simp)⟩
  | claim id l =>
    obtain ⟨M', h1, h2⟩ := hclaim (.inl rfl) hc hroom
    exact ⟨M', h1, hX h2 (by simp)⟩
  | claimFree l =>
    have hfs := findFree_spec (ok_of hI) hm (Nat.le_of_lt hroot)
    have hcode : ∀ o, m.findFree = .ok o → alone (scode N (newG I L length) (.claimFree l)) m =
        match o with
        | .ok x => alone (.call (.set ⟨x, I.P.W⟩ l) (replyDone (.got ⟨⟨x, I.P.W⟩, l⟩))) m
        | .err => (m, .err) := by
      intro o ho
      obtain ⟨b, ch, hb, hch, hcf⟩ := findFree_inv ho
      rw [hm.len] at hb hch
      have hc' : chooseFree (newG I L length) b ch = .ok o := by
        rw [← hcf]
        unfold chooseFree GTree.valid
        rw [hm.size]
      have hb' : ofRes (Builder.empty.addId (⟨0, I.rootLen (newG I L length).length⟩ : MyId I.P)) = .ok b := hb
      simp only [scode, tcode, hb']
      rw [alone_call]
      have hr : tsem m (.children ⟨0, I.rootLen (newG I L length).length⟩) = (m, .list ch) := by
        show (m, TSecR.ofList (m.children ⟨0, I.rootLen length⟩)) = _
        rw [hch]; rfl
      rw [hr]
      simp only [hc']
      cases o <;> rfl
    have herr : m.findFree = .ok .err → (I = tree16 → ∀ x : BitVec I.P.W, x.toNat < 2 ^ length → Covered M x) →
        ∃ M', GInv length (alone (scode N (newG I L length) (.claimFree l)) m).1 M' ∧
          TStepX length M (.claimFree l) M' (alone (scode N (newG I L length) (.claimFree l)) m).2 := by
      intro h1 h2
      rw [hcode _ h1]
      exact ⟨M, hm, .inl ⟨rfl, rfl⟩, fun l' _ => ⟨fun e he => (by cases he), fun _ => h2⟩⟩
    have h16 : I = tree16 → ∀ x : BitVec I.P.W, x.toNat < 2 ^ length ↔ Covers ⟨0, I.rootLen length⟩ x := by
      intro h x
      rw [covers_zero]
      subst h
      have h1 : tree16.rootLen length = 16 - length := Verif.Tree.sub8_eq hle (by decide)
      have h2 : length ≤ 16 := hle
      rw [h1]
      show _ ↔ x.toNat < 2 ^ (16 - (16 - length))
      rw [show 16 - (16 - length) = length by omega]
    rcases hfs with ⟨h1, h2⟩ | ⟨x, h1, h2, h3, _⟩
    · refine herr h1 fun h x hx => ?_
      obtain ⟨q, e, a1, _, a2⟩ := h2 x ((h16 h x).1 hx)
      exact ⟨q, e, a1, a2⟩
    · by_cases hx : x.toNat < 2 ^ length
      · rw [if_pos hx] at h1
        have hst : TStep length M (.claimFree l) (GTree.put M ⟨x, I.P.W⟩ l) (.got ⟨⟨x, I.P.W⟩, l⟩) :=
          .inr ⟨x, hx, not_claimed hm hroot h3, rfl, rfl⟩
        obtain ⟨g', e1, e2⟩ := set_inv (ok_of hI) hm (id := ⟨x, I.P.W⟩) (Nat.le_refl _) l (hroom hst)
        have hal : alone (.call (.set ⟨x, I.P.W⟩ l) (replyDone (.got ⟨⟨x, I.P.W⟩, l⟩))) m = (g', .got ⟨⟨x, I.P.W⟩, l⟩) := by
          rw [alone_call]
          simp only [tsem, e1]
          rfl
        rw [hcode _ h1]
        simp only [hal]
        refine ⟨_, e2, hst, fun l' _ => ⟨?_, fun h => by cases h⟩⟩
        intro e he hn hcov
        cases he
        exact h3 ((seen_iff hn h2).2 hcov)
      · rw [if_neg hx] at h1
        exact herr h1 fun h => absurd ((h16 h x).2 h2) hx
  | claimRange s l =>
    cases hp : (parseRange s : Option (Rng I.P)) with
    | none =>
      have hal : alone (scode N (newG I L length) (.claimRange s l)) m = (m, .err) := by
        simp only [scode, hp]; rfl
      rw [hal]
      exact ⟨M, hm, hX (.inl ⟨(by rintro ⟨x, hx⟩; rw [hp] at hx; cases hx), rfl, rfl⟩) (by simp)⟩
    | some r =>
      obtain ⟨ids, h1, h2⟩ := ids_total (good_of (ok_of hI)) r
      have hst : TStep length M (.claimRange s l) (puts M l ids) .done := .inr ⟨r, ids, hp, h1, rfl, rfl⟩
      obtain ⟨g', e1, e2⟩ := setAll_spec (ok_of hI) l hm h2 (hroom hst)
      have hal : alone (scode N (newG I L length) (.claimRange s l)) m = (g', .done) := by
        simp only [scode, hp, h1]
        rw [alone_call]
        simp only [tsem, setAllS_of_setAll l e1]
        rfl
      rw [hal]
      exact ⟨_, e2, hX hst (by simp)⟩
  | release id =>
    have hcode : scode N (newG I L length) (.release id) = if !(newG I L length).valid id then .ret .err else .call (.get id) fun
        | .found (some e) => .call (.del id e) (replyDone .done)
        | .found none => .ret .done
        | _ => .ret .panic := rfl
    rw [hcode]
    by_cases hlt : id.id.toNat < 2 ^ length
    · rw [if_neg (by simp [(hv id).2 hlt]), alone_call]
      simp only [tsem, get_spec hm, TSecR.ofFound]
      rcases found_cases (o := M (pre id)) (id := id) with ⟨e, h1, h2, h3⟩ | ⟨h1, h2⟩
      · obtain ⟨g', e1, e2⟩ := del_inv (ok_of hI) hm (id := id) hc e
        simp only [h3]
        have hal : alone (.call (.del id e) (replyDone .done)) m = (g', .done) := by
          rw [alone_call]
          simp only [tsem, e1]
          rfl
        rw [hal]
        refine ⟨_, e2, hX ?_ (by simp)⟩
        simp only [TStep, if_pos hlt]
        refine ⟨fun q => ?_, trivial⟩
        split
        · rename_i hq
          subst hq
          rw [h1, filter_neg (by simp [equal_refl]), filter_neg (by simp [h2])]
        · rfl
      · simp only [h2]
        refine ⟨M, hm, hX ?_ (by simp)⟩
        simp only [TStep, if_pos hlt]
        refine ⟨fun q => ?_, rfl⟩
        split
        · rename_i hq
          subst hq
          cases hM : M (pre id) with
          | none => rfl
          | some e =>
            symm
            rw [Option.filter_eq_some_iff]
            exact ⟨rfl, by simpa using h1 e hM⟩
        · rfl
    · rw [if_pos (by simpa using fun h => hlt ((hv id).1 h))]
      refine ⟨M, hm, hX ?_ (by simp)⟩
      simp only [TStep, if_neg hlt]
      exact ⟨trivial, rfl⟩
  | releaseByLabel sel =>
    obtain ⟨l, l1, l2, _⟩ := entries_spec hm
    obtain ⟨g', e1, e2⟩ := releaseByLabel_spec (ok_of hI) hm sel
    have hdel : m.delAll (l.filter fun e => sel e.labels) = .ok g' := by
      rw [← e1]
      unfold GTree.releaseByLabel GTree.getByLabel
      rw [l2]
      show _ = (labelLoop sel (l.map some) >>= fun es => m.delAll es)
      rw [labelLoop_spec]
      rfl
    have hal : alone (scode N (newG I L length) (.releaseByLabel sel)) m = (g', .done) := by
      show alone (.call .iterate fun _ => walkC N (labelBody sel) [] releaseC) m = _
      rw [alone_iterate, alone_walkLabel l2, releaseC, alone_call, beforeNil_map, if_pos (by simp)]
      simp only [tsem, hdel]
      rfl
    rw [hal]
    exact ⟨_, e2, hX ⟨fun _ => rfl, rfl⟩ (by simp)⟩
  | children id =>
    by_cases hid : id.len ≤ I.P.W
    · obtain ⟨l, h1, _, h2⟩ := children_ginv hI hm id hid
      have hal : alone (scode N (newG I L length) (.children id)) m = (m, .entries (l.filter (fun e => decide (pre id <+: pre e.id ∧ pre id ≠ pre e.id)))) := by
        show alone (.call (.children id) _) m = _
        rw [alone_call]
        simp only [tsem, h2, TSecR.ofList]
        rfl
      rw [hal]
      exact ⟨M, hm, hX ⟨rfl, fun _ => ⟨l, h1, rfl⟩⟩ (by simp)⟩
    · have hal : (alone (scode N (newG I L length) (.children id)) m).1 = m := by
        show (alone (.call (.children id) _) m).1 = _
        rw [alone_call]
        simp only [tsem]
        generalize TSecR.ofList (m.children id) = r0
        cases r0 <;> rfl
      rw [hal]
      exact ⟨M, hm, hX ⟨rfl, fun h => absurd h hid⟩ (by simp)⟩
  | parents id =>
    by_cases hid : id.len ≤ I.P.W
    · obtain ⟨l, h1, _, h2, _⟩ := parents_ginv hI hm id hid
      have hal : alone (scode N (newG I L length) (.parents id)) m =
          (m, .entries (l.filter (fun e => decide ((pre e.id <+: pre id ∨ pre id <+: pre e.id) ∧ e.id.len < I.P.W)))) := by
        show alone (.call (.parents id) _) m = _
        rw [alone_call]
        simp only [tsem, h2, TSecR.ofList]
        rfl
      rw [hal]
      exact ⟨M, hm, hX ⟨rfl, fun _ => ⟨l, h1, rfl⟩⟩ (by simp)⟩
    · have hal : (alone (scode N (newG I L length) (.parents id)) m).1 = m := by
        show (alone (.call (.parents id) _) m).1 = _
        rw [alone_call]
        simp only [tsem]
        generalize TSecR.ofList (m.parents id) = r0
        cases r0 <;> rfl
      rw [hal]
      exact ⟨M, hm, hX ⟨rfl, fun h => absurd h hid⟩ (by simp)⟩
  | getByLabel sel =>
    obtain ⟨l, l1, l2, _⟩ := entries_spec hm
    have hal := alone_reader (N := N) (newG I L length) l2 (c := .getByLabel sel) (.inr (.inl ⟨sel, rfl⟩))
    show ∃ M', GInv length (alone (tcode N (newG I L length) (.getByLabel sel)) m).1 M' ∧ TStepX length M _ M' (alone (tcode N (newG I L length) (.getByLabel sel)) m).2
    rw [hal]
    exact ⟨M, hm, hX ⟨rfl, l, l1, rfl⟩ (by simp)⟩
  | getAll =>
    obtain ⟨l, l1, l2, _⟩ := entries_spec hm
    have hal := alone_reader (N := N) (newG I L length) l2 (c := .getAll) (.inl rfl)
    show ∃ M', GInv length (alone (tcode N (newG I L length) .getAll) m).1 M' ∧ TStepX length M _ M' (alone (tcode N (newG I L length) .getAll) m).2
    rw [hal]
    exact ⟨M, hm, hX ⟨rfl, l, l1, rfl⟩ (by simp)⟩
  | size =>
    obtain ⟨l, l1, l2, _⟩ := entries_spec hm
    have hal := alone_reader (N := N) (newG I L length) l2 (c := .size) (.inr (.inr rfl))
    show ∃ M', GInv length (alone (tcode N (newG I L length) .size) m).1 M' ∧ TStepX length M _ M' (alone (tcode N (newG I L length) .size) m).2
    rw [hal]
    exact ⟨M, hm, hX ⟨rfl, l, l1, rfl⟩ (by simp)⟩

/-! ### Where a call changes the tree -/

/-- at most the last section changes the tree, and only if `ch` -/
inductive Final (ch : Prop) : TClient I L → Prop
  | ret (r) : Final ch (.ret r)
  | call {x k} : x.changes = false → (∀ r, Final ch (k r)) → Final ch (.call x k)
  | last {x k} : ch → (∀ r, ∃ r', k r = .ret r') → Final ch (.call x k)
  | peek {k} : (∀ s, Final ch (k s)) → Final ch (.peek k)

theorem Final.path {ch : Prop} {d d' : TClient I L} {l} (hp : d.Path l d') (h : Final ch d) : Final ch d' := by
  induction hp with
  | nil => exact h
  | @call c k r l d _ ih =>
    cases h with
    | call _ h => exact ih (h _)
    | last _ h =>
      obtain ⟨r', hr'⟩ := h r
      exact ih (hr' ▸ .ret _)
  | peek _ ih =>
    cases h with
    | peek h => exact ih (h _)

theorem final_replyDone {ch : Prop} (hc : ch) (x : TSec I L) (k : TReply I L) : Final ch (.call x (replyDone k)) := by
  refine .last hc fun r => ?_
  unfold replyDone
  split <;> exact ⟨_, rfl⟩

theorem final_releaseC {ch : Prop} (hc : ch) (es : List (Option (Entry I.P L))) : Final ch (releaseC es) := by
  refine .last hc fun r => ?_
  split
  · unfold replyDone
    split <;> exact ⟨_, rfl⟩
  · exact ⟨_, rfl⟩

theorem final_nextC {ch : Prop} {k : Bool → Tree.Iter → TClient I L} (hk : ∀ b it, Final ch (k b it)) :
    ∀ n it, Final ch (nextC n it k)
  | 0, _ => .ret _
  | n + 1, it => by
    refine .peek fun g => ?_
    split
    · exact final_nextC hk n _
    · exact hk _ _
    · exact hk _ _
    · exact .ret _

theorem final_entryC {ch : Prop} {i : Nat} {k : Option (Entry I.P L) → TClient I L} (hk : ∀ v, Final ch (k v)) :
    Final ch (entryC i k) := by
  refine .peek fun g => ?_
  split
  · exact hk _
  · exact .ret _

theorem final_walkC {ch : Prop} {A : Type} {body : A → Nat → (A → TClient I L) → TClient I L}
    (hb : ∀ acc i k, (∀ a, Final ch (k a)) → Final ch (body acc i k)) {k : A → TClient I L} (hk : ∀ a, Final ch (k a))
    (acc : A) : Final ch (walkC N body acc k) := by
  have loop : ∀ n it acc, Final ch (loopC N body n it acc k) := by
    intro n
    induction n with
    | zero => exact fun _ _ => .ret _
    | succ n ih =>
      intro it acc
      refine .peek fun g => final_nextC (fun b it => ?_) _ _
      split
      · exact hb _ _ _ fun a => ih _ _
      · exact hk _
  exact .peek fun _ => loop _ _ _

theorem final_labelBody {ch : Prop} (sel : L → Bool) (acc : List (Option (Entry I.P L))) (i : Nat)
    (k : List (Option (Entry I.P L)) → TClient I L) (hk : ∀ a, Final ch (k a)) : Final ch (labelBody sel acc i k) := by
  refine final_entryC fun v => ?_
  split
  · exact .ret _
  · split
    · exact final_entryC fun v => hk _
    · exact hk _

theorem scode_final (g : GTree I L) (c : TCall I L) : Final c.Changes (scode N g c) := by
  cases c with
  | clone => exact .peek fun _ => .ret _
  | get id | children id | parents id =>
    refine .call rfl fun r => ?_
    split <;> exact .ret _
  | update id l | claim id l =>
    simp only [scode, tcode]
    split
    · exact .ret _
    · exact final_replyDone trivial _ _
  | claimFree l =>
    simp only [scode, tcode]
    split
    · refine .call rfl fun r => ?_
      split
      · split
        · exact final_replyDone trivial _ _
        · exact .ret _
        · exact .ret _
      · exact .ret _
    · exact .ret _
  | claimRange s l =>
    simp only [scode]
    split
    · exact .ret _
    · split
      · exact .ret _
      · exact final_replyDone trivial _ _
  | release id =>
    simp only [scode, tcode]
    split
    · exact .ret _
    · refine .call rfl fun r => ?_
      split
      · exact final_replyDone trivial _ _
      · exact .ret _
      · exact .ret _
  | releaseByLabel sel =>
    exact .call rfl fun r => final_walkC (final_labelBody sel) (final_releaseC trivial) _
  | getByLabel sel => exact .call rfl fun r => final_walkC (final_labelBody sel) (fun es => .ret _) _
  | getAll => exact .call rfl fun r => final_walkC (fun _ _ _ hk => final_entryC fun _ => hk _) (fun es => .ret _) _
  | size => exact .call rfl fun r => final_walkC (fun _ _ _ hk => hk _) (fun es => .ret _) _

theorem tsem_keep (m : GTree I L) {x : TSec I L} (h : x.changes = false) : (tsem m x).1 = m := by
  cases x with
  | set _ _ | del _ _ | delAll _ | setAll _ _ => cases h
  | _ => rfl

theorem scode_noW (g : GTree I L) (c : TCall I L) (hc : ¬ c.Changes) : NoW ((scode N g c).compile tsec) := by
  rw [← scode_same g c fun h => hc ?_]
  · exact tprog_noW g c hc
  · cases c with
    | claimRange s l => trivial
    | _ => cases h

/-- a call that does not change the tree -/
theorem TStep.keep {length : Nat} {M M' : Map I.P L} {c : TCall I L} {r : TReply I L} (h : TStep length M c M' r)
    (hc : ¬ c.Changes) : M' = M := by
  cases c with
  | clone | get _ | children _ | parents _ | getByLabel _ | getAll | size => exact h.1
  | _ => exact absurd trivial hc

/-! ### Runs -/

section
variable {κ ρ σ : Type}

/-- the calls, executed one after the other; what a call may do depends on its number -/
inductive NRuns (St : Nat → σ → κ → σ → ρ → Prop) : σ → List (Nat × κ × ρ) → σ → Prop
  | nil (m) : NRuns St m [] m
  | cons {m m' m'' n c r L} : St n m c m' r → NRuns St m' L m'' → NRuns St m ((n, c, r) :: L) m''

theorem NRuns.append {St : Nat → σ → κ → σ → ρ → Prop} {m m' m'' : σ} {L L' : List (Nat × κ × ρ)} (h : NRuns St m L m')
    (h' : NRuns St m' L' m'') : NRuns St m (L ++ L') m'' := by
  induction h with
  | nil => exact h'
  | cons hs _ ih => exact .cons hs (ih h')

theorem NRuns.snoc {St : Nat → σ → κ → σ → ρ → Prop} {m m' m'' : σ} {L : List (Nat × κ × ρ)} {n : Nat} {c : κ} {r : ρ}
    (h : NRuns St m L m') (hs : St n m' c m'' r) : NRuns St m (L ++ [(n, c, r)]) m'' :=
  h.append (.cons hs (.nil _))

theorem NRuns.split {St : Nat → σ → κ → σ → ρ → Prop} : ∀ (Q : List (Nat × κ × ρ)) {m m'' : σ} {Q' : List (Nat × κ × ρ)},
    NRuns St m (Q ++ Q') m'' → ∃ m', NRuns St m Q m' ∧ NRuns St m' Q' m''
  | [], m, _, _, h => ⟨m, .nil m, h⟩
  | _ :: Q, _, _, _, h => by
    cases h with
    | cons h1 h =>
      obtain ⟨m', h2, h3⟩ := NRuns.split Q h
      exact ⟨m', .cons h1 h2, h3⟩

theorem NRuns.srun {St : Nat → σ → κ → σ → ρ → Prop} {St' : σ → κ → σ → ρ → Prop} {m m' : σ} {Q : List (Nat × κ × ρ)}
    (h : NRuns St m Q m') (hs : ∀ x ∈ Q, ∀ m m', St x.1 m x.2.1 m' x.2.2 → St' m x.2.1 m' x.2.2) : SRuns St' m Q m' := by
  induction h with
  | nil => exact .nil _
  | cons h1 _ ih =>
    exact .cons (hs _ (List.mem_cons_self ..) _ _ h1) (ih fun x hx => hs x (List.mem_cons_of_mem _ hx))

theorem NRuns.imp {St St' : Nat → σ → κ → σ → ρ → Prop} {m m' : σ} {Q : List (Nat × κ × ρ)} (h : NRuns St m Q m')
    (hs : ∀ n m c m' r, St n m c m' r → St' n m c m' r) : NRuns St' m Q m' := by
  induction h with
  | nil => exact .nil _
  | cons h1 _ ih => exact .cons (hs _ _ _ _ _ h1) ih

theorem sum_le_of_subset {A : Type} (f : A → Nat) : ∀ {l l' : List A}, l.Nodup → (∀ x ∈ l, x ∈ l') → (l.map f).sum ≤ (l'.map f).sum
  | [], _, _, _ => by simp
  | x :: l, l', hn, hs => by
    obtain ⟨A, B, rfl⟩ := List.append_of_mem (hs x (List.mem_cons_self ..))
    obtain ⟨h1, h2⟩ := List.nodup_cons.1 hn
    have := sum_le_of_subset f (l := l) (l' := A ++ B) h2 fun y hy => by
      have := hs y (List.mem_cons_of_mem _ hy)
      simp only [List.mem_append, List.mem_cons] at this ⊢
      rcases this with h | rfl | h
      · exact .inl h
      · exact absurd hy h1
      · exact .inr h
    simp only [List.map_append, List.map_cons, List.sum_append, List.sum_cons] at this ⊢
    omega

/-- a call that changes things overlaps with the call `n`, apart from `n` itself -/
def Crossed (ch : κ → Prop) (H : List (Ev κ ρ)) (n : Nat) : Prop :=
  ∃ m c, m ≠ n ∧ ch c ∧ Ev.inv m c ∈ H ∧ Overlap H m n

end

/-- how many prefixes the calls of a history may claim -/
def costs (H : List (Ev (TCall I L) (TReply I L))) : Nat :=
  (H.map fun
    | .inv _ c => c.cost
    | .ret _ _ => 0).sum

theorem orders_costs {H : List (Ev (TCall I L) (TReply I L))} {Q : List (Nat × TCall I L × TReply I L)} (h : Orders H Q) :
    (Q.map (·.2.1.cost)).sum ≤ costs H := by
  have := sum_le_of_subset (fun
    | .inv _ c => c.cost
    | .ret _ _ => 0 : Ev (TCall I L) (TReply I L) → Nat) (l := Q.map fun x => Ev.inv x.1 x.2.1) (l' := H) ?_ ?_
  · rw [List.map_map] at this
    exact this
  · refine List.pairwise_map.2 ((List.pairwise_map.1 h.nodup).imp ?_)
    intro a b hab he
    injection he with h1 _
    exact hab h1
  · intro x hx
    obtain ⟨y, hy, rfl⟩ := List.mem_map.1 hx
    exact h.inv y hy

theorem costs_append (H : List (Ev (TCall I L) (TReply I L))) (H') : costs (H ++ H') = costs H + costs H' := by
  simp [costs]

/-- what the call `n` may do: the calls in `D` as in the weak specification, the others as in the strong one -/
def DStep (length : Nat) (D : Nat → Prop) (n : Nat) (M : Map I.P L) (c : TCall I L) (M' : Map I.P L) (r : TReply I L) : Prop :=
  (D n → TStepW length M c M' r) ∧ (¬ D n → TStepX length M c M' r)

theorem DStep.weak {length : Nat} {D : Nat → Prop} {n : Nat} {M M' : Map I.P L} {c : TCall I L} {r : TReply I L}
    (h : DStep length D n M c M' r) : TStepW length M c M' r := by
  by_cases hd : D n
  · exact h.1 hd
  · exact (h.2 hd).1.weak

theorem nruns_atMost {length : Nat} {D : Nat → Prop} {M M' : Map I.P L} {Q : List (Nat × TCall I L × TReply I L)}
    (h : NRuns (DStep length D) M Q M') : ∀ {k : Nat}, AtMost k M → AtMost (k + (Q.map (·.2.1.cost)).sum) M' := by
  induction h with
  | nil => exact fun h => h
  | cons hs _ ih =>
    intro k hk
    have := ih (step_atMost hs.weak hk)
    rw [List.map_cons, List.sum_cons]
    exact atMost_le this (by simp only; omega)

theorem nruns_low (hI : I.P = id32) {length : Nat} (hl : length ≤ 31) {D : Nat → Prop} {M M' : Map I.P L}
    {Q : List (Nat × TCall I L × TReply I L)} (h : NRuns (DStep length D) M Q M') :
    (∀ x ∈ Q, x.2.1.Sized ∧ x.2.1.Low) → LowMap M → LowMap M' := by
  induction h with
  | nil => exact fun _ h => h
  | cons hs _ ih =>
    intro hq hM
    obtain ⟨h1, h2⟩ := hq _ (List.mem_cons_self ..)
    exact ih (fun x hx => hq x (List.mem_cons_of_mem _ hx)) (step_low hI hl hs.weak h1 h2 hM)

/-- what keeps a tree32 small: few claims, or no ids above `2^31` -/
def Small (length : Nat) (H : List (Ev (TCall I L) (TReply I L))) : Prop :=
  costs H ≤ 2 ^ 31 ∨ length ≤ 31 ∧ ∀ n c, Ev.inv n c ∈ H → c.Low

/-! ### Order -/

/-- A `ReleaseID` that has found the entry `e`: it is still there or has been removed, or a call that has replaced
it can come after the release. -/
def Helped (length : Nat) (D : Nat → Prop) (H : List (Ev (TCall I L) (TReply I L))) (Q : List (Nat × TCall I L × TReply I L))
    (M : Map I.P L) (n : Nat) (id : MyId I.P) (e : Entry I.P L) : Prop :=
  (∀ e', M (pre id) = some e' → e'.equal e = true) ∨
  ∃ x ∈ Q, D x.1 ∧ SetsAt length (pre id) x.2.1 x.2.2 ∧ ∀ b, Before H b n → [b, x.1].Sublist (Q.map (·.1))

theorem Helped.sub {length : Nat} {D : Nat → Prop} {H H' : List (Ev (TCall I L) (TReply I L))}
    {Q Q' : List (Nat × TCall I L × TReply I L)} {M M' : Map I.P L} {n : Nat} {id : MyId I.P} {e : Entry I.P L}
    (h : Helped length D H Q M n id e) (hQ : Q.Sublist Q') (hM : ∀ e', M' (pre id) = some e' → M (pre id) = some e')
    (hH : ∀ b, Before H' b n → Before H b n) : Helped length D H' Q' M' n id e := by
  rcases h with h | ⟨x, h0, h1, h2, h3⟩
  · exact .inl fun e' he' => h e' (hM e' he')
  · exact .inr ⟨x, hQ.subset h0, h1, h2, fun b hb => (h3 b (hH b hb)).trans (hQ.map _)⟩

/-- another call takes effect -/
theorem Helped.snoc {length : Nat} {D : Nat → Prop} {H : List (Ev (TCall I L) (TReply I L))} {Q : List (Nat × TCall I L × TReply I L)}
    {M : Map I.P L} {n : Nat} {id : MyId I.P} {e : Entry I.P L} (h : Helped length D H Q M n id e) (ho : Orders H Q)
    {n' : Nat} (hn' : D n') {c : TCall I L} {r : TReply I L} {x : TSec I L}
    (hx : ∀ id l, x = .set id l → SetsAt length (pre id) c r) : Helped length D H (Q ++ [(n', c, r)]) (x.eff M) n id e := by
  have hsub : Q.Sublist (Q ++ [(n', c, r)]) := List.sublist_append_left _ _
  by_cases hs : ∃ id' l', x = .set id' l' ∧ pre id' = pre id
  · obtain ⟨id', l', rfl, hid⟩ := hs
    refine .inr ⟨(n', c, r), by simp, hn', hid ▸ hx _ _ rfl, ?_⟩
    rintro b ⟨r', c', hb⟩
    obtain ⟨c'', hc''⟩ := ho.ret b r' (hb.subset (by simp))
    rw [List.map_append]
    exact List.Sublist.append (l₁ := [b]) (List.singleton_sublist.2 (List.mem_map.2 ⟨_, hc'', rfl⟩)) (List.Sublist.refl _)
  · refine h.sub hsub ?_ (fun _ h => h)
    intro e' he'
    cases x with
    | set id' l' =>
      simp only [TSec.eff, GTree.put] at he'
      rw [if_neg fun h => hs ⟨id', l', rfl, h.symm⟩] at he'
      exact he'
    | del id' e'' =>
      simp only [TSec.eff] at he'
      split at he'
      · exact (Option.filter_eq_some_iff.1 he').1
      · exact he'
    | delAll es =>
      rcases dels_sub (q := pre id) (es := es) (M := M) with h | h
      · exact h.symm.trans he'
      · cases h.symm.trans he'
    | _ => exact he'

theorem before_snoc_inv {κ ρ : Type} {H : List (Ev κ ρ)} {a b n : Nat} {c : κ} (hn : b ≠ n)
    (h : Before (H ++ [Ev.inv n c]) a b) : Before H a b := by
  obtain ⟨r', c', hs⟩ := h
  rcases sublist_snoc_of_ne hs with h | ⟨_, h⟩
  · exact ⟨r', c', h⟩
  · cases h; exact absurd rfl hn

theorem tcode_not_del {g : GTree I L} {c : TCall I L} {id : MyId I.P} {e : Entry I.P L} {k : TSecR I L → TClient I L} :
    tcode N g c ≠ .call (.del id e) k := by
  intro hk
  cases c with
  | update id l | claim id l =>
    simp only [tcode] at hk
    split at hk <;> cases hk
  | claimFree l =>
    simp only [tcode] at hk
    split at hk <;> cases hk
  | release id =>
    simp only [tcode] at hk
    split at hk <;> cases hk
  | _ => cases hk

/-- only `ReleaseID` deletes an entry -/
theorem tpend_del {length : Nat} {g : GTree I L} {c : TCall I L} {id : MyId I.P} {e : Entry I.P L} {k : TSecR I L → TClient I L}
    (h : TPend N length g c (.call (.del id e) k)) : c.Changes := by
  generalize hd : Client.call (TSec.del id e) k = d at h
  cases h with
  | start _ => exact absurd hd.symm tcode_not_del
  | set _ => cases hd
  | err => cases hd
  | del _ _ => trivial
  | read _ hu =>
    subst hd
    cases hu with
    | call h _ => cases h
  | walk hw =>
    subst hd
    cases hw

/-- the state of the calls in progress -/
def Threads (N length : Nat) (D : Nat → Prop) (a : ACfg (TCall I L) (TSec I L) (TSecR I L) (GTree I L) (TReply I L))
    (H : List (Ev (TCall I L) (TReply I L))) (Q : List (Nat × TCall I L × TReply I L)) (M : Map I.P L) : Prop :=
  ∀ (n : Nat) (c : TCall I L) (d : TClient I L), a.th[n]? = some (c, some d) →
    (n ∉ Q.map (·.1) ∧
      (D n → TPend N length (newG I L length) c d ∧ ∀ id e k, d = .call (.del id e) k → Helped length D H Q M n id e) ∧
      (¬ D n → alone d a.mem = alone (scode N (newG I L length) c) a.mem)) ∨
    ∃ r, d = .ret r ∧ (n, c, r) ∈ Q

theorem Rel.pend {κ κ₀ σ ρ ρ₀ : Type} {meth : κ₀ → Prog σ ρ₀} {g : Cfg κ σ ρ} {a : ACfg κ κ₀ ρ₀ σ ρ} (h : Rel meth g a) {n : Nat} {c : κ}
    {d : Client κ₀ ρ₀ σ ρ} (hn : a.th[n]? = some (c, some d)) : ∃ x, g.th[n]? = some x ∧ x.call = c ∧ x.prog ≠ none := by
  have hlt : n < g.th.length := by rw [h.len]; exact (List.getElem?_eq_some_iff.1 hn).1
  refine ⟨_, List.getElem?_eq_getElem hlt, ?_⟩
  have := h.th n _ _ (List.getElem?_eq_getElem hlt) hn
  generalize g.th[n] = x at this
  cases this <;> simp

theorem keeps_scode (hI : I = tree16 ∨ I = tree32) (g : GTree I L) {c : TCall I L} (hc : c.Sized) :
    Keeps Tidy ((scode N g c).compile tsec) := by
  cases c with
  | claimRange s l =>
    simp only [scode]
    split
    · exact .ret _
    · rename_i r _
      split
      · exact .ret _
      · rename_i ids hids
        obtain ⟨ids', h1, h2⟩ := ids_total (good_of (ok_of hI)) r
        rw [hids] at h1
        cases h1
        refine Keeps.bind (keeps_tsec (widthOk_of (by rcases hI with rfl | rfl <;> simp [tree16, tree32])) (.inr ⟨l, ids, rfl, h2⟩)) fun r => ?_
        unfold replyDone
        split <;> exact .ret _
  | claim id l => exact keeps_tcode (N := N) (ok_of hI) g (c := .claim id l) hc
  | update id l => exact keeps_tcode (N := N) (ok_of hI) g (c := .update id l) hc
  | release id => exact keeps_tcode (N := N) (ok_of hI) g (c := .release id) hc
  | clone => exact keeps_tcode (N := N) (ok_of hI) g (c := .clone) trivial
  | get id => exact keeps_tcode (N := N) (ok_of hI) g (c := .get id) trivial
  | claimFree l => exact keeps_tcode (N := N) (ok_of hI) g (c := .claimFree l) trivial
  | releaseByLabel sel => exact keeps_tcode (N := N) (ok_of hI) g (c := .releaseByLabel sel) trivial
  | children id => exact keeps_tcode (N := N) (ok_of hI) g (c := .children id) trivial
  | parents id => exact keeps_tcode (N := N) (ok_of hI) g (c := .parents id) trivial
  | getByLabel sel => exact keeps_tcode (N := N) (ok_of hI) g (c := .getByLabel sel) trivial
  | getAll => exact keeps_tcode (N := N) (ok_of hI) g (c := .getAll) trivial
  | size => exact keeps_tcode (N := N) (ok_of hI) g (c := .size) trivial

theorem tpend_fits {length : Nat} {g : GTree I L} {c : TCall I L} (hc : c.Fits) {x : TSec I L} {k : TSecR I L → TClient I L}
    (h : TPend N length g c (.call x k)) : x.Fits := by
  generalize hd : Client.call x k = d at h
  cases h with
  | start _ =>
    have := tcode_within (N := N) g hc
    rw [← hd] at this
    cases this with
    | call h _ => exact h.1
  | set _ => cases hd; exact Nat.le_refl _
  | err => cases hd
  | del _ _ => cases hd; exact hc
  | read _ hu =>
    subst hd
    cases hu with
    | call h _ => rw [h]; trivial
  | walk hw =>
    subst hd
    cases hw with
    | iter _ => trivial
    | delAll h _ => exact h

/-- **The calls of an execution can be ordered.** -/
theorem sync_order (hI : I = tree16 ∨ I = tree32) {length : Nat} (hle : length ≤ I.P.W) {D : Nat → Prop}
    (hroot : ∀ n, ¬ D n → I.rootLen length < I.P.W) {g : Cfg (TCall I L) (GTree I L) (TReply I L)} {H}
    (h : Exec (fun c => (scode N (newG I L length) c).compile tsec) (newG I L length) g H) :
    (∀ n c, Ev.inv n c ∈ H → Crossed TCall.Changes H n → D n) →
    (∀ n c, Ev.inv n c ∈ H → c.Sized ∧ (D n → c.Fits)) → (I.P.W = 32 → Small length H) →
    ∃ a G Q M, AExec (scode N (newG I L length)) tsem (fun _ _ => True) (newG I L length) a G H ∧ Rel tsec g a ∧ Orders H Q ∧
      NRuns (DStep length D) Map.empty Q M ∧ GInv length a.mem M ∧ Threads N length D a H Q M := by
  induction h with
  | init =>
    exact fun _ _ _ => ⟨_, [], [], Map.empty, .init, ⟨rfl, by simp, fun _ => rfl, by simp, by simp⟩,
      ⟨by simp, by simp, by simp, by simp⟩, .nil _, (reach_new (I := I) (L := L) hle).ginv hI, fun n c d h => by simp at h⟩
  | @step g H e g1 h0 hs ih =>
    intro hD hf hH
    have hD0 : ∀ n c, Ev.inv n c ∈ H → Crossed TCall.Changes H n → D n := by
      rintro n c hn ⟨m, c', hne, hch, hm, ho⟩
      exact hD n c (List.mem_append_left _ hn) ⟨m, c', hne, hch, List.mem_append_left _ hm, overlap_step h0 hs hn hm ho⟩
    have hH0 : I.P.W = 32 → Small length H := fun hw => by
      rcases hH hw with this | ⟨h1, h2⟩
      · left
        rw [costs_append] at this
        omega
      · exact .inr ⟨h1, fun n c hn => h2 n c (List.mem_append_left _ hn)⟩
    have hf0 : ∀ n c, Ev.inv n c ∈ H → c.Sized ∧ (D n → c.Fits) := fun n c hn => hf n c (List.mem_append_left _ hn)
    obtain ⟨a, G, Q, M, ha, hR, ho, hr, hg, ht⟩ := ih hD0 hf0 hH0
    have hF := ha.facts
    -- calls in progress at the same time as one that changes the tree
    have hcross : ∀ {n m c d c' d'}, a.th[n]? = some (c, some d) → a.th[m]? = some (c', some d') → m ≠ n → c'.Changes → D n := by
      intro n m c d c' d' hn hm hne hch
      obtain ⟨x, hx, hxc, hxp⟩ := hR.pend hn
      obtain ⟨y, hy, hyc, hyp⟩ := hR.pend hm
      exact hD0 n c ((hF.inv n c).2 ⟨_, hn⟩) ⟨m, c', hne, hch, (hF.inv m c').2 ⟨_, hm⟩, overlap_of_pending h0 hx hy hxp hyp⟩
    -- how many prefixes are claimed
    have hM0 : AtMost 0 (Map.empty : Map I.P L) := ⟨[], Nat.le_refl _, fun q hq => absurd rfl hq⟩
    have hAt : AtMost (Q.map (·.2.1.cost)).sum M := by
      have := nruns_atMost hr hM0
      rwa [Nat.zero_add] at this
    have hcost : ∀ {n c d}, a.th[n]? = some (c, some d) → n ∉ Q.map (·.1) →
        (I.P.W = 32 → (Q.map (·.2.1.cost)).sum + c.cost ≤ 2 ^ 31 ∨ length ≤ 31 ∧ c.Low ∧ LowMap M) := by
      intro n c d hn hnQ hw
      have h1 := orders_costs (ho.snoc (r := .done) ((hF.inv n c).2 ⟨_, hn⟩) hnQ)
      rcases hH0 hw with this | ⟨h2, h3⟩
      rotate_left
      · refine .inr ⟨h2, h3 n c ((hF.inv n c).2 ⟨_, hn⟩), nruns_low (of32 (ok_of hI) hw) h2 hr (fun x hx => ?_) lowMap_empty⟩
        exact ⟨(hf0 _ _ (ho.inv x hx)).1, h3 _ _ (ho.inv x hx)⟩
      left
      rw [List.map_append, List.sum_append] at h1
      simp only [List.map_cons, List.map_nil, List.sum_cons, List.sum_nil] at h1
      omega
    have hsolo : ∀ {n c d}, a.th[n]? = some (c, some d) → n ∉ Q.map (·.1) → ¬ D n →
        ∃ M', GInv length (alone (scode N (newG I L length) c) a.mem).1 M' ∧
          TStepX length M c M' (alone (scode N (newG I L length) c) a.mem).2 :=
      fun {n c d} hn hnQ hnD => solo_spec hI hle (hroot n hnD) hg (hf0 n c ((hF.inv n c).2 ⟨_, hn⟩)).1 fun hst hw => by
        rcases hcost hn hnQ hw with h1 | ⟨h1, h2, h3⟩
        · exact room_of (step_atMost hst hAt) (fun _ => h1) hw
        · exact low_room (ok_of hI) (step_low (of32 (ok_of hI) hw) h1 hst (hf0 n c ((hF.inv n c).2 ⟨_, hn⟩)).1 h2 h3) hw
    rcases hR.step tsections hs with ⟨x, a', hA, hR', hmem, hpk⟩ | ⟨rfl, hR'⟩
    · have hA' := AExec.step ha hA
      suffices hgoal : ∃ Q M, Orders (H ++ e.toList) Q ∧ NRuns (DStep length D) Map.empty Q M ∧ GInv length a'.mem M ∧
          Threads N length D a' (H ++ e.toList) Q M by
        obtain ⟨Q, M, g1, g2, g3, g4⟩ := hgoal
        exact ⟨a', _, Q, M, hA', hR', g1, g2, g3, g4⟩
      by_cases hxe : x = none ∧ e = none
      · -- a peek
        obtain ⟨rfl, rfl⟩ := hxe
        obtain ⟨n, c, k, hn, rfl, hwr⟩ := hpk rfl rfl
        simp only [Option.toList_none, List.append_nil]
        refine ⟨Q, M, ho, hr, hg, ?_⟩
        intro i c' d hd
        rcases getElem?_set_cases hd with ⟨rfl, h5⟩ | ⟨_, h5⟩
        · cases h5
          rcases ht i c _ hn with ⟨k1, k2, k3⟩ | ⟨r', k1, _⟩
          · refine .inl ⟨k1, fun hDi => ?_, fun hDi => ?_⟩
            · obtain ⟨j1, j2⟩ := tpend_peek (k2 hDi).1 (exec_holds h0 (tidy_new hle) fun n c hn =>
                keeps_scode hI _ (hf0 n c hn).1).1
              exact ⟨j1, fun id e k' hk => absurd hk (j2 id e k')⟩
            · have hm : a.mem = g.mem := by
                refine hR.mem ?_
                intro y hy hw
                obtain ⟨j, hj⟩ := List.mem_iff_getElem?.1 hy
                obtain ⟨z, hz⟩ : ∃ z, a.th[j]? = some z :=
                  ⟨_, List.getElem?_eq_getElem (by rw [← hR.len]; exact (List.getElem?_eq_some_iff.1 hj).1)⟩
                have hji : j ≠ i := by
                  rintro rfl
                  rw [hwr y hj] at hw
                  cases hw
                have hT := hR.th j y z hj hz
                have hnw := exec_noW (scode_noW (newG I L length)) h0 y hy
                cases hT with
                | @writing c' d' p hp =>
                  refine hDi (hcross hn hz hji ?_)
                  by_contra hc
                  have := (hnw hc).1
                  cases this
                | _ => cases hw
              have := k3 hDi
              rw [← this]
              show alone (k g.mem) a.mem = alone (.peek k) a.mem
              rw [← hm]
              rfl
          · cases k1
        · exact ht i c' d h5
      · cases hA with
        | @inv m th c =>
          simp only [Option.toList_some] at *
          have hnew : th.length ∉ Q.map (·.1) := by
            intro hm
            obtain ⟨x, hx, hxe⟩ := List.mem_map.1 hm
            obtain ⟨o, hox⟩ := (hF.inv _ _).1 (ho.inv x hx)
            have := (List.getElem?_eq_some_iff.1 hox).1
            simp only at this
            omega
          refine ⟨Q, M, ho.doInv hnew, hr, hg, ?_⟩
          intro n c' d hd
          rcases getElem?_snoc hd with hd | ⟨hnn, hcd⟩
          · have hlt := (List.getElem?_eq_some_iff.1 hd).1
            rcases ht n c' d hd with ⟨k1, k2, k3⟩ | h
            · refine .inl ⟨k1, fun hDn => ⟨(k2 hDn).1, fun id e k hk => ((k2 hDn).2 id e k hk).sub (List.Sublist.refl _) (fun _ h => h) ?_⟩, k3⟩
              exact fun b hb => before_snoc_inv (by omega) hb
            · exact .inr h
          · subst hnn
            cases hcd
            refine .inl ⟨hnew, fun hDn => ?_, fun _ => rfl⟩
            have hfc := (hf th.length c (by simp)).2 hDn
            rw [scode_fits _ hfc]
            exact ⟨.start hfc, fun id e k hk => absurd hk tcode_not_del⟩
        | @ret m th n c r hn =>
          simp only [Option.toList_some] at *
          have hother : ∀ (Q' : List (Nat × TCall I L × TReply I L)) (M' : Map I.P L), Q.Sublist Q' →
              (∀ x, x ∈ Q' ↔ x ∈ Q ∨ x = (n, c, r)) →
              (∀ i c' id e k, i ≠ n → th[i]? = some (c', some (.call (.del id e) k)) → c'.Changes → M' = M) →
              Threads N length D ⟨m, th.set n (c, none)⟩ (H ++ [Ev.ret n r]) Q' M' := by
            intro Q' M' hQs hQ' hMM i c' d hd
            rcases getElem?_set_cases hd with ⟨rfl, h5⟩ | ⟨hi, h5⟩
            · cases h5
            · rcases ht i c' d h5 with ⟨k1, k2, k3⟩ | ⟨r', k1, k2⟩
              · refine .inl ⟨?_, fun hDi => ⟨(k2 hDi).1, fun id e k hk => ?_⟩, k3⟩
                · intro hm
                  obtain ⟨x, hx, hxe⟩ := List.mem_map.1 hm
                  rcases (hQ' x).1 hx with hx | rfl
                  · exact k1 (List.mem_map.2 ⟨x, hx, hxe⟩)
                  · exact hi hxe.symm
                · have hch : c'.Changes := tpend_del (hk ▸ (k2 hDi).1)
                  rw [hMM i c' id e k hi (hk ▸ h5) hch]
                  exact ((k2 hDi).2 id e k hk).sub hQs (fun _ h => h) (fun b hb => before_snoc_ret hb)
              · exact .inr ⟨r', k1, (hQ' _).2 (.inl k2)⟩
          rcases ht n c _ hn with ⟨k1, k2, k3⟩ | ⟨r', k1, k2⟩
          · have hord : Orders (H ++ [Ev.ret n r]) (Q ++ [(n, c, r)]) :=
              (ho.snoc ((hF.inv n c).2 ⟨_, hn⟩) k1).doRet (c := c) (by simp)
            by_cases hDn : D n
            · exact ⟨Q ++ [(n, c, r)], M, hord, hr.snoc ⟨fun _ => tpend_ret hI hle (k2 hDn).1, fun h => absurd hDn h⟩, hg,
                hother _ _ (List.sublist_append_left _ _) (by simp) (fun _ _ _ _ _ _ _ _ => rfl)⟩
            · obtain ⟨M', s1, s2⟩ := hsolo hn k1 hDn
              rw [← k3 hDn] at s1 s2
              refine ⟨Q ++ [(n, c, r)], M', hord, hr.snoc ⟨fun h => absurd h hDn, fun _ => s2⟩, s1,
                hother _ _ (List.sublist_append_left _ _) (by simp) ?_⟩
              intro i c' id e k hi hci hch
              exact absurd (hcross hn hci hi hch) hDn
          · cases k1
            refine ⟨Q, M, ho.doRet k2, hr, hg, hother _ _ (List.Sublist.refl _) ?_ (fun _ _ _ _ _ _ _ _ => rfl)⟩
            intro x
            constructor
            · exact .inl
            · rintro (h | rfl)
              · exact h
              · exact k2
        | @call m th n c x k hn =>
          simp only [Option.toList_some, Option.toList_none, List.append_nil] at *
          have hinv := (hF.inv n c).2 ⟨_, hn⟩
          have hpath := hF.path n c _ hn
          have hfin := Final.path hpath (scode_final (newG I L length) c)
          have hch : x.changes = true → c.Changes ∧ ∃ r', k (tsem m x).2 = .ret r' := by
            intro hx
            cases hfin with
            | call h _ => rw [hx] at h; cases h
            | last h1 h2 => exact ⟨h1, h2 _⟩
          have hkeep : x.changes = false → (tsem m x).1 = m := tsem_keep m
          rcases ht n c _ hn with ⟨k1, k2, k3⟩ | ⟨r', k1, _⟩
          · by_cases hDn : D n
            · have hcf := (hf0 n c hinv).2 hDn
              rw [scode_fits _ hcf] at hpath
              have hxf : x.Fits := tpend_fits hcf (k2 hDn).1
              have hroomx : Room (x.eff M) := by
                intro hw
                rcases hcost hn k1 hw with h1 | ⟨h1, _, h3⟩
                rotate_left
                · exact low_room (ok_of hI) (eff_low h3 hxf (tpath_low (ok_of hI) hle h1 hcf (hpath.snoc rfl (tsem m x).2)
                    (x, (tsem m x).2) (by simp))) hw
                refine room_of (eff_atMost hAt x) (fun hw => ?_) hw
                have h2 : c.cost = 1 := by
                  cases c with
                  | claimRange s l => cases hcf
                  | _ => rfl
                split <;> omega
              obtain ⟨hg', hxok⟩ := tsem_inv (ok_of hI) hg hxf hroomx
              -- the calls outside `D` do not see a change
              have hsame : ∀ i c' d, i ≠ n → th[i]? = some (c', some d) → ¬ D i → (tsem m x).1 = m := by
                intro i c' d hi hci hDi
                refine hkeep ?_
                by_contra hx
                exact hDi (hcross hci hn (fun h => hi h.symm) (hch (by simpa using hx)).1)
              have hother : ∀ (Q' : List (Nat × TCall I L × TReply I L)) (M' : Map I.P L) (r : TReply I L), k (tsem m x).2 = .ret r →
                  (∀ y, y ∈ Q' ↔ y ∈ Q ∨ y = (n, c, r)) →
                  (∀ i id e, Helped length D H Q M i id e → Helped length D H Q' M' i id e) →
                  Threads N length D ⟨(tsem m x).1, th.set n (c, some (k (tsem m x).2))⟩ H Q' M' := by
                intro Q' M' r hkr hQ' hh i c' d hd
                rcases getElem?_set_cases hd with ⟨rfl, h5⟩ | ⟨hi, h5⟩
                · cases h5
                  exact .inr ⟨r, hkr, (hQ' _).2 (.inr rfl)⟩
                · rcases ht i c' d h5 with ⟨j1, j2, j3⟩ | ⟨r', j1, j2⟩
                  · refine .inl ⟨?_, fun hDi => ⟨(j2 hDi).1, fun id e k hk => hh i id e ((j2 hDi).2 id e k hk)⟩, fun hDi => ?_⟩
                    · intro hm
                      obtain ⟨y, hy, hye⟩ := List.mem_map.1 hm
                      rcases (hQ' y).1 hy with hy | rfl
                      · exact j1 (List.mem_map.2 ⟨y, hy, hye⟩)
                      · exact hi hye.symm
                    · simp only
                      rw [hsame i c' d hi h5 hDi]
                      exact j3 hDi
                  · exact .inr ⟨r', j1, (hQ' _).2 (.inl j2)⟩
              have hweak : ∀ {M' r}, TStepW length M c M' r → DStep length D n M c M' r := fun h => ⟨fun _ => h, fun h' => absurd hDn h'⟩
              rcases tpend_call hI hle hg (k2 hDn).1 hxok with ⟨e1, e2, e3⟩ | ⟨r, e1, e2, _, e4⟩ | ⟨id, e, e1, e2, e3, e4, e5⟩
              · rw [e1] at hg'
                refine ⟨Q, M, ho, hr, hg', ?_⟩
                intro i c' d hd
                rcases getElem?_set_cases hd with ⟨rfl, h5⟩ | ⟨hi, h5⟩
                · cases h5
                  exact .inl ⟨k1, fun _ => ⟨e2, fun id e k' hk => .inl (e3 id e k' hk)⟩, fun h => absurd hDn h⟩
                · rcases ht i c' d h5 with ⟨j1, j2, j3⟩ | h
                  · refine .inl ⟨j1, j2, fun hDi => ?_⟩
                    simp only
                    rw [hsame i c' d hi h5 hDi]
                    exact j3 hDi
                  · exact .inr h
              · refine ⟨Q ++ [(n, c, r)], _, ho.snoc hinv k1, hr.snoc (hweak e1), hg', hother _ _ r e2 (by simp) ?_⟩
                exact fun i id e h => h.snoc ho hDn e4
              · subst e1 e2
                by_cases hq : ∀ e', M (pre id) = some e' → e'.equal e = true
                · refine ⟨Q ++ [(n, .release id, .done)], _, ho.snoc hinv k1, hr.snoc (hweak ?_), hg', hother _ _ _ e3 (by simp) ?_⟩
                  · simp only [TStepW, TStep, if_pos e5]
                    refine ⟨fun q => ?_, trivial⟩
                    simp only [TSec.eff]
                    split
                    · rename_i hqq
                      subst hqq
                      cases hM : M (pre id) with
                      | none => rfl
                      | some e' =>
                        have h1 := hq e' hM
                        have h2 : e'.id = id := by
                          simp only [Entry.equal, Bool.and_eq_true, beq_iff_eq] at h1
                          rw [← e4]
                          obtain ⟨⟨⟨a1, a2⟩, a3⟩⟩ := e'
                          obtain ⟨⟨⟨b1, b2⟩, b3⟩⟩ := e
                          simp_all
                        rw [filter_neg (by simp [h1]), filter_neg (by simp [h2])]
                    · rfl
                  · exact fun i id e h => h.snoc ho hDn (by simp)
                · -- the entry has been replaced: the release comes before the call that did this
                  have hne : ∃ e', M (pre id) = some e' ∧ e'.equal e = false := by
                    by_contra hcon
                    refine hq fun e' he' => ?_
                    by_contra h
                    exact hcon ⟨e', he', by simpa using h⟩
                  obtain ⟨e', he', hee⟩ := hne
                  have hsameM : (TSec.del id e).eff M = M := by
                    funext q
                    simp only [TSec.eff]
                    split
                    · rename_i hqq
                      subst hqq
                      rw [he']
                      simp [hee]
                    · rfl
                  rw [hsameM] at hg'
                  rcases (k2 hDn).2 id e k rfl with h | ⟨y, y1, yD, y2, y3⟩
                  · exact absurd h hq
                  · obtain ⟨A, B, rfl⟩ := List.append_of_mem y1
                    have hsub : (A ++ y :: B).Sublist (A ++ (n, .release id, .done) :: y :: B) :=
                      List.Sublist.append (List.Sublist.refl _) (.cons _ (List.Sublist.refl _))
                    refine ⟨A ++ (n, .release id, .done) :: y :: B, M, ho.insert hinv k1 ?_ y3, ?_, hg', hother _ _ _ e3 ?_ ?_⟩
                    · rintro b ⟨r', c', hb⟩
                      obtain ⟨c'', hc''⟩ := hF.retd n r' (hb.subset (by simp))
                      simp only at hc''
                      rw [hn] at hc''
                      cases hc''
                    · obtain ⟨M₁, r1, r2⟩ := NRuns.split A hr
                      refine r1.append ?_
                      obtain ⟨n', c', r'⟩ := y
                      cases r2 with
                      | @cons _ M₂ _ _ _ _ _ r3 r4 =>
                        refine .cons (m' := fun q => if q = pre id then (M₁ q).filter (fun e => decide (e.id ≠ id)) else M₁ q)
                          ⟨fun _ => ?_, fun h => absurd hDn h⟩
                          (.cons ⟨fun _ => y2 M₁ _ M₂ ?_ r3.weak, fun h => absurd yD h⟩ r4)
                        · simp only [TStepW, TStep, if_pos e5]
                          exact ⟨fun _ => trivial, trivial⟩
                        · intro q' hq'
                          simp only [if_neg hq']
                    · intro z
                      simp only [List.mem_append, List.mem_cons]
                      constructor
                      · rintro (h | h | h | h) <;> simp [h]
                      · rintro ((h | h | h) | h) <;> simp [h]
                    · exact fun i id e h => h.sub hsub (fun _ h => h) (fun _ h => h)
            · -- a call that no changing call overlaps with
              have hal : alone (k (tsem m x).2) (tsem m x).1 = alone (scode N (newG I L length) c) m := by
                rw [← alone_call]
                exact k3 hDn
              by_cases hx : x.changes = true
              · obtain ⟨hcc, r', hr'⟩ := hch hx
                obtain ⟨M', s1, s2⟩ := hsolo hn k1 hDn
                rw [← hal, hr'] at s1 s2
                refine ⟨Q ++ [(n, c, r')], M', ho.snoc hinv k1, hr.snoc ⟨fun h => absurd h hDn, fun _ => s2⟩, s1, ?_⟩
                intro i c' d hd
                rcases getElem?_set_cases hd with ⟨rfl, h5⟩ | ⟨hi, h5⟩
                · cases h5
                  exact .inr ⟨r', hr', by simp⟩
                · rcases ht i c' d h5 with ⟨j1, j2, j3⟩ | ⟨r'', j1, j2⟩
                  · refine .inl ⟨?_, fun hDi => ⟨(j2 hDi).1, fun id e k' hk => ?_⟩, fun hDi => ?_⟩
                    · rw [List.map_append, List.mem_append]
                      rintro (h | h)
                      · exact j1 h
                      · simp only [List.map_cons, List.map_nil, List.mem_cons, List.not_mem_nil, or_false] at h
                        exact hi h
                    · exact absurd (hcross hn h5 hi (tpend_del (hk ▸ (j2 hDi).1))) hDn
                    · exact absurd (hcross h5 hn (fun h => hi h.symm) hcc) hDi
                  · exact .inr ⟨r'', j1, List.mem_append_left _ j2⟩
              · have hm := hkeep (by simpa using hx)
                rw [hm] at hal
                refine ⟨Q, M, ho, hr, by rw [hm]; exact hg, ?_⟩
                intro i c' d hd
                simp only at hd ⊢
                rw [hm]
                rcases getElem?_set_cases hd with ⟨rfl, h5⟩ | ⟨hi, h5⟩
                · cases h5
                  exact .inl ⟨k1, fun h => absurd h hDn, fun _ => hal⟩
                · exact ht i c' d h5
          · cases k1
        | peek _ _ => exact absurd ⟨rfl, rfl⟩ hxe
    · exact ⟨a, G, Q, M, by simpa using ha, hR', by simpa using ho, hr, hg, by simpa using ht⟩

end Verif.Conc
