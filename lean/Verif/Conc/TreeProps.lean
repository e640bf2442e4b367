import Verif.Conc.TreeTidy
import Verif.Conc.TableProps
import Verif.GTree.FreeProps
import Verif.GTree.RoomProps

/-! What concurrency does to the trees of claimed prefixes: C62, C63, C77. -/

set_option linter.unusedSectionVars false
namespace Verif.Conc
open Verif.Id Verif.GTree
open Verif.Tree (widthOk_of Out AtMost newTree)

variable {I : Impl} {L : Type} [Labels L] {N : Nat}

theorem noLock_setAllP (l : L) : ∀ ids : List (MyId I.P), NoLock (setAllP (I := I) l ids)
  | [] => .ret _
  | id :: ids => by
    refine NoLock.bind (.read fun _ => .write (.ret _)) fun r => ?_
    split
    · exact noLock_setAllP l ids
    · exact .ret _

theorem exec_setAllP (l : L) : ∀ (ids : List (MyId I.P)) (g : GTree I L), (setAllP l ids).exec g = setAllS l ids g
  | [], g => rfl
  | id :: ids, g => by
    rw [setAllP, exec_bind]
    have h : (changeP fun g : GTree I L => g.set id ⟨id, l⟩).exec g =
        (after g (g.set id ⟨id, l⟩), TSecR.ofTree (g.set id ⟨id, l⟩)) := rfl
    rw [h, setAllS]
    cases g.set id ⟨id, l⟩ with
    | ok g' => exact exec_setAllP l ids g'
    | _ => rfl

theorem tsections : Sections (tsec (I := I) (L := L)) tsem := by
  intro c
  cases c with
  | get id | children id | parents id =>
    exact .inl ⟨_, rfl, fun m => ⟨rfl, .rlock (.read (.runlock (.read .last)))⟩⟩
  | iterate => exact .inl ⟨_, rfl, fun m => ⟨rfl, .read .last⟩⟩
  | set id l | del id e | delAll es => exact .inr ⟨_, rfl, fun m => .read (.write .last)⟩
  | setAll l ids => exact .inr (wsec_of (noLock_setAllP l ids) (exec_setAllP l ids))

/-- `findFree` in two parts -/
theorem findFree_split (g : GTree I L) : g.findFree = (do
    let b ← ofRes (Builder.empty.addId (⟨0, I.rootLen g.length⟩ : MyId I.P))
    let ch ← g.children ⟨0, I.rootLen g.length⟩
    chooseFree g b ch) := rfl

/-- a successful `findFree` -/
theorem findFree_inv {g : GTree I L} {r : Ret (BitVec I.P.W)} (h : g.findFree = .ok r) :
    ∃ b ch, ofRes (Builder.empty.addId (⟨0, I.rootLen g.length⟩ : MyId I.P)) = .ok b ∧
      g.children ⟨0, I.rootLen g.length⟩ = .ok ch ∧ chooseFree g b ch = .ok r := by
  rw [findFree_split] at h
  cases hb : ofRes (Builder.empty.addId (⟨0, I.rootLen g.length⟩ : MyId I.P)) with
  | ok b =>
    rw [hb] at h
    cases hc : g.children ⟨0, I.rootLen g.length⟩ with
    | ok ch =>
      have h' : (g.children ⟨0, I.rootLen g.length⟩ >>= fun ch => chooseFree g b ch) = .ok r := h
      rw [hc] at h'
      exact ⟨b, ch, rfl, rfl, h'⟩
    | _ =>
      have h' : (g.children ⟨0, I.rootLen g.length⟩ >>= fun ch => chooseFree g b ch) = .ok r := h
      rw [hc] at h'
      cases h'
  | _ => rw [hb] at h; cases h

/-- the tree that `New` makes -/
abbrev newG (I : Impl) (L : Type) (length : Nat) : GTree I L :=
  ⟨newTree I.P, ((1 : BitVec I.P.W) <<< length) - 1, length⟩

/-- in a new tree the first free id is 0 -/
theorem findFree_new (hI : I = tree16 ∨ I = tree32) {length : Nat} (hle : length ≤ I.P.W) :
    (newG I L length).findFree = .ok (.ok 0) := by
  refine find_zero hI (reach_new hle) ?_
  rintro x _ ⟨q, e, he, _⟩
  cases he

theorem tcode_claimFree {g : GTree I L} {b : Builder I.P}
    (hb : ofRes (Builder.empty.addId (⟨0, I.rootLen g.length⟩ : MyId I.P)) = .ok b) (l : L) :
    ∃ k, tcode N g (.claimFree l) = .call (.children ⟨0, I.rootLen g.length⟩) k ∧
      ∀ ch x, chooseFree g b ch = .ok (.ok x) →
        k (.list ch) = .call (.set ⟨x, I.P.W⟩ l) (replyDone (.got ⟨⟨x, I.P.W⟩, l⟩)) := by
  simp only [tcode, hb]
  refine ⟨_, rfl, ?_⟩
  intro ch x hx
  simp only [hx]

theorem room_put_put {P : Pkg} (a : MyId P) (l l' : L) : Room (GTree.put (GTree.put Map.empty a l) a l') := by
  refine (room_one a l).mono ?_
  intro q hq
  unfold GTree.put at hq ⊢
  by_cases h : q = pre a
  · simp [h]
  · simp only [h, if_false] at hq
    exact absurd rfl hq

/-- **C63, violated** (tree16, tree32, every length): two overlapping calls of `ClaimFree` on a new tree both
return the id 0. -/
theorem C63_overlapping_violated (hI : I = tree16 ∨ I = tree32) {length : Nat} (hle : length ≤ I.P.W) (l l' : L) :
    ∃ g, Exec (tprog N (newG I L length)) (newG I L length) g
      [.inv 0 (.claimFree l), .inv 1 (.claimFree l'), .ret 0 (.got ⟨⟨0, I.P.W⟩, l⟩), .ret 1 (.got ⟨⟨0, I.P.W⟩, l'⟩)] := by
  obtain ⟨b, ch, hb, hch, hx⟩ := findFree_inv (findFree_new (L := L) hI hle)
  obtain ⟨k, hk1, hk2⟩ := tcode_claimFree (L := L) hb l
  obtain ⟨k', hk1', hk2'⟩ := tcode_claimFree (L := L) hb l'
  have g0 := (reach_new (I := I) (L := L) hle).ginv hI
  obtain ⟨g1, e1, i1⟩ := set_inv (ok_of hI) g0 (id := ⟨0, I.P.W⟩) (Nat.le_refl _) l (room_one _ _)
  obtain ⟨g2, e2, i2⟩ := set_inv (ok_of hI) i1 (id := ⟨0, I.P.W⟩) (Nat.le_refl _) l' (room_put_put _ _ _)
  have hs : tsem (newG I L length) (.children ⟨0, I.rootLen length⟩) = (newG I L length, .list ch) := by
    show (_, TSecR.ofList _) = _
    rw [hch]; rfl
  have hs1 : tsem (newG I L length) (.set ⟨0, I.P.W⟩ l) = (g1, .ok) := by
    show (after _ _, TSecR.ofTree _) = _
    rw [e1]; rfl
  have hs2 : tsem g1 (.set ⟨0, I.P.W⟩ l') = (g2, .ok) := by
    show (after _ _, TSecR.ofTree _) = _
    rw [e2]; rfl
  have h0 : AExec (tcode N (newG I L length)) tsem Eq (newG I L length) ⟨newG I L length, []⟩ [] [] := .init
  have h1 := (h0.doInv (.claimFree l)).doInv (.claimFree l')
  rw [hk1, hk1'] at h1
  have h2 := (h1.doCall 0 rfl hs).doCall 1 rfl hs
  rw [hk2 ch 0 hx, hk2' ch 0 hx] at h2
  have h3 := (((h2.doCall 0 rfl hs1).doCall 1 rfl hs2).doRet 0 rfl).doRet 1 rfl
  refine ⟨_, (realize tsections h3).congr ?_⟩
  intro n c hc
  simp only [List.nil_append, List.cons_append, List.mem_cons, Ev.inv.injEq, reduceCtorEq, List.not_mem_nil, or_false,
    or_self] at hc
  rcases hc with ⟨_, rfl⟩ | ⟨_, rfl⟩ <;> rfl

/-! ### Runs of critical sections -/

/-- the entries without those in the list -/
def dels (M : Map I.P L) (es : List (Entry I.P L)) : Map I.P L :=
  es.foldl (fun M e q => if q = pre e.id then (M q).filter (fun e' => !e'.equal e) else M q) M

/-- what a section does to the map -/
def TSec.eff (M : Map I.P L) : TSec I L → Map I.P L
  | .delAll es => dels M es
  | .set id l => GTree.put M id l
  | .del id e => fun q => if q = pre id then (M q).filter (fun e' => !e'.equal e) else M q
  | _ => M

/-- a section that stores an entry -/
def TSec.isSet : TSec I L → Bool
  | .set _ _ => true
  | _ => false

/-- sections that change the tree -/
def TSec.changes : TSec I L → Bool
  | .set _ _ | .del _ _ | .delAll _ | .setAll _ _ => true
  | _ => false

/-- ids that are stored are below `2^31` -/
def TSec.Low : TSec I L → Prop
  | .set id _ => id.id.toNat < 2 ^ 31
  | _ => True

theorem of32 (hI : Ok I) (hw : I.P.W = 32) : I.P = id32 := by
  rcases hI with hP | hP
  · rw [hP] at hw
    exact absurd hw (by decide)
  · exact hP

theorem low_room32 {P : Pkg} (hP : P = id32) {M : Map P L} (h : LowMap M) : Room M := by
  subst hP
  exact LowMap.room h

theorem low_room (hI : Ok I) {M : Map I.P L} (h : LowMap M) : Room M := by
  rcases hI with hP | hP
  · intro hw
    rw [hP] at hw
    exact absurd hw (by decide)
  · exact low_room32 hP h

theorem lowMap_sub {P : Pkg} {M M' : Map P L} (h : LowMap M) (hs : ∀ q e, M' q = some e → M q = some e) : LowMap M' :=
  fun q e he => h q e (hs q e he)

theorem dels_sub {q : List Bool} : ∀ {es : List (Entry I.P L)} {M : Map I.P L}, dels M es q = M q ∨ dels M es q = none
  | [], M => .inl rfl
  | e :: es, M => by
    show dels _ es q = _ ∨ dels _ es q = none
    rcases dels_sub (q := q) (es := es) (M := fun q => if q = pre e.id then (M q).filter (fun e' => !e'.equal e) else M q) with h | h
    · rw [h]
      split
      · cases hq : M q with
        | none => exact .inl rfl
        | some e' =>
          cases he : e'.equal e with
          | true => exact .inr (by simp [he])
          | false => exact .inl (by simp [he])
      · exact .inl rfl
    · exact .inr h

theorem delAll_inv (hI : Ok I) {length : Nat} : ∀ {es : List (Entry I.P L)} {g : GTree I L} {M : Map I.P L}, GInv length g M →
    (∀ e ∈ es, e.id.len ≤ I.P.W) → ∃ g', g.delAll es = .ok g' ∧ GInv length g' (dels M es)
  | [], g, M, h, _ => ⟨g, rfl, h⟩
  | e :: es, g, M, h, hes => by
    obtain ⟨g1, e1, i1⟩ := del_inv hI h (hes e (by simp)) e
    obtain ⟨g2, e2, i2⟩ := delAll_inv (es := es) hI i1 fun e he => hes e (by simp [he])
    refine ⟨g2, ?_, i2⟩
    show (g.del e.id e >>= fun g => g.delAll es) = _
    rw [e1]
    exact e2

theorem eff_low {M : Map I.P L} (h : LowMap M) {c : TSec I L} (hc : c.Fits) (hl : c.Low) : LowMap (c.eff M) := by
  cases c with
  | set id l => exact lowMap_put h hl hc l
  | del id e =>
    refine lowMap_sub h fun q e' he => ?_
    simp only [TSec.eff] at he
    split at he
    · exact (Option.filter_eq_some_iff.1 he).1
    · exact he
  | delAll es =>
    refine lowMap_sub h fun q e' he => ?_
    rcases dels_sub (q := q) (es := es) (M := M) with h | h
    · exact h.symm.trans he
    · cases h.symm.trans he
  | _ => exact h

theorem eff_atMost {k : Nat} {M : Map I.P L} (h : AtMost k M) (c : TSec I L) :
    AtMost (if c.isSet then k + 1 else k) (c.eff M) := by
  cases c with
  | set id l =>
    obtain ⟨ks, h1, h2⟩ := h
    refine ⟨pre id :: ks, by simpa [TSec.isSet] using h1, ?_⟩
    intro q hq
    simp only [TSec.eff, GTree.put] at hq
    by_cases hq' : q = pre id
    · simp [hq']
    · rw [if_neg hq'] at hq
      exact List.mem_cons_of_mem _ (h2 q hq)
  | del id e =>
    refine atMost_mono h ?_
    intro q hq hn
    apply hq
    simp only [TSec.eff, hn]
    split <;> rfl
  | delAll es =>
    refine atMost_mono h ?_
    intro q hq hn
    rcases dels_sub (q := q) (es := es) (M := M) with h | h
    · exact hq (h.trans hn)
    · exact hq h
  | _ => exact h

/-- one section -/
theorem tsem_inv (hI : Ok I) {length : Nat} {g : GTree I L} {M : Map I.P L} (h : GInv length g M) {c : TSec I L}
    (hc : c.Fits) (hr : Room (c.eff M)) :
    GInv length (tsem g c).1 (c.eff M) ∧ (c.changes = true → (tsem g c).2 = .ok) := by
  cases c with
  | set id l =>
    obtain ⟨g', e1, e2⟩ := set_inv hI h hc l hr
    simp only [tsem, e1]
    exact ⟨e2, fun _ => rfl⟩
  | del id e =>
    obtain ⟨g', e1, e2⟩ := del_inv hI h hc e
    simp only [tsem, e1]
    exact ⟨e2, fun _ => rfl⟩
  | delAll es =>
    obtain ⟨g', e1, e2⟩ := delAll_inv hI h hc
    simp only [tsem, e1]
    exact ⟨e2, fun _ => rfl⟩
  | setAll l ids => cases hc
  | _ => exact ⟨h, fun h => by cases h⟩

/-- the effect of a list of sections -/
def effs (M : Map I.P L) (G : List (Nat × TSec I L × TSecR I L)) : Map I.P L := G.foldl (fun M x => x.2.1.eff M) M

theorem runs_ginv (hI : Ok I) {length : Nat} {g g' : GTree I L} {G : List (Nat × TSec I L × TSecR I L)}
    (hr : Runs tsem g G g') : ∀ {M : Map I.P L} {k : Nat}, GInv length g M → (∀ x ∈ G, x.2.1.Fits) →
      (I.P.W = 32 → k + G.countP (fun x => x.2.1.isSet) ≤ 2 ^ 31 ∨ LowMap M ∧ ∀ x ∈ G, x.2.1.Low) → AtMost k M →
      GInv length g' (effs M G) ∧ AtMost (k + G.countP (fun x => x.2.1.isSet)) (effs M G) ∧
        (LowMap M → (∀ x ∈ G, x.2.1.Low) → LowMap (effs M G)) ∧ ∀ x ∈ G, x.2.1.changes = true → x.2.2 = .ok := by
  induction hr with
  | nil => exact fun h _ _ ha => ⟨h, by simpa [effs] using ha, fun h _ => h, by simp⟩
  | @cons g g' n c G _ ih =>
    intro M k h hf hk ha
    have hfc : c.Fits := hf _ (List.mem_cons_self ..)
    have ha' := eff_atMost ha c
    have hroom : Room (c.eff M) := by
      intro hw
      rcases hk hw with this | ⟨hlow, hxs⟩
      rotate_left
      · exact low_room hI (eff_low hlow hfc (hxs _ (List.mem_cons_self ..))) hw
      refine Verif.GTree.room_few (fun hw => ?_) hw
      obtain ⟨ks, h1, h2⟩ := ha'
      refine ⟨ks, ?_, h2⟩
      rw [List.countP_cons] at this
      simp only at this
      split at h1
      · rename_i hs
        rw [if_pos hs] at this
        omega
      · omega
    obtain ⟨h1, h2⟩ := tsem_inv hI h hfc hroom
    have hcount : (if c.isSet then k + 1 else k) + G.countP (fun x => x.2.1.isSet) =
        k + ((n, c, (tsem g c).2) :: G).countP (fun x => x.2.1.isSet) := by
      rw [List.countP_cons]
      simp only
      split <;> omega
    have hfew : I.P.W = 32 → (if c.isSet then k + 1 else k) + G.countP (fun x => x.2.1.isSet) ≤ 2 ^ 31 ∨
        LowMap (c.eff M) ∧ ∀ x ∈ G, x.2.1.Low := by
      intro hw
      rcases hk hw with h3 | ⟨h3, h4⟩
      · exact .inl (hcount ▸ h3)
      · exact .inr ⟨eff_low h3 hfc (h4 _ (List.mem_cons_self ..)), fun x hx => h4 x (List.mem_cons_of_mem _ hx)⟩
    obtain ⟨i1, i2, i4, i3⟩ := ih h1 (fun x hx => hf x (List.mem_cons_of_mem _ hx)) hfew ha'
    refine ⟨i1, hcount ▸ i2, fun h3 h4 => i4 (eff_low h3 hfc (h4 _ (List.mem_cons_self ..)))
      (fun x hx => h4 x (List.mem_cons_of_mem _ hx)), ?_⟩
    intro x hx hcx
    rcases List.mem_cons.1 hx with rfl | hx
    · exact h2 hcx
    · exact i3 x hx hcx

/-- only `del` of a prefix removes it, and `delAll` -/
theorem effs_keep {q : List Bool} : ∀ {G : List (Nat × TSec I L × TSecR I L)} {M : Map I.P L}, M q ≠ none →
    (∀ x ∈ G, x.2.1.Fits) → effs M G q = none → ∃ x ∈ G, (∃ id e, x.2.1 = .del id e ∧ pre id = q) ∨ ∃ es, x.2.1 = .delAll es
  | [], M, h, _, hn => absurd hn h
  | x :: G, M, h, hf, hn => by
    by_cases hx : x.2.1.eff M q = none
    · refine ⟨x, List.mem_cons_self .., ?_⟩
      cases hc : x.2.1 with
      | set id l =>
        rw [hc] at hx
        simp only [TSec.eff, GTree.put] at hx
        split at hx
        · cases hx
        · exact absurd hx h
      | del id e =>
        rw [hc] at hx
        simp only [TSec.eff] at hx
        split at hx
        · rename_i hq
          exact .inl ⟨id, e, rfl, hq.symm⟩
        · exact absurd hx h
      | delAll es => exact .inr ⟨es, rfl⟩
      | setAll l ids =>
        have := hf x (List.mem_cons_self ..)
        rw [hc] at this
        cases this
      | _ => rw [hc] at hx; exact absurd hx h
    · obtain ⟨y, hy, h1⟩ := effs_keep (G := G) hx (fun y hy => hf y (List.mem_cons_of_mem _ hy)) hn
      exact ⟨y, List.mem_cons_of_mem _ hy, h1⟩

/-! ### Counting -/

theorem countP_callsOf {A B : Type} (G : List (Nat × A × B)) (p : A × B → Bool) (h : ∀ n, (callsOf G n).countP p ≤ 1) :
    ∀ N, G.countP (fun e => decide (e.1 < N) && p e.2) ≤ N
  | 0 => by simp
  | N + 1 => by
    have ih := countP_callsOf G p h N
    have h1 : ∀ l : List (Nat × A × B), l.countP (fun e => decide (e.1 < N + 1) && p e.2) ≤
        l.countP (fun e => decide (e.1 < N) && p e.2) + ((l.filter fun e => e.1 == N).map (·.2)).countP p := by
      intro l
      induction l with
      | nil => simp
      | cons e l ih =>
        rw [List.countP_cons, List.countP_cons, List.filter_cons]
        by_cases hN : e.1 = N
        · simp only [hN, beq_self_eq_true, if_true, List.map_cons, List.countP_cons]
          simp only [Nat.lt_succ_self, decide_true, Bool.true_and, Nat.lt_irrefl, decide_false, Bool.false_and]
          simp only [Bool.false_eq_true, if_false, Nat.add_zero]
          omega
        · have h2 : (e.1 == N) = false := by simpa using hN
          have h3 : (e.1 < N + 1) ↔ e.1 < N := by omega
          simp only [h2, h3, Bool.false_eq_true, if_false]
          omega
    have := h1 G
    have := h N
    unfold callsOf at this
    omega

theorem AExec.threads_le {κ κ₀ σ ρ ρ₀ : Type} {code : κ → Client κ₀ ρ₀ σ ρ} {sem : σ → κ₀ → σ × ρ₀} {see : σ → σ → Prop}
    {m₀ : σ} {a : ACfg κ κ₀ ρ₀ σ ρ} {G H} (h : AExec code sem see m₀ a G H) : a.th.length ≤ H.length := by
  induction h with
  | init => simp
  | step _ hs ih =>
    cases hs with
    | inv c => simp only [List.length_append, Option.toList_some, List.length_singleton] at *; omega
    | ret _ | call _ | peek _ _ => simp only [List.length_append, List.length_set] at *; omega

/-! ### The sections of each call -/

/-- the ids of a call fit; `ClaimRange` is left out -/
def TCall.Fits : TCall I L → Prop
  | .claim id _ => id.len ≤ I.P.W
  | .update id _ => id.len ≤ I.P.W
  | .release id => id.len ≤ I.P.W
  | .claimRange _ _ => False
  | _ => True

/-- at most `n` sections store an entry -/
inductive Sets : Nat → TClient I L → Prop
  | ret {n} (r) : Sets n (.ret r)
  | set {n id l k} : (∀ r, Sets n (k r)) → Sets (n + 1) (.call (.set id l) k)
  | other {n s k} : s.isSet = false → (∀ r, Sets n (k r)) → Sets n (.call s k)
  | peek {n k} : (∀ s, Sets n (k s)) → Sets n (.peek k)

theorem Sets.path {n : Nat} {d d' : TClient I L} {l} (h : Sets n d) (hp : d.Path l d') : l.countP (fun x => x.1.isSet) ≤ n := by
  induction hp generalizing n with
  | nil => simp
  | call _ ih =>
    cases h with
    | set h =>
      have := ih (h _)
      rw [List.countP_cons]
      split <;> omega
    | other h1 h =>
      have := ih (h _)
      rw [List.countP_cons]
      simp only [h1, Bool.false_eq_true, if_false]
      omega
  | peek _ ih =>
    cases h with
    | peek h => exact ih (h _)

theorem sets_replyDone {n : Nat} (k : TReply I L) (r : TSecR I L) : Sets n (replyDone k r) := by
  unfold replyDone
  split <;> exact .ret _

theorem uses_replyDone {S : TSec I L → Prop} {pk : Prop} (k : TReply I L) (r : TSecR I L) : (replyDone k r).Uses S pk := by
  unfold replyDone
  split <;> exact .ret _

theorem sets_nextC {m : Nat} {k : Bool → Tree.Iter → TClient I L} (hk : ∀ b it, Sets m (k b it)) :
    ∀ n it, Sets m (nextC n it k)
  | 0, _ => .ret _
  | n + 1, it => by
    refine .peek fun g => ?_
    split
    · exact sets_nextC hk n _
    · exact hk _ _
    · exact hk _ _
    · exact .ret _

theorem sets_entryC {m i : Nat} {k : Option (Entry I.P L) → TClient I L} (hk : ∀ v, Sets m (k v)) : Sets m (entryC i k) := by
  refine .peek fun g => ?_
  split
  · exact hk _
  · exact .ret _

theorem sets_loopC {m : Nat} {A : Type} {body : A → Nat → (A → TClient I L) → TClient I L}
    (hb : ∀ acc i k, (∀ a, Sets m (k a)) → Sets m (body acc i k)) {k : A → TClient I L} (hk : ∀ a, Sets m (k a)) :
    ∀ n it acc, Sets m (loopC N body n it acc k)
  | 0, _, _ => .ret _
  | n + 1, it, acc => by
    refine .peek fun g => sets_nextC (fun b it => ?_) _ _
    split
    · exact hb _ _ _ fun a => sets_loopC hb hk n _ _
    · exact hk _

theorem sets_labelBody {m : Nat} (sel : L → Bool) (acc : List (Option (Entry I.P L))) (i : Nat)
    (k : List (Option (Entry I.P L)) → TClient I L)
    (hk : ∀ a, Sets m (k a)) : Sets m (labelBody sel acc i k) := by
  refine sets_entryC fun v => ?_
  split
  · exact .ret _
  · split
    · exact sets_entryC fun v => hk _
    · exact hk _

theorem uses_nextC {S : TSec I L → Prop} {pk : Prop} (hp : pk) {k : Bool → Tree.Iter → TClient I L}
    (hk : ∀ b it, (k b it).Uses S pk) : ∀ n it, (nextC n it k).Uses S pk
  | 0, _ => .ret _
  | n + 1, it => by
    refine .peek hp fun g => ?_
    split
    · exact uses_nextC hp hk n _
    · exact hk _ _
    · exact hk _ _
    · exact .ret _

theorem uses_entryC {S : TSec I L → Prop} {pk : Prop} (hp : pk) {i : Nat} {k : Option (Entry I.P L) → TClient I L}
    (hk : ∀ v, (k v).Uses S pk) : (entryC i k).Uses S pk := by
  refine .peek hp fun g => ?_
  split
  · exact hk _
  · exact .ret _

theorem uses_loopC {S : TSec I L → Prop} {pk : Prop} (hp : pk) {A : Type} {body : A → Nat → (A → TClient I L) → TClient I L}
    (hb : ∀ acc i k, (∀ a, (k a).Uses S pk) → (body acc i k).Uses S pk) {k : A → TClient I L} (hk : ∀ a, (k a).Uses S pk) :
    ∀ n it acc, (loopC N body n it acc k).Uses S pk
  | 0, _, _ => .ret _
  | n + 1, it, acc => by
    refine .peek hp fun g => uses_nextC hp (fun b it => ?_) _ _
    split
    · exact hb _ _ _ fun a => uses_loopC hp hb hk n _ _
    · exact hk _

theorem uses_walkC {S : TSec I L → Prop} {pk : Prop} (hp : pk) {A : Type} {body : A → Nat → (A → TClient I L) → TClient I L}
    (hb : ∀ acc i k, (∀ a, (k a).Uses S pk) → (body acc i k).Uses S pk) {k : A → TClient I L} (hk : ∀ a, (k a).Uses S pk)
    (acc : A) : (walkC N body acc k).Uses S pk := .peek hp fun _ => uses_loopC hp hb hk _ _ _

theorem uses_labelBody {S : TSec I L → Prop} {pk : Prop} (hp : pk) (sel : L → Bool) (acc : List (Option (Entry I.P L))) (i : Nat)
    (k : List (Option (Entry I.P L)) → TClient I L) (hk : ∀ a, (k a).Uses S pk) : (labelBody sel acc i k).Uses S pk := by
  refine uses_entryC hp fun v => ?_
  split
  · exact .ret _
  · split
    · exact uses_entryC hp fun v => hk _
    · exact hk _

theorem uses_releaseC {S : TSec I L → Prop} {pk : Prop} (hS : ∀ es, S (.delAll es)) (es : List (Option (Entry I.P L))) :
    (releaseC es).Uses S pk := by
  refine .call (hS _) fun r => ?_
  split
  · unfold replyDone
    split <;> exact .ret _
  · exact .ret _

theorem uses_allBody {S : TSec I L → Prop} {pk : Prop} (hp : pk) (acc : List (Option (Entry I.P L))) (i : Nat)
    (k : List (Option (Entry I.P L)) → TClient I L) (hk : ∀ a, (k a).Uses S pk) : (allBody acc i k).Uses S pk :=
  uses_entryC hp fun _ => hk _

theorem tcode_sets (g : GTree I L) (c : TCall I L) : Sets 1 (tcode N g c) := by
  cases c with
  | clone => exact .peek fun _ => .ret _
  | get id | children id | parents id =>
    refine .other rfl fun r => ?_
    split <;> exact .ret _
  | update id l | claim id l =>
    simp only [tcode]
    split
    · exact .ret _
    · exact .set fun r => sets_replyDone _ _
  | claimFree l =>
    simp only [tcode]
    split
    · refine .other rfl fun r => ?_
      split
      · split
        · exact .set fun r => sets_replyDone _ _
        · exact .ret _
        · exact .ret _
      · exact .ret _
    · exact .ret _
  | claimRange s l => exact .ret _
  | release id =>
    simp only [tcode]
    split
    · exact .ret _
    · refine .other rfl fun r => ?_
      split
      · exact .other rfl fun r => sets_replyDone _ _
      · exact .ret _
      · exact .ret _
  | releaseByLabel sel =>
    exact .other rfl fun r => .peek fun s => sets_loopC (sets_labelBody sel)
      (fun es => .other rfl fun r => by split; exacts [sets_replyDone _ _, .ret _]) _ _ _
  | getByLabel sel =>
    exact .other rfl fun r => .peek fun s => sets_loopC (sets_labelBody sel) (fun es => .ret _) _ _ _
  | getAll =>
    exact .other rfl fun r => .peek fun s => sets_loopC (fun _ _ _ hk => sets_entryC fun _ => hk _) (fun es => .ret _) _ _ _
  | size =>
    exact .other rfl fun r => .peek fun s => sets_loopC (fun _ _ _ hk => hk _) (fun es => .ret _) _ _ _

theorem out_bind {α β : Type} {x : Out α} {f : α → Out β} {b : β} (h : x >>= f = .ok b) : ∃ a, x = .ok a ∧ f a = .ok b := by
  cases x with
  | ok a => exact ⟨a, rfl, h⟩
  | _ => cases h

theorem chooseFree_valid {g : GTree I L} {b : Builder I.P} {ch : List (Entry I.P L)} {x : BitVec I.P.W}
    (h : chooseFree g b ch = .ok (.ok x)) : ∃ i' : MyId I.P, g.valid i' = true ∧ i'.id = x := by
  unfold chooseFree at h
  obtain ⟨b', _, h⟩ := out_bind h
  obtain ⟨⟨_, set, err⟩, _, h⟩ := out_bind h
  simp only at h
  split at h
  · cases h
  · obtain ⟨o, _, h⟩ := out_bind h
    cases o with
    | none => cases h
    | some p =>
      obtain ⟨a, s⟩ := p
      simp only at h
      split at h
      · rename_i hv
        cases h
        exact ⟨a, hv, rfl⟩
      · cases h

theorem tcode_uses (g : GTree I L) {c : TCall I L} (hc : c.Fits) (S : TSec I L → Prop) (pk : Prop)
    (hget : ∀ i, S (.get i)) (hch : ∀ i, S (.children i)) (hpa : ∀ i, S (.parents i)) (hit : S .iterate)
    (hset : ∀ i l, i.len ≤ I.P.W → (∃ i', g.valid i' = true ∧ i'.id = i.id) → S (.set i l)) (hdel : ∀ e i, c = .release i → i.len ≤ I.P.W → S (.del i e))
    (hda : ∀ sel es, c = .releaseByLabel sel → S (.delAll es))
    (hpk : c = .clone ∨ (∃ sel, c = .getByLabel sel) ∨ c = .getAll ∨ c = .size ∨ (∃ sel, c = .releaseByLabel sel) → pk) :
    (tcode N g c).Uses S pk := by
  cases c with
  | clone => exact .peek (hpk (by simp)) fun _ => .ret _
  | get id =>
    refine .call (hget _) fun r => ?_
    split <;> exact .ret _
  | children id =>
    refine .call (hch _) fun r => ?_
    split <;> exact .ret _
  | parents id =>
    refine .call (hpa _) fun r => ?_
    split <;> exact .ret _
  | update id l | claim id l =>
    simp only [tcode]
    split
    · exact .ret _
    · rename_i hv
      exact .call (hset _ _ hc ⟨_, by simpa using hv, rfl⟩) fun r => uses_replyDone _ _
  | claimFree l =>
    simp only [tcode]
    split
    · refine .call (hch _) fun r => ?_
      split
      · split
        · rename_i hx
          exact .call (hset _ _ (Nat.le_refl _) (chooseFree_valid hx)) fun r => uses_replyDone _ _
        · exact .ret _
        · exact .ret _
      · exact .ret _
    · exact .ret _
  | claimRange s l => cases hc
  | release id =>
    simp only [tcode]
    split
    · exact .ret _
    · refine .call (hget _) fun r => ?_
      split
      · exact .call (hdel _ _ rfl hc) fun r => uses_replyDone _ _
      · exact .ret _
      · exact .ret _
  | releaseByLabel sel =>
    exact .call hit fun r => uses_walkC (hpk (by simp)) (uses_labelBody (hpk (by simp)) sel) (uses_releaseC fun es => hda sel es rfl) _
  | getByLabel sel =>
    exact .call hit fun r => uses_walkC (hpk (by simp)) (uses_labelBody (hpk (by simp)) sel) (fun _ => .ret _) _
  | getAll => exact .call hit fun r => uses_walkC (hpk (by simp)) (uses_allBody (hpk (by simp))) (fun _ => .ret _) _
  | size => exact .call hit fun r => uses_walkC (hpk (by simp)) (fun _ _ _ hk => hk _) (fun _ => .ret _) _

theorem Client.Uses.within {κ₀ ρ₀ σ ρ : Type} {J : σ → Prop} {S : κ₀ → Prop} {pk : Prop} {d : Client κ₀ ρ₀ σ ρ} (h : d.Uses S pk) :
    d.Within J S := by
  induction h with
  | ret r => exact .ret r
  | call h1 _ ih => exact .call h1 ih
  | peek _ _ ih => exact .peek fun s _ => ih s

/-- the sections of a call whose accesses without lock see a tidy tree -/
theorem tcode_within (g : GTree I L) {c : TCall I L} (hc : c.Fits) :
    (tcode N g c).Within Tidy fun x => x.Fits ∧ ∀ es, x = .delAll es → ∃ sel, c = .releaseByLabel sel := by
  by_cases hr : ∃ sel, c = .releaseByLabel sel
  · obtain ⟨sel, rfl⟩ := hr
    exact (walks_release g sel).within ⟨trivial, by simp⟩ fun es h => ⟨h, fun _ _ => ⟨sel, rfl⟩⟩
  · refine (tcode_uses g hc _ True (fun _ => ⟨trivial, by simp⟩) (fun _ => ⟨trivial, by simp⟩) (fun _ => ⟨trivial, by simp⟩)
      ⟨trivial, by simp⟩ (fun _ _ h _ => ⟨h, by simp⟩) (fun _ _ _ h => ⟨h, by simp⟩) (fun sel _ h => absurd ⟨sel, h⟩ hr)
      (fun _ => trivial)).within

theorem tidy_new {length : Nat} (hle : length ≤ I.P.W) : Tidy (newG I L length) :=
  Tidy.new (n := length) (by unfold GTree.new; rw [if_neg (by omega)])

theorem keeps_tcode (hI : Ok I) (g : GTree I L) {c : TCall I L} (hc : c.Fits) : Keeps Tidy ((tcode N g c).compile tsec) :=
  (tcode_within g hc).keeps fun _ hx => keeps_tsec (widthOk_of (by rcases hI with h | h <;> simp [h])) (.inl hx.1)

/-- the simulation: the accesses without lock see a tidy tree -/
theorem tsim (hI : Ok I) {length : Nat} (hle : length ≤ I.P.W) {g : Cfg (TCall I L) (GTree I L) (TReply I L)} {H}
    (h : Exec (fun c => (tcode N (newG I L length) c).compile tsec) (newG I L length) g H) (hf : ∀ n c, Ev.inv n c ∈ H → c.Fits) :
    ∃ a G, AExec (tcode N (newG I L length)) tsem (fun _ s => Tidy s) (newG I L length) a G H ∧ Rel tsec g a ∧
      ∀ x ∈ G, x.2.1.Fits ∧ ∀ es, x.2.1 = .delAll es → ∃ sel, Ev.inv x.1 (.releaseByLabel sel) ∈ H := by
  obtain ⟨a, G, h1, h2⟩ := sim_keeps (J := Tidy) tsections h (tidy_new hle) fun n c hn => keeps_tcode hI _ (hf n c hn)
  refine ⟨a, G, h1, h2, fun x hx => ?_⟩
  obtain ⟨c, k1, k2, k3⟩ := (h1.within (S := fun c x => x.Fits ∧ ∀ es, x = .delAll es → ∃ sel, c = .releaseByLabel sel)
    fun n c hn => tcode_within _ (hf n c hn)).2 x hx
  refine ⟨k2, fun es he => ?_⟩
  obtain ⟨sel, rfl⟩ := k3 es he
  exact ⟨sel, k1⟩

theorem tpath_low (hI : Ok I) {length : Nat} (hle : length ≤ I.P.W) (hl : length ≤ 31) {c : TCall I L} (hc : c.Fits) {l d}
    (hp : (tcode N (newG I L length) c).Path l d) : ∀ x ∈ l, x.1.Low := by
  have := (tcode_uses (newG I L length) hc TSec.Low True (fun _ => trivial) (fun _ => trivial) (fun _ => trivial) trivial
    (fun i _ _ h => ?_) (fun _ _ _ _ => trivial) (fun _ _ _ => trivial) (fun _ => trivial)).path hp
  · exact this
  · obtain ⟨i', h1, h2⟩ := h
    have := (valid_size rfl hle hI.pos i').1 h1
    have hp : 2 ^ length ≤ 2 ^ 31 := Nat.pow_le_pow_right (by decide) hl
    show i.id.toNat < _
    rw [← h2]
    omega

/-- the call `c` with the reply `r` has claimed the prefix `p` -/
def TClaims (p : MyId I.P) (c : TCall I L) (r : TReply I L) : Prop :=
  (∃ l, (c = .claim p l ∨ c = .update p l) ∧ r = .done) ∨ ∃ l e, c = .claimFree l ∧ r = .got e ∧ e.id = p

/-- the call `c` with the reply `r` is a release of the prefix `p`, or one by label -/
def TReleases (p : MyId I.P) (c : TCall I L) (r : TReply I L) : Prop :=
  (∃ id, c = .release id ∧ pre id = pre p ∧ r = .done) ∨ ∃ sel, c = .releaseByLabel sel

theorem path_replyDone {k r : TReply I L} {y : TSecR I L} {l d} (h : (replyDone k y).Path l d) :
    l = [] ∧ ((y = .ok ∧ d = .ret k) ∨ (y ≠ .ok ∧ d = .ret .panic)) := by
  unfold replyDone at h
  split at h
  · obtain ⟨h1, h2⟩ := path_ret h
    exact ⟨h1, .inl ⟨rfl, h2⟩⟩
  · rename_i hne
    obtain ⟨h1, h2⟩ := path_ret h
    exact ⟨h1, .inr ⟨fun h => hne h, h2⟩⟩

/-- the sections of a `ClaimFree` that returned an entry -/
theorem tpath_claimFree {g : GTree I L} {l : L} {e : Entry I.P L} {G} (h : (tcode N g (.claimFree l)).Path G (.ret (.got e))) :
    ∃ b ch, ofRes (Builder.empty.addId (⟨0, I.rootLen g.length⟩ : MyId I.P)) = .ok b ∧
      chooseFree g b ch = .ok (.ok e.id.id) ∧ e = ⟨⟨e.id.id, I.P.W⟩, l⟩ ∧
      G = [(.children ⟨0, I.rootLen g.length⟩, .list ch), (.set e.id l, .ok)] := by
  simp only [tcode] at h
  split at h
  · rename_i b hb
    obtain ⟨r1, G1, rfl, h1⟩ := path_call h
    split at h1
    · rename_i ch
      split at h1
      · rename_i x hx
        obtain ⟨r2, G2, rfl, h2⟩ := path_call h1
        obtain ⟨rfl, ⟨rfl, h3⟩ | ⟨_, h3⟩⟩ := path_replyDone (r := .done) h2
        · cases h3
          exact ⟨b, ch, hb, hx, rfl, rfl⟩
        · cases h3
      · cases (path_ret h1).2
      · cases (path_ret h1).2
    · cases (path_ret h1).2
  · cases (path_ret h).2

theorem tpath_claims {g : GTree I L} {c : TCall I L} {p : MyId I.P} {r : TReply I L} (hc : TClaims p c r) {G}
    (h : (tcode N g c).Path G (.ret r)) : ∃ l, (TSec.set p l, TSecR.ok) ∈ G := by
  rcases hc with ⟨l, hc, rfl⟩ | ⟨l, e, rfl, rfl, rfl⟩
  · have : (if !g.valid p then .ret .err else .call (.set p l) (replyDone .done) : TClient I L).Path G (.ret .done) := by
      rcases hc with rfl | rfl <;> exact h
    split at this
    · cases (path_ret this).2
    · obtain ⟨r1, G1, rfl, h1⟩ := path_call this
      obtain ⟨rfl, ⟨rfl, _⟩ | ⟨_, h3⟩⟩ := path_replyDone (r := .done) h1
      · exact ⟨l, by simp⟩
      · cases h3
  · obtain ⟨b, ch, _, _, _, rfl⟩ := tpath_claimFree h
    exact ⟨l, by simp⟩

/-- only `ReleaseID` deletes a prefix -/
theorem tpath_del {g : GTree I L} {c : TCall I L} (hc : c.Fits) {G d} (h : (tcode N g c).Path G d) {id : MyId I.P}
    {e : Entry I.P L} (hx : (TSec.del id e, TSecR.ok) ∈ G) : c = .release id ∧ ∀ r, d = .ret r → r = .done := by
  have h1 : c = .release id := by
    have := (tcode_uses g hc (fun x => ∀ id e, x = .del id e → c = .release id) True (by simp) (by simp) (by simp) (by simp)
      (by simp) (fun e i hi _ id' e' h => by cases h; exact hi) (by simp) (fun _ => trivial)).path h _ hx
    exact this id e rfl
  subst h1
  refine ⟨rfl, ?_⟩
  simp only [tcode] at h
  split at h
  · rw [(path_ret h).1] at hx; cases hx
  · rcases path_call' h with ⟨rfl, _⟩ | ⟨r1, G1, rfl, h1⟩
    · cases hx
    · split at h1
      · rcases path_call' h1 with ⟨rfl, _⟩ | ⟨r2, G2, rfl, h2⟩
        · simp at hx
        · obtain ⟨rfl, ⟨_, rfl⟩ | ⟨h3, rfl⟩⟩ := path_replyDone (r := .done) h2
          · intro r hr; cases hr; rfl
          · simp only [List.mem_cons, List.not_mem_nil, or_false, Prod.mk.injEq, reduceCtorEq, false_and, false_or] at hx
            exact absurd hx.2.symm h3
      · rw [(path_ret h1).1] at hx; simp at hx
      · rw [(path_ret h1).1] at hx; simp at hx

/-- a program without `ClaimRange` -/
theorem texec {g₀ : GTree I L} {g : Cfg (TCall I L) (GTree I L) (TReply I L)} {H} (h : Exec (tprog N g₀) g₀ g H)
    (hf : ∀ n c, Ev.inv n c ∈ H → c.Fits) : Exec (fun c => (tcode N g₀ c).compile tsec) g₀ g H := by
  refine h.congr ?_
  intro n c hc
  cases c with
  | claimRange s l => cases hf n _ hc
  | _ => rfl

theorem runs_head {κ₀ σ ρ₀ : Type} {sem : σ → κ₀ → σ × ρ₀} {m m' : σ} {n : Nat} {c : κ₀} {r : ρ₀} {G}
    (h : Runs sem m ((n, c, r) :: G) m') : (sem m c).2 = r := by
  generalize hl : (n, c, r) :: G = l at h
  cases h with
  | nil => cases hl
  | cons _ => injection hl with h1 _; injection h1 with _ h1; injection h1 with h1 h2; rw [h1, h2]

/-- **C63, part that holds** (tree16; tree32 of length at most 31, or as long as at most `2^31` events have happened): a
`ClaimFree` that starts after another call has claimed the prefix `p` (`ClaimID`, `Update` or `ClaimFree`) does
not return an id in `p`, unless `p` was released meanwhile, or `ReleaseByLabel` was called. Missing: overlapping calls (violated above),
histories with `ClaimRange`, prefixes not longer than the root prefix of `findFree` (see
`C57_covered_violated`, `C57_full32_violated`). -/
theorem C63_claimFree_partial (hI : I = tree16 ∨ I = tree32) {length : Nat} (hle : length ≤ I.P.W)
    {g : Cfg (TCall I L) (GTree I L) (TReply I L)} {H} (h : Exec (tprog N (newG I L length)) (newG I L length) g H)
    (hf : ∀ n c, Ev.inv n c ∈ H → c.Fits) (hH : I.P.W = 32 → H.length ≤ 2 ^ 31 ∨ length ≤ 31)
    {n n' : Nat} {c : TCall I L} {r : TReply I L} {p : MyId I.P} {l : L} {e : Entry I.P L}
    (hi : Ev.inv n c ∈ H) (hr : Ev.ret n r ∈ H) (hi' : Ev.inv n' (.claimFree l) ∈ H) (hr' : Ev.ret n' (.got e) ∈ H)
    (hb : Before H n n') (hc : TClaims p c r) (hroot : I.rootLen length < p.len) (hp : Covers p e.id.id) :
    ReleasedBetween H (TReleases p) n n' := by
  obtain ⟨a, G, ha, _, hfits⟩ := tsim (ok_of hI) hle (texec h hf) hf
  have F := ha.facts
  obtain ⟨l₁, hx⟩ := tpath_claims hc (F.returned hi hr)
  obtain ⟨b, ch, hb1, hb2, _, hG'⟩ := tpath_claimFree (F.returned hi' hr')
  have hx : (n, TSec.set p l₁, TSecR.ok) ∈ G := mem_callsOf.1 hx
  have hz : (n', TSec.children ⟨0, I.rootLen length⟩, TSecR.list ch) ∈ G := mem_callsOf.1 (by rw [hG']; simp)
  -- in the log, the claim comes first
  have hs : [(n, TSec.set p l₁, TSecR.ok), (n', TSec.children ⟨0, I.rootLen length⟩, TSecR.list ch)].Sublist G := by
    rcases sublist_pair hx hz (by simp) with hs | hs
    · exact hs
    · exact absurd hs (F.order _ _ hb _ _ rfl rfl)
  -- all sections fit, and few of them store an entry
  have hstarted : ∀ x ∈ G, ∃ c d, Ev.inv x.1 c ∈ H ∧ (tcode N (newG I L length) c).Path (callsOf G x.1) d :=
    fun x hx => F.started ha.hasRet (x := x.2) hx
  have hfit : ∀ x ∈ G, x.2.1.Fits := fun x hx => (hfits x hx).1
  have hlow : length ≤ 31 → ∀ x ∈ G, x.2.1.Low := by
    intro hl x hx
    obtain ⟨c, d, h1, h2⟩ := hstarted x hx
    exact tpath_low (ok_of hI) hle hl (hf _ c h1) h2 _ (mem_callsOf.2 hx)
  have hcount : G.countP (fun x => x.2.1.isSet) ≤ H.length := by
    have h1 := countP_callsOf G (fun x => x.1.isSet) ?_ a.th.length
    · have h2 : G.countP (fun e => decide (e.1 < a.th.length) && e.2.1.isSet) = G.countP (fun x => x.2.1.isSet) := by
        apply List.countP_congr
        intro x hx
        have := F.bound x hx
        simp [this]
      have := ha.threads_le
      omega
    · intro i
      by_cases hi : ∃ x ∈ G, x.1 = i
      · obtain ⟨x, hx, rfl⟩ := hi
        obtain ⟨c, d, _, h2⟩ := hstarted x hx
        exact (tcode_sets _ c).path h2
      · have : callsOf G i = [] := by
          unfold callsOf
          rw [List.map_eq_nil_iff, List.filter_eq_nil_iff]
          intro x hx hxi
          exact hi ⟨x, hx, by simpa using hxi⟩
        rw [this]; simp
  obtain ⟨B, C, D, hG⟩ := sublist_split hs
  have hruns : Runs tsem (newG I L length) ((B ++ [(n, TSec.set p l₁, TSecR.ok)]) ++ (C ++ (n', TSec.children ⟨0, I.rootLen length⟩, TSecR.list ch) :: D)) a.mem := by
    have := F.runs
    rw [hG] at this
    simpa using this
  obtain ⟨g1, hr1, hr2⟩ := Runs.split _ hruns
  obtain ⟨g2, hr3, hr4⟩ := Runs.split _ hr2
  have hOk := ok_of hI
  have hM0 : AtMost 0 (Map.empty : Map I.P L) := ⟨[], Nat.le_refl _, fun q hq => absurd rfl hq⟩
  have hN : (B ++ [(n, TSec.set p l₁, TSecR.ok)]).countP (fun x : Nat × TSec I L × TSecR I L => x.2.1.isSet) + C.countP (fun x => x.2.1.isSet) ≤ H.length := by
    rw [hG] at hcount
    simp only [List.countP_append, List.countP_cons, List.countP_nil] at hcount ⊢
    omega
  have hGB : ∀ x ∈ B ++ [(n, TSec.set p l₁, TSecR.ok)], x ∈ G := fun x hx => by
    rw [hG]; simp only [List.mem_append, List.mem_cons, List.not_mem_nil, or_false] at hx ⊢; rcases hx with hx | hx <;> simp [hx]
  have hGC : ∀ x ∈ C, x ∈ G := fun x hx => by rw [hG]; simp [hx]
  obtain ⟨i1, i2, i4, i3⟩ := runs_ginv hOk hr1 ((reach_new (I := I) (L := L) hle).ginv hI)
    (fun x hx => hfit x (hGB x hx))
    (k := 0) (fun hw => (hH hw).imp (fun h => by omega) (fun h => ⟨lowMap_empty, fun x hx => hlow h x (hGB x hx)⟩)) hM0
  have hfitC : ∀ x ∈ C, x.2.1.Fits := fun x hx => hfit x (hGC x hx)
  obtain ⟨j1, j2, _, j3⟩ := runs_ginv hOk hr3 i1 hfitC (fun hw => (hH hw).imp (fun h => by omega)
    (fun h => ⟨i4 lowMap_empty (fun x hx => hlow h x (hGB x hx)), fun x hx => hlow h x (hGC x hx)⟩)) i2
  -- what ClaimFree saw
  have hch : g2.children ⟨0, I.rootLen length⟩ = .ok ch := by
    have hz2 : (tsem g2 (.children ⟨0, I.rootLen length⟩)).2 = .list ch := by
      exact runs_head hr4
    have : TSecR.ofList (g2.children ⟨0, I.rootLen length⟩) = .list ch := hz2
    cases hc : g2.children ⟨0, I.rootLen length⟩ with
    | ok v => rw [hc] at this; cases this; rfl
    | _ => rw [hc] at this; cases this
  have hfree : g2.findFree = .ok (.ok e.id.id) := by
    rw [findFree_split, j1.len]
    have hb1' : ofRes (Builder.empty.addId (⟨0, I.rootLen length⟩ : MyId I.P)) = .ok b := hb1
    rw [hb1']
    show (g2.children ⟨0, I.rootLen length⟩ >>= fun ch => chooseFree g2 b ch) = _
    rw [hch]
    have : chooseFree g2 b ch = chooseFree (newG I L length) b ch := by
      unfold chooseFree GTree.valid
      rw [j1.size]
    exact this.trans hb2
  have hnot : ¬ Seen (effs (effs Map.empty (B ++ [(n, TSec.set p l₁, TSecR.ok)])) C) (I.rootLen length) e.id.id := by
    rcases findFree_spec hOk j1 (rootLen_le hI (reach_new (I := I) (L := L) hle)) with ⟨h1, _⟩ | ⟨x, h1, h2, h3, _⟩
    · rw [hfree] at h1; cases h1
    · rw [hfree] at h1
      split at h1
      · cases h1; exact h3
      · cases h1
  have hplen : p.len ≤ I.P.W := hfit _ hx
  have hin : effs Map.empty (B ++ [(n, TSec.set p l₁, TSecR.ok)]) (pre p) ≠ none := by
    unfold effs
    rw [List.foldl_append]
    simp [TSec.eff, GTree.put]
  have hout : effs (effs Map.empty (B ++ [(n, TSec.set p l₁, TSecR.ok)])) C (pre p) = none := by
    cases hq : effs (effs Map.empty (B ++ [(n, TSec.set p l₁, TSecR.ok)])) C (pre p) with
    | none => rfl
    | some e' =>
      exfalso
      obtain ⟨w1, w2⟩ := j1.wf _ _ hq
      have hlen : p.len = e'.id.len := by
        rw [← pre_length p, w1, pre_length]
      refine hnot ⟨_, e', hq, by omega, ?_⟩
      refine covers_of_common (a := e'.id) (b := p) (by omega) (x := p.id) ?_ (covers_self p) hp
      exact (covers_iff_pre (a := e'.id) (b := p) hplen (by omega)).2 (by rw [w1]; exact List.prefix_refl _)
  -- the order of a section in between
  have hbetween : ∀ {n1 : Nat} {s : TSec I L}, (n1, s, TSecR.ok) ∈ C → ¬ Before H n1 n ∧ ¬ Before H n' n1 := by
    intro n1 s hy
    refine ⟨fun hbf => ?_, fun hbf => ?_⟩
    · refine F.order _ _ hbf (n, TSec.set p l₁, TSecR.ok) (n1, s, TSecR.ok) rfl rfl ?_
      rw [hG]
      refine List.Sublist.trans ?_ (List.sublist_append_right _ _)
      exact List.Sublist.cons_cons _ (List.singleton_sublist.2 (by simp [hy]))
    · refine F.order _ _ hbf (n1, s, TSecR.ok) (n', TSec.children ⟨0, I.rootLen length⟩, TSecR.list ch) rfl rfl ?_
      rw [hG]
      refine List.Sublist.trans ?_ (List.sublist_append_right _ _)
      refine List.Sublist.cons _ ?_
      obtain ⟨C1, C2, rfl⟩ := List.append_of_mem hy
      rw [List.append_assoc]
      refine List.Sublist.trans ?_ (List.sublist_append_right _ _)
      exact List.Sublist.cons_cons _ (List.singleton_sublist.2 (by simp))
  obtain ⟨y, hy, ⟨id, e', hd, hpre⟩ | ⟨es, hd⟩⟩ := effs_keep hin hfitC hout
  rotate_left
  · obtain ⟨sel, hsel⟩ := (hfits y (hGC y hy)).2 es hd
    have hyok := j3 y hy (by rw [hd]; rfl)
    obtain ⟨n1, y1, y2⟩ := y
    simp only at hd hyok hsel
    subst hd hyok
    exact ⟨n1, _, hsel, ⟨.done, .inr ⟨sel, rfl⟩⟩, fun r _ => .inr ⟨sel, rfl⟩, (hbetween hy).1, (hbetween hy).2⟩
  have hyok := j3 y hy (by rw [hd]; rfl)
  obtain ⟨n1, y1, y2⟩ := y
  simp only at hd hyok
  subst hd hyok
  have hyG : (n1, TSec.del id e', TSecR.ok) ∈ G := by rw [hG]; simp [hy]
  obtain ⟨c1, d1, k1, k2⟩ := hstarted _ hyG
  obtain ⟨rfl, _⟩ := tpath_del (hf _ _ k1) k2 (mem_callsOf.2 hyG)
  refine ⟨n1, _, k1, ⟨.done, .inl ⟨id, rfl, hpre, rfl⟩⟩, ?_, (hbetween hy).1, (hbetween hy).2⟩
  intro r hr
  exact .inl ⟨id, rfl, hpre, (tpath_del (hf _ _ k1) (F.returned k1 hr) (mem_callsOf.2 hyG)).2 _ rfl⟩

/-- an execution with a claim, a release and a `ClaimFree` of the same id -/
theorem ex_reclaim (hI : I = tree16 ∨ I = tree32) {length : Nat} (hle : length ≤ I.P.W) (l l' : L) :
    ∃ g, Exec (tprog N (newG I L length)) (newG I L length) g
      [.inv 0 (.claim ⟨0, I.P.W⟩ l), .ret 0 .done, .inv 1 (.release ⟨0, I.P.W⟩), .ret 1 .done,
        .inv 2 (.claimFree l'), .ret 2 (.got ⟨⟨0, I.P.W⟩, l'⟩)] := by
  have g0 := (reach_new (I := I) (L := L) hle).ginv hI
  obtain ⟨g1, e1, i1⟩ := set_inv (ok_of hI) g0 (id := ⟨0, I.P.W⟩) (Nat.le_refl _) l (room_one _ _)
  have hget := get_spec i1 ⟨0, I.P.W⟩
  have hget : g1.get ⟨0, I.P.W⟩ = .ok (some ⟨⟨0, I.P.W⟩, l⟩) := by
    rw [hget]; simp [GTree.put]
  obtain ⟨g2, e2, i2⟩ := del_inv (ok_of hI) i1 (id := ⟨0, I.P.W⟩) (Nat.le_refl _) ⟨⟨0, I.P.W⟩, l⟩
  have hM : (fun q => if q = pre (⟨0, I.P.W⟩ : MyId I.P) then (GTree.put Map.empty (⟨0, I.P.W⟩ : MyId I.P) l q).filter
      (fun e' => !e'.equal ⟨⟨0, I.P.W⟩, l⟩) else GTree.put Map.empty (⟨0, I.P.W⟩ : MyId I.P) l q) = Map.empty := by
    funext q
    by_cases hq : q = pre (⟨0, I.P.W⟩ : MyId I.P)
    · simp [GTree.put, hq, Entry.equal, Map.empty]
    · simp only [GTree.put, hq, if_false]
  rw [hM] at i2
  have hfree : g2.findFree = .ok (.ok 0) := find_zero_ginv hI i2 (by rintro x _ ⟨q, e, he, _⟩; cases he)
  obtain ⟨b, ch, hb, hch, hx⟩ := findFree_inv hfree
  rw [i2.len] at hb hch
  have hx' : chooseFree (newG I L length) b ch = .ok (.ok 0) := by
    rw [← hx]
    unfold chooseFree GTree.valid
    rw [i2.size]
  obtain ⟨g3, e3, i3⟩ := set_inv (ok_of hI) i2 (id := ⟨0, I.P.W⟩) (Nat.le_refl _) l' (room_one _ _)
  obtain ⟨k, hk1, hk2⟩ := tcode_claimFree (g := newG I L length) hb l'
  have hv : (newG I L length).valid ⟨0, I.P.W⟩ = true := by
    simp [GTree.valid]
  have s1 : tsem (newG I L length) (.set ⟨0, I.P.W⟩ l) = (g1, .ok) := by
    show (after _ _, TSecR.ofTree _) = _
    rw [e1]; rfl
  have s2 : tsem g1 (.get ⟨0, I.P.W⟩) = (g1, .found (some ⟨⟨0, I.P.W⟩, l⟩)) := by
    show (_, TSecR.ofFound _) = _
    rw [hget]; rfl
  have s3 : tsem g1 (.del ⟨0, I.P.W⟩ ⟨⟨0, I.P.W⟩, l⟩) = (g2, .ok) := by
    show (after _ _, TSecR.ofTree _) = _
    rw [e2]; rfl
  have s4 : tsem g2 (.children ⟨0, I.rootLen length⟩) = (g2, .list ch) := by
    show (_, TSecR.ofList _) = _
    rw [hch]; rfl
  have s5 : tsem g2 (.set ⟨0, I.P.W⟩ l') = (g3, .ok) := by
    show (after _ _, TSecR.ofTree _) = _
    rw [e3]; rfl
  have h0 : AExec (tcode N (newG I L length)) tsem Eq (newG I L length) ⟨newG I L length, []⟩ [] [] := .init
  have h1 := h0.doInv (.claim ⟨0, I.P.W⟩ l)
  rw [show tcode N (newG I L length) (.claim ⟨0, I.P.W⟩ l) = .call (.set ⟨0, I.P.W⟩ l) (replyDone .done) by
    simp only [tcode, hv]; rfl] at h1
  have h2 := ((h1.doCall 0 rfl s1).doRet 0 rfl).doInv (.release ⟨0, I.P.W⟩)
  rw [show tcode N (newG I L length) (.release ⟨0, I.P.W⟩) = .call (.get ⟨0, I.P.W⟩) fun
    | .found (some e) => .call (.del ⟨0, I.P.W⟩ e) (replyDone .done)
    | .found none => .ret .done
    | _ => .ret .panic by
    simp only [tcode, hv]; rfl] at h2
  have h3 := (((h2.doCall 1 rfl s2).doCall 1 rfl s3).doRet 1 rfl).doInv (.claimFree l')
  rw [hk1] at h3
  have h4 := h3.doCall 2 rfl s4
  rw [hk2 ch 0 hx'] at h4
  have h5 := (h4.doCall 2 rfl s5).doRet 2 rfl
  refine ⟨_, (realize tsections h5).congr ?_⟩
  intro n c hc
  simp only [List.nil_append, List.cons_append, List.mem_cons, Ev.inv.injEq, reduceCtorEq, List.not_mem_nil, or_false,
    or_self, false_or] at hc
  rcases hc with ⟨_, rfl⟩ | ⟨_, rfl⟩ | ⟨_, rfl⟩ <;> rfl

/-- the hypotheses of `C63_claimFree_partial` can be met: tree32 of length 12 -/
example : ∃ g H, Exec (tprog N (newG tree32 Bool 12)) (newG tree32 Bool 12) g H ∧
    (∀ n c, Ev.inv n c ∈ H → c.Fits) ∧ H.length ≤ 2 ^ 31 ∧ Ev.inv 0 (.claim ⟨0, 32⟩ true) ∈ H ∧ Ev.ret 0 .done ∈ H ∧
    Ev.inv 2 (.claimFree false) ∈ H ∧ Ev.ret 2 (.got ⟨⟨0, 32⟩, false⟩) ∈ H ∧ Before H 0 2 ∧
    TClaims (⟨0, 32⟩ : MyId tree32.P) (.claim ⟨0, 32⟩ true) (.done : TReply tree32 Bool) ∧ tree32.rootLen 12 < 32 ∧
    Covers (⟨0, 32⟩ : MyId tree32.P) (0 : BitVec 32) := by
  obtain ⟨g, hg⟩ := ex_reclaim (I := tree32) (L := Bool) (.inr rfl) (length := 12) (by decide) true false
  refine ⟨g, _, hg, ?_, by simp, .head _, .tail _ (.head _), .tail _ (.tail _ (.tail _ (.tail _ (.head _)))),
    .tail _ (.tail _ (.tail _ (.tail _ (.tail _ (.head _))))), ⟨.done, .claimFree false, ?_⟩, .inl ⟨_, .inl rfl, rfl⟩, by decide, rfl⟩
  · intro n c hc
    simp only [List.mem_cons, Ev.inv.injEq, reduceCtorEq, List.not_mem_nil, or_false, or_self, false_or] at hc
    rcases hc with ⟨_, rfl⟩ | ⟨_, rfl⟩ | ⟨_, rfl⟩
    · exact Nat.le_refl _
    · exact Nat.le_refl _
    · trivial
  · exact .cons _ (.cons_cons _ (.cons _ (.cons _ (.cons_cons _ (List.nil_sublist _)))))

end Verif.Conc
