import Verif.GTree.ExactProps

/-! C96 and C97 for the trees of claimed prefixes: what they answer depends on what they store, not on how it got there. -/

set_option linter.unusedSectionVars false
namespace Verif.GTree
open Verif.Id
open Verif.Tree (Tree Out)
variable {I : Impl} {L : Type} [Labels L]

/-- all queries have the same results -/
structure Answers (g₁ g₂ : GTree I L) : Prop where
  get : ∀ id, g₁.get id = g₂.get id
  getAll : g₁.getAll = g₂.getAll
  count : g₁.count = g₂.count
  getByLabel : ∀ sel, g₁.getByLabel sel = g₂.getByLabel sel
  children : ∀ id, g₁.children id = g₂.children id
  parents : ∀ id, g₁.parents id = g₂.parents id

/-- no sequence of calls tells the two trees apart: the results of the calls are the same, and so are those of all
queries after them -/
def Alike (I : Impl) (length : Nat) (g₁ : GTree I L) (M : Map I.P L) (g₂ : GTree I L) : Prop :=
  ∀ hs g₁' M', Steps I length g₁ M hs g₁' M' → ∃ g₂', Steps I length g₂ M hs g₂' M' ∧ Answers g₁' g₂'

/-! ### Lemmas -/

theorem same_entries (hI : I = tree16 ∨ I = tree32) {length : Nat} {g₁ g₂ : GTree I L} {M : Map I.P L}
    (h₁ : Reach I length g₁ M) (h₂ : Reach I length g₂ M) : g₁.entries = g₂.entries ∧ g₁.count = g₂.count := by
  obtain ⟨l₁, a1, a2, a3⟩ := entries_spec (h₁.ginv hI)
  obtain ⟨l₂, b1, b2, b3⟩ := entries_spec (h₂.ginv hI)
  have : l₁ = l₂ := a1.unique b1
  subst this
  exact ⟨a2.trans b2.symm, a3.trans b3.symm⟩

theorem same_answers (hI : I = tree16 ∨ I = tree32) {length : Nat} {g₁ g₂ : GTree I L} {M : Map I.P L}
    (h₁ : Reach I length g₁ M) (h₂ : Reach I length g₂ M) : Answers g₁ g₂ := by
  obtain ⟨he, hc⟩ := same_entries hI h₁ h₂
  refine ⟨fun id => ?_, he, hc, fun sel => ?_, fun id => ?_, fun id => ?_⟩
  · unfold GTree.get; rw [he]
  · unfold GTree.getByLabel; rw [he]
  · unfold GTree.children; rw [he]
  · unfold GTree.parents; rw [he]

theorem same_findFree (hI : I = tree16 ∨ I = tree32) {length : Nat} {g₁ g₂ : GTree I L} {M : Map I.P L}
    (h₁ : Reach I length g₁ M) (h₂ : Reach I length g₂ M) : g₁.findFree = g₂.findFree := by
  have ha := (same_answers hI h₁ h₂).children
  have i1 := h₁.ginv hI
  have i2 := h₂.ginv hI
  have hv : ∀ a, g₁.valid a = g₂.valid a := by
    intro a; unfold GTree.valid; rw [i1.size, i2.size]
  unfold GTree.findFree
  rw [i1.len, i2.len]
  simp only [ha, hv]

/-- apart from `ClaimFree`, the effect of a call is determined -/
theorem effect_det {P : Pkg} {length : Nat} {M M₁ M₂ : Map P L} {o : Op P L} {r₁ r₂ : Result P L}
    (ho : ∀ l, o ≠ .claimFree l) (h₁ : Effect length M o r₁ M₁) (h₂ : Effect length M o r₂ M₂) : r₁ = r₂ ∧ M₁ = M₂ := by
  cases o with
  | claim id l | update id l =>
    simp only [Effect] at h₁ h₂
    split at h₁ <;> rename_i hc
    · rw [if_pos hc] at h₂; exact ⟨h₁.1.trans h₂.1.symm, h₁.2.trans h₂.2.symm⟩
    · rw [if_neg hc] at h₂; exact ⟨h₁.1.trans h₂.1.symm, h₁.2.trans h₂.2.symm⟩
  | claimFree l => exact absurd rfl (ho l)
  | claimRange s l =>
    simp only [Effect] at h₁ h₂
    rcases h₁ with ⟨a1, rfl, rfl⟩ | ⟨x, ids, a1, a2, rfl, rfl⟩ <;> rcases h₂ with ⟨b1, rfl, rfl⟩ | ⟨y, ids', b1, b2, rfl, rfl⟩
    · exact ⟨rfl, rfl⟩
    · exact absurd ⟨y, b1⟩ a1
    · exact absurd ⟨x, a1⟩ b1
    · rw [a1] at b1; cases b1
      rw [a2] at b2; cases b2
      exact ⟨rfl, rfl⟩
  | release id =>
    simp only [Effect] at h₁ h₂
    split at h₁ <;> rename_i hc
    · rw [if_pos hc] at h₂; exact ⟨h₁.1.trans h₂.1.symm, funext fun q => (h₁.2 q).trans (h₂.2 q).symm⟩
    · rw [if_neg hc] at h₂; exact ⟨h₁.1.trans h₂.1.symm, h₁.2.trans h₂.2.symm⟩
  | releaseByLabel sel =>
    simp only [Effect] at h₁ h₂
    exact ⟨h₁.1.trans h₂.1.symm, funext fun q => (h₁.2 q).trans (h₂.2 q).symm⟩

/-- a call, other than `ClaimFree`, that has room does what the specification says -/
theorem exec_of_effect (hI : I = tree16 ∨ I = tree32) {length : Nat} {g : GTree I L} {M M' : Map I.P L}
    (h : Reach I length g M) {o : Op I.P L} (hf : o.Fits) (hne : ∀ l, o ≠ .claimFree l) {r : Result I.P L}
    (he : Effect length M o r M') (hr : Room M') : ∃ g', g.exec o = .ok (r, g') := by
  obtain ⟨r₂, M₂, e1, e2⟩ := C70_no_panic_partial hI h hf
  obtain ⟨rfl, rfl⟩ := effect_det hne he e1
  obtain ⟨g', e3, _⟩ := e2 hr
  exact ⟨g', e3⟩

theorem same_step (hI : I = tree16 ∨ I = tree32) {length : Nat} {g₁ g₁' g₂ : GTree I L} {M M' : Map I.P L}
    (h₁ : Reach I length g₁ M) (h₂ : Reach I length g₂ M) {o : Op I.P L} (hf : o.Fits) {r : Result I.P L}
    (hx : g₁.exec o = .ok (r, g₁')) (he : Effect length M o r M') (hr : Room M') : ∃ g₂', g₂.exec o = .ok (r, g₂') := by
  by_cases hne : ∀ l, o ≠ .claimFree l
  · exact exec_of_effect hI h₂ hf hne he hr
  · have : ∃ l, o = .claimFree l := Classical.byContradiction fun hc => hne fun l hl => hc ⟨l, hl⟩
    obtain ⟨l, rfl⟩ := this
    have hff := same_findFree hI h₁ h₂
    rcases he with ⟨rfl, rfl⟩ | ⟨x, hx2, rfl, rfl⟩
    · -- it failed: nothing was found
      rcases hfind : g₁.findFree with r' | _ | _ | _
      · cases r' with
        | err => exact ⟨g₂, claimFree_err (hff ▸ hfind) l⟩
        | ok x =>
          exfalso
          have : g₁.exec (.claimFree l) = (g₁.set ⟨x, I.P.W⟩ ⟨⟨x, I.P.W⟩, l⟩ >>= fun g => .ok (.got ⟨⟨x, I.P.W⟩, l⟩, g)) := by
            show (g₁.claimFree l >>= _) = _
            unfold GTree.claimFree
            rw [hfind]
            show (((g₁.set _ _) >>= _) >>= _) = _
            cases g₁.set ⟨x, I.P.W⟩ ⟨⟨x, I.P.W⟩, l⟩ <;> rfl
          rw [this] at hx
          cases hs : g₁.set ⟨x, I.P.W⟩ ⟨⟨x, I.P.W⟩, l⟩ <;> rw [hs] at hx <;> cases hx
      all_goals
        exfalso
        have : g₁.exec (.claimFree l) = (g₁.claimFree l >>= fun p => .ok (match p.1 with | .ok e => .got e | .err => .err, p.2)) := rfl
        rw [this] at hx
        unfold GTree.claimFree at hx
        rw [hfind] at hx
        cases hx
    · -- it succeeded with the value found
      have hfind : g₁.findFree = .ok (.ok x) := by
        rcases find_cases hI h₁ with ⟨f, _⟩ | ⟨y, f, _⟩
        · rw [claimFree_err f l] at hx; cases hx
        · split at f
          · have : g₁.exec (.claimFree l) = (g₁.set ⟨y, I.P.W⟩ ⟨⟨y, I.P.W⟩, l⟩ >>= fun g => .ok (.got ⟨⟨y, I.P.W⟩, l⟩, g)) := by
              show (g₁.claimFree l >>= _) = _
              unfold GTree.claimFree
              rw [f]
              show (((g₁.set _ _) >>= _) >>= _) = _
              cases g₁.set ⟨y, I.P.W⟩ ⟨⟨y, I.P.W⟩, l⟩ <;> rfl
            rw [this] at hx
            cases hs : g₁.set ⟨y, I.P.W⟩ ⟨⟨y, I.P.W⟩, l⟩ <;> rw [hs] at hx <;> cases hx
            exact f
          · rw [claimFree_err f l] at hx; cases hx
      obtain ⟨g', e1, _⟩ := claimFree_ok hI h₂ (hff ▸ hfind) hx2 l hr
      exact ⟨g', e1⟩

/-- trees that store the same cannot be told apart -/
theorem alike_of_same (hI : I = tree16 ∨ I = tree32) {length : Nat} {g₁ g₂ : GTree I L} {M : Map I.P L}
    (h₁ : Reach I length g₁ M) (h₂ : Reach I length g₂ M) : Alike I length g₁ M g₂ := by
  intro hs g₁' M' hst
  induction hst generalizing g₂ with
  | nil => exact ⟨g₂, .nil, same_answers hI h₁ h₂⟩
  | cons ho hx he hr _ ih =>
    obtain ⟨g₃, e⟩ := same_step hI h₁ h₂ ho hx he hr
    obtain ⟨g₂', e1, e2⟩ := ih (h₁.step ho hx he hr) (h₂.step ho e he hr)
    exact ⟨g₂', .cons ho e he hr e1, e2⟩

/-- `Get` shows everything that is stored -/
theorem map_of_gets (hI : I = tree16 ∨ I = tree32) {length : Nat} {g₁ g₂ : GTree I L} {M₁ M₂ : Map I.P L}
    (h₁ : Reach I length g₁ M₁) (h₂ : Reach I length g₂ M₂) (hget : ∀ id, g₁.get id = g₂.get id) : M₁ = M₂ := by
  have half : ∀ {g₁ g₂ : GTree I L} {M₁ M₂ : Map I.P L}, Reach I length g₁ M₁ → Reach I length g₂ M₂ →
      (∀ id, g₁.get id = g₂.get id) → ∀ q e, M₁ q = some e → M₂ q = some e := by
    intro g₁ g₂ M₁ M₂ h₁ h₂ hget q e he
    obtain ⟨rfl, _⟩ := (h₁.ginv hI).wf q e he
    have := hget e.id
    rw [get_spec (h₁.ginv hI), get_spec (h₂.ginv hI), he, filter_pos (by simp)] at this
    injection this with this
    cases h2 : M₂ (pre e.id) with
    | none => rw [h2] at this; cases this
    | some e' =>
      rw [h2, Option.filter_some] at this
      split at this <;> cases this
      rfl
  funext q
  exact Option.ext fun e => ⟨half h₁ h₂ hget q e, half h₂ h₁ (fun id => (hget id).symm) q e⟩

/-! ### C96 -/

/-- **C96, partial** (tree16; tree32 as long as the map has room) Two trees of the same length, reached by any histories
of calls, whose `Get` replies are the same for all ids, cannot be told apart by any further calls and queries. Missing:
tree64, where it is violated below; `Clone` (`C71`). -/
theorem C96_tree_partial (hI : I = tree16 ∨ I = tree32) {length : Nat} {g₁ g₂ : GTree I L} {M₁ M₂ : Map I.P L}
    (h₁ : Reach I length g₁ M₁) (h₂ : Reach I length g₂ M₂) (hget : ∀ id, g₁.get id = g₂.get id) :
    M₁ = M₂ ∧ Alike I length g₁ M₁ g₂ := by
  have := map_of_gets hI h₁ h₂ hget
  subst this
  exact ⟨rfl, alike_of_same hI h₁ h₂⟩

/-- **C96, violated** (tree64) After claiming 1/64 and 2/64, or 2/64 alone, `Get` gives the same replies for all ids, but
`Size` is 2 in one case and 1 in the other. -/
theorem C96_tree64_violated :
    (∀ id, ((fresh tree64 64).after [.claim ⟨1, 64⟩ true, .claim ⟨2, 64⟩ false]).get id =
      ((fresh tree64 64).after [.claim ⟨2, 64⟩ false]).get id) ∧
    ((fresh tree64 64).after [.claim ⟨1, 64⟩ true, .claim ⟨2, 64⟩ false]).count = .ok 2 ∧
    ((fresh tree64 64).after [.claim ⟨2, 64⟩ false]).count = .ok 1 := by
  have e1 : ((fresh tree64 64).after [.claim ⟨1, 64⟩ true, .claim ⟨2, 64⟩ false]).entries =
      .ok [some ⟨⟨2, 64⟩, false⟩, some ⟨⟨2, 64⟩, false⟩] := rfl
  have e2 : ((fresh tree64 64).after [.claim ⟨2, 64⟩ false]).entries = .ok [some ⟨⟨2, 64⟩, false⟩] := rfl
  refine ⟨fun id => ?_, rfl, rfl⟩
  unfold GTree.get
  rw [e1, e2]
  show getLoop id [some ⟨⟨2, 64⟩, false⟩, some ⟨⟨2, 64⟩, false⟩] = getLoop id [some ⟨⟨2, 64⟩, false⟩]
  by_cases h : (⟨2, 64⟩ : MyId tree64.P) = id
  · simp [getLoop, deref, h]
  · simp [getLoop, deref, h]

/-- the hypothesis of C96: two histories of a tree16 of length 8, with the same result -/
example : ∀ id, ((fresh tree16 8).after [.claim ⟨5, 16⟩ true, .claim ⟨7, 16⟩ false]).get id =
    ((fresh tree16 8).after [.claim ⟨7, 16⟩ true, .claim ⟨3, 16⟩ true, .update ⟨7, 16⟩ false, .release ⟨3, 16⟩,
      .claim ⟨5, 16⟩ true]).get id := by
  have e1 : ((fresh tree16 8).after [.claim ⟨5, 16⟩ true, .claim ⟨7, 16⟩ false]).entries =
    .ok [some ⟨⟨5, 16⟩, true⟩, some ⟨⟨7, 16⟩, false⟩] := rfl
  have e2 : ((fresh tree16 8).after [.claim ⟨7, 16⟩ true, .claim ⟨3, 16⟩ true, .update ⟨7, 16⟩ false, .release ⟨3, 16⟩,
      .claim ⟨5, 16⟩ true]).entries = .ok [some ⟨⟨5, 16⟩, true⟩, some ⟨⟨7, 16⟩, false⟩] := rfl
  intro id
  unfold GTree.get
  rw [e1, e2]

/-! ### C97 -/

/-- the id that a call is about -/
def Op.about {P : Pkg} : Op P L → Option (MyId P)
  | .claim id _ | .update id _ | .release id => some id
  | _ => none

theorem about_ne {P : Pkg} {o : Op P L} {id : MyId P} (h : o.about = some id) : ∀ l, o ≠ .claimFree l := by
  rintro l rfl; cases h

/-- the call changes one prefix, depending on what is stored there -/
theorem about_effect {P : Pkg} {length : Nat} {o : Op P L} {id : MyId P} (h : o.about = some id) :
    ∃ (r : Result P L) (f : Option (Entry P L) → Option (Entry P L)), ∀ M r' M',
      Effect length M o r' M' ↔ r' = r ∧ M' = fun q => if q = pre id then f (M q) else M q := by
  cases o with
  | claim i l | update i l =>
    cases h
    by_cases hc : id.id.toNat < 2 ^ length
    · exact ⟨.done, fun _ => some ⟨id, l⟩, fun M r' M' => by simp only [Effect, if_pos hc]; rfl⟩
    · refine ⟨.err, fun x => x, fun M r' M' => ?_⟩
      simp only [Effect, if_neg hc, ite_self]
  | release i =>
    cases h
    by_cases hc : id.id.toNat < 2 ^ length
    · refine ⟨.done, fun x => x.filter (fun e => decide (e.id ≠ id)), fun M r' M' => ?_⟩
      simp only [Effect, if_pos hc]
      exact and_congr_right fun _ => ⟨fun h => funext h, fun h q => by rw [h]⟩
    · refine ⟨.err, fun x => x, fun M r' M' => ?_⟩
      simp only [Effect, if_neg hc, ite_self]
  | _ => cases h

/-- **C97, partial** (tree16; tree32 as long as the map has room) Claims, updates and releases of two different prefixes
have the same results in either order, and nothing later tells the difference. Missing: tree64 (violated below). -/
theorem C97_tree_commute_partial (hI : I = tree16 ∨ I = tree32) {length : Nat} {g g' : GTree I L} {M M' : Map I.P L}
    (h : Reach I length g M) {o₁ o₂ : Op I.P L} {i j : MyId I.P} (h₁ : o₁.about = some i) (h₂ : o₂.about = some j)
    (hne : pre i ≠ pre j) {r₁ r₂ : Result I.P L} (hst : Steps I length g M [(o₁, r₁), (o₂, r₂)] g' M')
    (hroom : ∃ r M₂, Effect length M o₂ r M₂ ∧ Room M₂) :
    ∃ g'', Steps I length g M [(o₂, r₂), (o₁, r₁)] g'' M' ∧ Alike I length g' M' g'' := by
  obtain ⟨s₁, f₁, e₁⟩ := about_effect (length := length) h₁
  obtain ⟨s₂, f₂, e₂⟩ := about_effect (length := length) h₂
  have hg' := h.steps hst
  cases hst with
  | cons a1 a2 a3 a4 hst =>
    cases hst with
    | cons b1 b2 b3 b4 hst =>
      cases hst
      obtain ⟨rfl, rfl⟩ := (e₁ _ _ _).1 a3
      obtain ⟨rfl, rfl⟩ := (e₂ _ _ _).1 b3
      obtain ⟨r, M₂, c1, c2⟩ := hroom
      obtain ⟨rfl, rfl⟩ := (e₂ _ _ _).1 c1
      obtain ⟨g₂, c3⟩ := exec_of_effect hI h b1 (about_ne h₂) c1 c2
      have hr2 := h.step b1 c3 c1 c2
      have hM : (fun q => if q = pre j then f₂ (if q = pre i then f₁ (M q) else M q) else if q = pre i then f₁ (M q) else M q) =
          fun q => if q = pre i then f₁ (if q = pre j then f₂ (M q) else M q) else if q = pre j then f₂ (M q) else M q := by
        funext q
        by_cases hq : q = pre i
        · have : ¬ q = pre j := fun hj => hne (hq.symm.trans hj)
          simp only [if_pos hq, if_neg this]
        · simp only [if_neg hq]
      have d1 : Effect length _ o₁ r₁ _ := (e₁ _ _ _).2 ⟨rfl, hM⟩
      obtain ⟨g₃, d3⟩ := exec_of_effect hI hr2 a1 (about_ne h₁) d1 b4
      exact ⟨g₃, .cons b1 c3 c1 c2 (.cons a1 d3 d1 b4 .nil), alike_of_same hI hg' (hr2.step a1 d3 d1 b4)⟩

/-- **C97, partial** (tree16; tree32 as long as the map has room) If nothing is stored under the prefix of an id, claiming
it and releasing it succeed and leave a tree that nothing tells from the one before. Missing: tree64 (violated below). -/
theorem C97_tree_undo_partial (hI : I = tree16 ∨ I = tree32) {length : Nat} {g : GTree I L} {M : Map I.P L}
    (h : Reach I length g M) (id : MyId I.P) (hid : id.len ≤ I.P.W) (hlt : id.id.toNat < 2 ^ length) (l : L)
    (hn : M (pre id) = none) (hr : Room (put M id l)) :
    ∃ g', Steps I length g M [(.claim id l, .done), (.release id, .done)] g' M ∧ Alike I length g M g' := by
  have c1 : Effect length M (.claim id l) .done (put M id l) := by
    simp only [Effect, if_pos hlt, true_and]
  obtain ⟨g₁, c3⟩ := exec_of_effect hI h (o := .claim id l) hid (about_ne (id := id) rfl) c1 hr
  have h1 := h.step (o := .claim id l) hid c3 c1 hr
  have d1 : Effect length (put M id l) (.release id) .done M := by
    simp only [Effect, if_pos hlt, true_and]
    intro q
    unfold put
    by_cases hq : q = pre id
    · rw [if_pos hq, if_pos hq, hq, hn, filter_neg (by simp)]
    · rw [if_neg hq, if_neg hq]
  obtain ⟨g₂, d3⟩ := exec_of_effect hI h1 (o := .release id) hid (about_ne (id := id) rfl) d1 (h.ginv hI).room
  have h2 := h1.step (o := .release id) hid d3 d1 (h.ginv hI).room
  exact ⟨g₂, .cons (o := .claim id l) hid c3 c1 hr (.cons (o := .release id) hid d3 d1 (h.ginv hI).room .nil), alike_of_same hI h h2⟩

/-- **C97, violated** (tree64) 1/64 and 2/64 claimed in either order give different replies of `Get`; with 0/64 claimed,
claiming and releasing 1/64 makes `Get(0/64)` panic. -/
theorem C97_tree64_violated :
    (fresh tree64 64).gets [.claim ⟨1, 64⟩ true, .claim ⟨2, 64⟩ false] [⟨1, 64⟩, ⟨2, 64⟩] = [.none, .some false] ∧
    (fresh tree64 64).gets [.claim ⟨2, 64⟩ false, .claim ⟨1, 64⟩ true] [⟨1, 64⟩, ⟨2, 64⟩] = [.some true, .none] ∧
    (fresh tree64 64).gets [.claim ⟨0, 64⟩ true] [⟨0, 64⟩] = [.some true] ∧
    (fresh tree64 64).gets [.claim ⟨0, 64⟩ true, .claim ⟨1, 64⟩ false, .release ⟨1, 64⟩] [⟨0, 64⟩] = [.panic] := by decide

/-- **C97, violated** (all packages) Claiming an id that is claimed already succeeds, and releasing it then does not give
the earlier entry back. -/
theorem C97_tree_reclaim_violated :
    (fresh tree16 16).gets [.claim ⟨5, 16⟩ true] [⟨5, 16⟩] = [.some true] ∧
    okOf (((fresh tree16 16).after [.claim ⟨5, 16⟩ true]).exec (.claim ⟨5, 16⟩ false)) = some true ∧
    (fresh tree16 16).gets [.claim ⟨5, 16⟩ true, .claim ⟨5, 16⟩ false, .release ⟨5, 16⟩] [⟨5, 16⟩] = [.none] ∧
    (fresh tree32 32).gets [.claim ⟨5, 32⟩ true] [⟨5, 32⟩] = [.some true] ∧
    okOf (((fresh tree32 32).after [.claim ⟨5, 32⟩ true]).exec (.claim ⟨5, 32⟩ false)) = some true ∧
    (fresh tree32 32).gets [.claim ⟨5, 32⟩ true, .claim ⟨5, 32⟩ false, .release ⟨5, 32⟩] [⟨5, 32⟩] = [.none] := by decide

/-- the hypotheses of C97 -/
example : (Op.claim ⟨5, 16⟩ true : Op id16 Bool).about = some ⟨5, 16⟩ ∧ (Op.release ⟨7, 16⟩ : Op id16 Bool).about = some ⟨7, 16⟩ ∧
    pre (⟨5, 16⟩ : MyId id16) ≠ pre (⟨7, 16⟩ : MyId id16) := ⟨rfl, rfl, by decide⟩

end Verif.GTree
