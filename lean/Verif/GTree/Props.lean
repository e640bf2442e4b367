import Verif.GTree.Free

/-! Theorems C52 to C60, C70 and C71: the trees of claimed prefixes. -/

set_option linter.unusedSectionVars false
namespace Verif.GTree
open Verif.Id
open Verif.Tree (Tree Out newTree pfx AtMost ListsMap Abs)
variable {I : Impl} {L : Type} [Labels L]

theorem ok_of (hI : I = tree16 ∨ I = tree32) : Ok I := by
  rcases hI with rfl | rfl
  · exact .inl rfl
  · exact .inr rfl

theorem root_of (hI : I = tree16 ∨ I = tree32) : RootOk I := by
  rcases hI with rfl | rfl
  · exact rootOk16
  · exact rootOk32

theorem Reach.ginv (hI : I = tree16 ∨ I = tree32) {length : Nat} {g : GTree I L} {M : Map I.P L} (h : Reach I length g M) :
    GInv length g M := h.inv (ok_of hI) (root_of hI)

theorem Reach.steps {length : Nat} {g g' : GTree I L} {M M' : Map I.P L} {hs : List (Op I.P L × Result I.P L)}
    (h : Reach I length g M) (hst : Steps I length g M hs g' M') : Reach I length g' M' := by
  induction hst with
  | nil => exact h
  | cons ho he hM hr _ ih => exact ih (h.step ho he hM hr)

/-! ### C70 -/

/-- **C70** (tree16; tree32 as long as the map has room) No call panics: it returns what the abstract
effect says, and the tree reached represents the resulting map. -/
theorem C70_no_panic_partial (hI : I = tree16 ∨ I = tree32) {length : Nat} {g : GTree I L} {M : Map I.P L}
    (h : Reach I length g M) {o : Op I.P L} (ho : o.Fits) :
    ∃ r M', Effect length M o r M' ∧ (Room M' → ∃ g', g.exec o = .ok (r, g') ∧ Reach I length g' M') := by
  obtain ⟨r, M', e1, e2, _⟩ := exec_spec (ok_of hI) (root_of hI) (h.ginv hI) ho
  refine ⟨r, M', e1, fun hr => ?_⟩
  obtain ⟨g', e3, _⟩ := e2 hr
  exact ⟨g', e3, h.step ho e3 e1 hr⟩

/-- **C70** (tree16) No call panics. -/
theorem C70_no_panic16 {length : Nat} {g : GTree tree16 L} {M : Map tree16.P L}
    (h : Reach tree16 length g M) {o : Op tree16.P L} (ho : o.Fits) :
    ∃ r g' M', g.exec o = .ok (r, g') ∧ Effect length M o r M' ∧ Reach tree16 length g' M' := by
  obtain ⟨r, M', e1, e2⟩ := C70_no_panic_partial (.inl rfl) h ho
  obtain ⟨g', e3, e4⟩ := e2 (fun hw => absurd hw (by decide))
  exact ⟨r, g', M', e3, e1, e4⟩

/-- a new tree is reached -/
theorem reach_new {length : Nat} (h : length ≤ I.P.W) :
    Reach I length (⟨newTree I.P, ((1 : BitVec I.P.W) <<< length) - 1, length⟩ : GTree I L) Map.empty := by
  refine .new ?_
  unfold new
  rw [if_neg (by omega)]

/-! ### C52 -/

theorem touch_keeps {P : Pkg} {length : Nat} {M M' : Map P L} {o : Op P L} {r : Result P L} {q : List Bool} {e : Entry P L}
    (hM : Effect length M o r M') (hq : M q = some e) (ht : ¬ Touches q e.labels (o, r)) : M' q = some e := by
  have hput : ∀ (M : Map P L) (id : MyId P) (l : L), M q = some e → ¬ pre id = q → put M id l q = some e := by
    intro M id l h hne
    unfold put
    rw [if_neg (fun h => hne h.symm)]; exact h
  cases o with
  | claim id l =>
    unfold Effect at hM
    simp only at hM
    split at hM
    · rw [hM.2]; exact hput _ _ _ hq ht
    · rw [hM.2]; exact hq
  | update id l =>
    unfold Effect at hM
    simp only at hM
    split at hM
    · rw [hM.2]; exact hput _ _ _ hq ht
    · rw [hM.2]; exact hq
  | claimFree l =>
    rcases hM with ⟨_, h⟩ | ⟨x, _, hr, h⟩
    · rw [h]; exact hq
    · rw [h]
      exact hput _ _ _ hq (fun he => ht ⟨_, hr, he⟩)
  | claimRange s l =>
    rcases hM with ⟨_, _, h⟩ | ⟨x, ids, h1, h2, _, h⟩
    · rw [h]; exact hq
    · rw [h]
      have hn : ∀ i ∈ ids, ¬ pre i = q := fun i hi he => ht ⟨x, ids, h1, h2, i, hi, he⟩
      clear h h1 h2
      have : ∀ (ids : List (MyId P)) (M : Map P L), (∀ i ∈ ids, ¬ pre i = q) → M q = some e → puts M l ids q = some e := by
        intro ids
        induction ids with
        | nil => intro M _ h; exact h
        | cons i ids ih =>
          intro M hn h
          exact ih _ (fun j hj => hn j (by simp [hj])) (hput _ _ _ h (hn i (by simp)))
      exact this ids M hn hq
  | release id =>
    unfold Effect at hM
    simp only at hM
    split at hM
    · rw [hM.2, if_neg (fun h => ht h.symm)]; exact hq
    · rw [hM.2]; exact hq
  | releaseByLabel sel =>
    rw [hM.2, hq, filter_pos]
    have ht : ¬ sel e.labels = true := ht
    simp [ht]

theorem steps_keep {length : Nat} {g g' : GTree I L} {M M' : Map I.P L} {hs : List (Op I.P L × Result I.P L)} {q : List Bool}
    {e : Entry I.P L} (hst : Steps I length g M hs g' M') (hq : M q = some e) (ht : ∀ x ∈ hs, ¬ Touches q e.labels x) :
    M' q = some e := by
  induction hst with
  | nil => exact hq
  | cons _ _ hM _ _ ih => exact ih (touch_keeps hM hq (ht _ (by simp))) (fun x hx => ht x (by simp [hx]))

/-- **C52, partial** (tree16; tree32 as long as the map has room) `ClaimID` and `Update` of an id below
`2^length` succeed, and from then on, whatever calls follow, `Get` returns exactly this id and the labels,
until a call claims or releases the same prefix. Other ids are rejected without effect. Missing: tree64, and
tree32 without room (violated with `2^31 + 1` entries, `C52_tree32_violated`). -/
theorem C52_claim_get_partial (hI : I = tree16 ∨ I = tree32) {length : Nat} {g : GTree I L} {M : Map I.P L}
    (h : Reach I length g M) (id : MyId I.P) (hid : id.len ≤ I.P.W) (l : L) (o : Op I.P L)
    (ho : o = .claim id l ∨ o = .update id l) :
    (id.id.toNat < 2 ^ length → Room (put M id l) →
      ∃ g₁, g.exec o = .ok (.done, g₁) ∧ Reach I length g₁ (put M id l) ∧
        ∀ hs g' M', Steps I length g₁ (put M id l) hs g' M' → (∀ x ∈ hs, ¬ Touches (pre id) l x) →
          g'.get id = .ok (some ⟨id, l⟩)) ∧
    (2 ^ length ≤ id.id.toNat → g.exec o = .ok (.err, g)) := by
  have hg := h.ginv hI
  have hf : o.Fits := by rcases ho with rfl | rfl <;> exact hid
  have hexec : g.exec o = g.exec (.claim id l) := by rcases ho with rfl | rfl <;> rfl
  obtain ⟨c1, c2⟩ := claim_spec (ok_of hI) hg hid l
  constructor
  · intro hlt hr
    obtain ⟨g1, e1, e2⟩ := c1 hlt hr
    have hx : g.exec o = .ok (.done, g1) := by
      rw [hexec]
      show (g.claimID id l >>= _) = _
      rw [e1]; rfl
    have heff : Effect length M o .done (put M id l) := by
      rcases ho with rfl | rfl <;> simp [Effect, hlt]
    have hreach := h.step hf hx heff hr
    refine ⟨g1, hx, hreach, ?_⟩
    intro hs g' M' hst ht
    have hk := steps_keep hst (q := pre id) (e := ⟨id, l⟩) (by unfold put; rw [if_pos rfl]) ht
    rw [get_spec ((hreach.steps hst).ginv hI) id, hk, filter_pos (by simp)]
  · intro hge
    rw [hexec]
    show (g.claimID id l >>= _) = _
    rw [c2 (by omega)]; rfl

/-- labels for examples -/
instance : Labels Bool := ⟨fun b => if b then "a" else "b"⟩

/-- what a test can see -/
inductive Got | panic | none | some (l : Bool)
deriving DecidableEq

/-- execute calls, look at the result of each `Get` -/
def GTree.gets (g : GTree I Bool) : List (Op I.P Bool) → List (MyId I.P) → List Got
  | [], ids => ids.map (fun i => match g.get i with
    | .ok (some e) => .some e.labels
    | .ok none => .none
    | _ => .panic)
  | o :: os, ids => match g.exec o with
    | .ok (_, g) => g.gets os ids
    | _ => [.panic]

/-- a new tree -/
def fresh (I : Impl) (length : Nat) : GTree I Bool := ⟨newTree I.P, ((1 : BitVec I.P.W) <<< length) - 1, length⟩

/-- **C52, violated** (tree64) After claiming 0/64 and 1/64, `Get(0/64)` fails. -/
theorem C52_tree64_violated :
    (fresh tree64 64).gets [.claim ⟨0, 64⟩ true, .claim ⟨1, 64⟩ false] [⟨0, 64⟩, ⟨1, 64⟩] =
      [.none, .some false] := by decide

example : (fresh tree16 16).gets [.claim ⟨0, 16⟩ true, .claim ⟨1, 16⟩ false, .release ⟨1, 16⟩] [⟨0, 16⟩, ⟨1, 16⟩] =
    [.some true, .none] := by decide
example : ∀ x ∈ ([(.claim ⟨1, 16⟩ false, .done), (.release ⟨1, 16⟩, .done)] : List (Op id16 Bool × Result id16 Bool)),
    ¬ Touches (pre (⟨0, 16⟩ : MyId id16)) true x := by
  intro x hx
  simp only [List.mem_cons, List.not_mem_nil, or_false] at hx
  rcases hx with rfl | rfl <;> simp only [Touches] <;> decide

-- C70: calls that fit, and a tree
example : (Op.claim ⟨3, 16⟩ true : Op id16 Bool).Fits ∧ (Op.release ⟨0xfff0, 12⟩ : Op id16 Bool).Fits ∧
    (∃ M, Reach tree16 4 (⟨newTree id16, 15, 4⟩ : GTree tree16 Bool) M) := ⟨by simp only [Op.Fits]; decide, by simp only [Op.Fits]; decide, _, .new rfl⟩

/-! ### C53 -/

/-- the entries, listed -/
theorem getAll_spec (hI : I = tree16 ∨ I = tree32) {length : Nat} {g : GTree I L} {M : Map I.P L}
    (h : Reach I length g M) : ∃ l, Listing l M ∧ g.getAll = .ok (l.map some) := by
  obtain ⟨l, h1, h2, _⟩ := entries_spec (h.ginv hI)
  exact ⟨l, h1, h2⟩

instance : Std.Irrefl (fun a b : Bool => a < b) := ⟨by decide⟩
instance : Trans (fun a b : Bool => a < b) (fun a b : Bool => a < b) (fun a b : Bool => a < b) :=
  ⟨fun {a b c} => by revert a b c; decide⟩

/-- sorted lists with the same elements are equal -/
theorem sorted_unique {β : Type} : ∀ {l l' : List (List Bool × β)}, l.Pairwise (fun a b => a.1 < b.1) →
    l'.Pairwise (fun a b => a.1 < b.1) → (∀ x, x ∈ l ↔ x ∈ l') → l = l'
  | [], [], _, _, _ => rfl
  | [], y :: l', _, _, h => by have := (h y).2 (by simp); simp at this
  | x :: l, [], _, _, h => by have := (h x).1 (by simp); simp at this
  | x :: l, y :: l', h1, h2, h => by
    rw [List.pairwise_cons] at h1 h2
    have hxy : x = y := by
      rcases List.mem_cons.1 ((h x).1 (by simp)) with h3 | h3
      · exact h3
      · rcases List.mem_cons.1 ((h y).2 (by simp)) with h4 | h4
        · exact h4.symm
        · exact absurd (List.lt_trans (h1.1 y h4) (h2.1 x h3)) (List.lt_irrefl _)
    subst hxy
    congr 1
    refine sorted_unique h1.2 h2.2 (fun z => ?_)
    constructor
    · intro hz
      rcases List.mem_cons.1 ((h z).1 (by simp [hz])) with h3 | h3
      · rw [h3] at hz; exact absurd (h1.1 x hz) (List.lt_irrefl _)
      · exact h3
    · intro hz
      rcases List.mem_cons.1 ((h z).2 (by simp [hz])) with h3 | h3
      · rw [h3] at hz; exact absurd (h2.1 x hz) (List.lt_irrefl _)
      · exact h3

omit [Labels L] in
/-- two listings of the same map are equal -/
theorem Listing.unique {P : Pkg} {l l' : List (Entry P L)} {M : Map P L} (h : Listing l M) (h' : Listing l' M) : l = l' := by
  have := sorted_unique h.1 h'.1 (fun x => (h.2 x.1 x.2).trans (h'.2 x.1 x.2).symm)
  have := congrArg (List.map (fun x : List Bool × Entry P L => x.2)) this
  simpa [List.map_map, Function.comp_def] using this

omit [Labels L] in
theorem Listing.filter {P : Pkg} {l : List (Entry P L)} {M : Map P L} (h : Listing l M) (p : Entry P L → Bool) :
    Listing (l.filter p) (fun q => (M q).filter p) := by
  refine ⟨?_, ?_⟩
  · have := h.1
    rw [List.pairwise_map] at this ⊢
    exact this.filter _
  · intro q e
    rw [Option.filter_eq_some_iff, ← h.2, List.mem_map, List.mem_map]
    constructor
    · rintro ⟨e', h1, h2⟩
      obtain ⟨h3, h4⟩ := List.mem_filter.1 h1
      have h5 : e' = e := congrArg Prod.snd h2
      rw [← h5]
      exact ⟨⟨e', h3, by rw [h5] at h2 ⊢; exact h2⟩, h4⟩
    · rintro ⟨⟨e', h1, h2⟩, h3⟩
      have h5 : e' = e := congrArg Prod.snd h2
      exact ⟨e', List.mem_filter.2 ⟨h1, by rw [h5]; exact h3⟩, h2⟩

/-- **C53, partial** (tree16; tree32 as long as the map has room) `ReleaseID` of an id below `2^length`
succeeds and removes exactly the entry claimed under this id and length, if there is one: `GetAll` returns
the other entries in the same order. A second call changes nothing. Missing: ids of `2^length` and above
(violated below), tree64 (violated below). -/
theorem C53_release_partial (hI : I = tree16 ∨ I = tree32) {length : Nat} {g : GTree I L} {M : Map I.P L}
    (h : Reach I length g M) (id : MyId I.P) (hid : id.len ≤ I.P.W) (hlt : id.id.toNat < 2 ^ length) :
    ∃ (g' : GTree I L) (M' : Map I.P L) (l : List (Entry I.P L)), g.exec (.release id) = .ok (.done, g') ∧ Reach I length g' M' ∧
      g.getAll = .ok (l.map some) ∧ g'.getAll = .ok ((l.filter (fun e => decide (e.id ≠ id))).map some) ∧
      (∀ id', g'.get id' = if id' = id then .ok none else g.get id') ∧
      g'.exec (.release id) = .ok (.done, g') := by
  have hg := h.ginv hI
  obtain ⟨g', M', e1, e2, e3⟩ := (releaseID_spec (ok_of hI) hg hid).1 hlt
  have hx : g.exec (.release id) = .ok (.done, g') := by
    show (g.releaseID id >>= _) = _
    rw [e1]; rfl
  have hreach : Reach I length g' M' := h.step (o := .release id) hid hx
    (by simp only [Effect, hlt, if_true, true_and]; exact e3) e2.room
  have hM' : M' = fun q => (M q).filter (fun e => decide (e.id ≠ id)) := by
    funext q
    rw [e3 q]
    split
    · rfl
    · rename_i hq
      cases hm : M q with
      | none => rfl
      | some e =>
        have := (hg.wf q e hm).1
        rw [filter_pos]
        simp only [decide_eq_true_eq]
        intro he
        rw [he] at this
        exact hq this
  obtain ⟨l, l1, l2⟩ := getAll_spec hI h
  obtain ⟨l', l3, l4⟩ := getAll_spec hI hreach
  have hl : l' = l.filter (fun e => decide (e.id ≠ id)) := by
    refine l3.unique ?_
    rw [hM']
    exact l1.filter _
  have hget : ∀ id', g'.get id' = if id' = id then .ok none else g.get id' := by
    intro id'
    rw [get_spec e2 id', get_spec hg id', hM']
    simp only
    cases hm : M (pre id') with
    | none => simp
    | some e =>
      by_cases hi : id' = id
      · subst hi
        rw [if_pos rfl]
        by_cases he : e.id = id'
        · rw [filter_neg (by simp [he])]; rfl
        · rw [filter_pos (by simp [he]), filter_neg (by simp [he])]
      · rw [if_neg hi]
        by_cases he : e.id = id
        · rw [filter_neg (by simp [he]), filter_neg]
          · rfl
          · have : e.id ≠ id' := fun h => hi (h.symm.trans he)
            simp [this]
        · rw [filter_pos (by simp [he])]
  refine ⟨g', M', l, hx, hreach, l2, by rw [l4, hl], hget, ?_⟩
  show (g'.releaseID id >>= _) = _
  unfold GTree.releaseID
  rw [(valid_iff e2 (ok_of hI).pos id).2 hlt]
  show ((g'.get id >>= _) >>= _) = _
  rw [hget id, if_pos rfl]
  rfl

example : (⟨9, 16⟩ : MyId tree16.P).len ≤ tree16.P.W ∧ (⟨9, 16⟩ : MyId tree16.P).id.toNat < 2 ^ 4 ∧
    ∃ M, Reach tree16 4 (⟨newTree id16, 15, 4⟩ : GTree tree16 Bool) M := ⟨by decide, by decide, _, .new rfl⟩

/-- **C53, violated** (tree16) An entry made by `ClaimRange` for an id beyond the size of the tree cannot be
released: the tree of length 4, `ClaimRange("100-100")`, `ReleaseID(100/16)`. -/
theorem C53_outside_violated :
    (fresh tree16 4).gets [.claimRange [49, 48, 48, 45, 49, 48, 48] true, .release ⟨100, 16⟩] [⟨100, 16⟩] =
      [.some true] := by decide

/-- **C53, violated** (tree64) After `ReleaseID(1/64)`, `Get(0/64)` of another claimed id panics. -/
theorem C53_tree64_violated :
    (fresh tree64 64).gets [.claim ⟨0, 64⟩ true, .claim ⟨1, 64⟩ false, .release ⟨1, 64⟩] [⟨0, 64⟩] = [.panic] := by
  decide

/-! ### C54 -/

/-- **C54, partial** (tree16; tree32 as long as the map has room) After `ReleaseByLabel(sel)`, `GetAll`
returns the previous entries that do not match, in the same order. Missing: tree64 (violated below). -/
theorem C54_releaseByLabel_partial (hI : I = tree16 ∨ I = tree32) {length : Nat} {g : GTree I L} {M : Map I.P L}
    (h : Reach I length g M) (sel : L → Bool) :
    ∃ (g' : GTree I L) (M' : Map I.P L) (l : List (Entry I.P L)), g.exec (.releaseByLabel sel) = .ok (.done, g') ∧ Reach I length g' M' ∧
      g.getAll = .ok (l.map some) ∧ g'.getAll = .ok ((l.filter (fun e => !sel e.labels)).map some) := by
  have hg := h.ginv hI
  obtain ⟨g', e1, e2⟩ := releaseByLabel_spec (ok_of hI) hg sel
  have hx : g.exec (.releaseByLabel sel) = .ok (.done, g') := by
    show (g.releaseByLabel sel >>= _) = _
    rw [e1]; rfl
  have hreach := h.step (o := .releaseByLabel sel) trivial hx ⟨rfl, fun _ => rfl⟩ e2.room
  obtain ⟨l, l1, l2⟩ := getAll_spec hI h
  obtain ⟨l', l3, l4⟩ := getAll_spec hI hreach
  refine ⟨g', _, l, hx, hreach, l2, ?_⟩
  rw [l4, l3.unique (l1.filter _)]

/-- the labels that `GetAll` shows; `none` for a nil entry -/
def GTree.labels (g : GTree I Bool) : List (Op I.P Bool) → Option (List (Option Bool))
  | [] => match g.getAll with
    | .ok es => some (es.map (fun e => e.map (fun e => e.labels)))
    | _ => none
  | o :: os => match g.exec o with
    | .ok (_, g) => g.labels os
    | _ => none

/-- **C54, violated** (tree64) 0/64 and 1/64 claimed with different labels: `ReleaseByLabel` of the second
label leaves one entry, which is nil. -/
theorem C54_tree64_violated :
    (fresh tree64 64).labels [.claim ⟨0, 64⟩ true, .claim ⟨1, 64⟩ false] = some [some false, some false] ∧
    (fresh tree64 64).labels [.claim ⟨0, 64⟩ true, .claim ⟨1, 64⟩ false, .releaseByLabel (fun l => !l)] = some [none] := by
  decide

example : (fresh tree16 16).labels [.claim ⟨0, 16⟩ true, .claim ⟨1, 16⟩ false, .claim ⟨0, 8⟩ true] =
    some [some true, some true, some false] := by decide
example : (fresh tree16 16).labels [.claim ⟨0, 16⟩ true, .claim ⟨1, 16⟩ false, .claim ⟨0, 8⟩ true,
    .releaseByLabel (fun l => l)] = some [some false] := by decide

/-! ### C55, C56 -/

/-- `Children` in terms of the map -/
theorem children_ginv (hI : I = tree16 ∨ I = tree32) {length : Nat} {g : GTree I L} {M : Map I.P L}
    (hg : GInv length g M) (id : MyId I.P) (hid : id.len ≤ I.P.W) :
    ∃ l, Listing l M ∧ g.getAll = .ok (l.map some) ∧
      g.children id = .ok (l.filter (fun e => decide (pre id <+: pre e.id ∧ pre id ≠ pre e.id))) := by
  obtain ⟨l, l1, l2, l3⟩ := overlapLoop_inv (ok_of hI) hg hid
  refine ⟨l, l1, l2, ?_⟩
  unfold GTree.children
  rw [l2]
  show overlapLoop id _ _ = _
  rw [l3]
  congr 1
  apply List.filter_congr
  intro e he
  have hm := (l1.mem (fun q e he => (hg.wf q e he).1)).1 he
  obtain ⟨z, z1, z2⟩ := overlaps_pre (ok_of hI) (hg.wf _ _ hm).2 hid
  rw [z1, Bool.eq_iff_iff]
  simp only [Bool.and_eq_true, beq_iff_eq, Option.some.injEq, decide_eq_true_eq, z2]
  constructor
  · rintro ⟨h1 | h1, h2⟩
    · have := h1.length_le
      rw [pre_length, pre_length] at this
      omega
    · refine ⟨h1, fun he => ?_⟩
      have := congrArg List.length he
      rw [pre_length, pre_length] at this
      omega
  · rintro ⟨h1, h2⟩
    refine ⟨.inr h1, ?_⟩
    have hle := h1.length_le
    rw [pre_length, pre_length] at hle
    rcases Nat.lt_or_ge id.len e.id.len with hlt | hge
    · exact hlt
    · exact absurd (h1.eq_of_length (by rw [pre_length, pre_length]; omega)) h2

/-- **C55, partial** (tree16; tree32 as long as the map has room) `Children(id)` returns, in the order of
`GetAll`, exactly the entries whose prefix is a proper extension of that of `id`. Missing: tree64 (violated
below). -/
theorem C55_children_partial (hI : I = tree16 ∨ I = tree32) {length : Nat} {g : GTree I L} {M : Map I.P L}
    (h : Reach I length g M) (id : MyId I.P) (hid : id.len ≤ I.P.W) :
    ∃ l, Listing l M ∧ g.getAll = .ok (l.map some) ∧
      g.children id = .ok (l.filter (fun e => decide (pre id <+: pre e.id ∧ pre id ≠ pre e.id))) :=
  children_ginv hI (h.ginv hI) id hid

/-- the ids that a query shows -/
def idsOf {P : Pkg} : Out (List (Entry P Bool)) → Option (List (MyId P))
  | .ok es => some (es.map (·.id))
  | _ => none

/-- execute calls -/
def GTree.after (g : GTree I Bool) : List (Op I.P Bool) → GTree I Bool
  | [] => g
  | o :: os => match g.exec o with
    | .ok (_, g) => g.after os
    | _ => g

/-- **C55, violated** (tree64) 0/1 and 2^63/1 claimed: the children of 0/0 are twice 2^63/1. -/
theorem C55_tree64_violated :
    idsOf (((fresh tree64 64).after [.claim ⟨0, 1⟩ true, .claim ⟨0x8000000000000000, 1⟩ false]).children ⟨0, 0⟩) =
      some [⟨0x8000000000000000, 1⟩, ⟨0x8000000000000000, 1⟩] := by decide

example : idsOf (((fresh tree16 16).after [.claim ⟨0, 8⟩ true, .claim ⟨1, 16⟩ false, .claim ⟨0, 4⟩ true]).children ⟨0, 4⟩) =
    some [⟨0, 8⟩, ⟨1, 16⟩] := by decide

/-- **C56, violated** (all packages) `Parents(0/4)`, when 0/8 is claimed, returns 0/8: a child; and
`Parents(0/8)` returns the prefix itself. -/
theorem C56_parents_violated :
    idsOf (((fresh tree16 16).after [.claim ⟨0, 8⟩ true]).parents ⟨0, 4⟩) = some [⟨0, 8⟩] ∧
    idsOf (((fresh tree16 16).after [.claim ⟨0, 8⟩ true]).parents ⟨0, 8⟩) = some [⟨0, 8⟩] ∧
    idsOf (((fresh tree32 32).after [.claim ⟨0, 8⟩ true]).parents ⟨0, 4⟩) = some [⟨0, 8⟩] ∧
    idsOf (((fresh tree64 64).after [.claim ⟨0, 8⟩ true]).parents ⟨0, 4⟩) = some [⟨0, 8⟩] := by decide

/-- `Parents` in terms of the map -/
theorem parents_ginv (hI : I = tree16 ∨ I = tree32) {length : Nat} {g : GTree I L} {M : Map I.P L}
    (hg : GInv length g M) (id : MyId I.P) (hid : id.len ≤ I.P.W) :
    ∃ l, Listing l M ∧ g.getAll = .ok (l.map some) ∧
      g.parents id = .ok (l.filter (fun e => decide ((pre e.id <+: pre id ∨ pre id <+: pre e.id) ∧ e.id.len < I.P.W))) ∧
      (id.len = I.P.W →
        g.parents id = .ok (l.filter (fun e => decide (pre e.id <+: pre id ∧ pre e.id ≠ pre id)))) := by
  obtain ⟨l, l1, l2, l3⟩ := overlapLoop_inv (ok_of hI) hg hid
  have hp : g.parents id = .ok (l.filter (fun e => decide ((pre e.id <+: pre id ∨ pre id <+: pre e.id) ∧ e.id.len < I.P.W))) := by
    unfold GTree.parents
    rw [l2]
    show overlapLoop id _ _ = _
    rw [l3]
    congr 1
    apply List.filter_congr
    intro e he
    have hm := (l1.mem (fun q e he => (hg.wf q e he).1)).1 he
    obtain ⟨z, z1, z2⟩ := overlaps_pre (ok_of hI) (hg.wf _ _ hm).2 hid
    rw [z1, Bool.eq_iff_iff]
    simp only [Bool.and_eq_true, beq_iff_eq, Option.some.injEq, decide_eq_true_eq, z2]
  refine ⟨l, l1, l2, hp, fun hw => ?_⟩
  rw [hp]
  congr 1
  apply List.filter_congr
  intro e he
  rw [Bool.eq_iff_iff]
  simp only [decide_eq_true_eq]
  constructor
  · rintro ⟨h1 | h1, h2⟩
    · refine ⟨h1, fun he => ?_⟩
      have := congrArg List.length he
      rw [pre_length, pre_length] at this
      omega
    · have := h1.length_le
      rw [pre_length, pre_length] at this
      omega
  · rintro ⟨h1, h2⟩
    refine ⟨.inl h1, ?_⟩
    have hle := h1.length_le
    rw [pre_length, pre_length] at hle
    rcases Nat.lt_or_ge e.id.len I.P.W with hlt | hge
    · exact hlt
    · exact absurd (h1.eq_of_length (by rw [pre_length, pre_length]; omega)) h2

/-- **C56, partial** (tree16; tree32 as long as the map has room) For ids of full length `Parents(id)`
returns, in the order of `GetAll`, exactly the entries whose prefix properly contains `id`. In general, it
returns the entries shorter than the width that are comparable with `id`. Missing: shorter ids (violated
above). -/
theorem C56_parents_partial (hI : I = tree16 ∨ I = tree32) {length : Nat} {g : GTree I L} {M : Map I.P L}
    (h : Reach I length g M) (id : MyId I.P) (hid : id.len ≤ I.P.W) :
    ∃ l, Listing l M ∧ g.getAll = .ok (l.map some) ∧
      g.parents id = .ok (l.filter (fun e => decide ((pre e.id <+: pre id ∨ pre id <+: pre e.id) ∧ e.id.len < I.P.W))) ∧
      (id.len = I.P.W →
        g.parents id = .ok (l.filter (fun e => decide (pre e.id <+: pre id ∧ pre e.id ≠ pre id)))) :=
  parents_ginv hI (h.ginv hI) id hid

example : idsOf (((fresh tree16 16).after [.claim ⟨0, 8⟩ true, .claim ⟨1, 16⟩ false, .claim ⟨0, 4⟩ true]).parents ⟨1, 16⟩) =
    some [⟨0, 4⟩, ⟨0, 8⟩] := by decide

/-! ### C58 -/

omit [Labels L] in
theorem puts_other {P : Pkg} {l : L} {q : List Bool} : ∀ {ids : List (MyId P)} {M : Map P L}, (∀ i ∈ ids, pre i ≠ q) →
    puts M l ids q = M q
  | [], _, _ => rfl
  | i :: ids, M, h => by
    have := puts_other (l := l) (ids := ids) (M := put M i l) (fun j hj => h j (by simp [hj]))
    show puts (put M i l) l ids q = _
    rw [this]
    unfold put
    rw [if_neg (fun he => h i (by simp) he.symm)]

omit [Labels L] in
theorem puts_get {P : Pkg} {l : L} : ∀ {ids : List (MyId P)} {M : Map P L}, ids.Pairwise (fun i j => pre i ≠ pre j) →
    ∀ i ∈ ids, puts M l ids (pre i) = some ⟨i, l⟩
  | j :: ids, M, hd, i, hi => by
    rw [List.pairwise_cons] at hd
    rcases List.mem_cons.1 hi with rfl | hi
    · show puts (put M i l) l ids (pre i) = _
      rw [puts_other (fun k hk he => hd.1 k hk he.symm)]
      unfold put
      rw [if_pos rfl]
    · exact puts_get (M := put M j l) hd.2 i hi

/-- the prefixes of a decomposition are different -/
theorem decomposes_distinct {P : Pkg} {ids : List (MyId P)} {a b : BitVec P.W} (h : Decomposes ids a b) :
    ids.Pairwise (fun i j => pre i ≠ pre j) := by
  refine h.ascending.imp_of_mem ?_
  intro i j hi hj hlt he
  have hl : i.len = j.len := by rw [← pre_length i, ← pre_length j, he]
  have hc : Covers i j.id := (covers_iff_pre (h.aligned j hj).1 (Nat.le_of_eq hl)).2 (by rw [he]; exact List.prefix_rfl)
  exact absurd (hlt j.id j.id hc rfl) (by simp)

/-- a text that `ClaimRange` accepts: two decimal numbers that fit the width, with a hyphen between -/
def IsRange (W : Nat) (s : List UInt8) (a b : Nat) : Prop :=
  ∃ u v, s = u ++ 45 :: v ∧ Numeral u a ∧ Numeral v b ∧ a < 2 ^ W ∧ b < 2 ^ W

/-- **C58, partial** (tree16; tree32 as long as the map has room) `ClaimRange("a-b")` with `a ≤ b` succeeds. It
stores entries that cover exactly `a` to `b`, each of which can be read back; the rest stays. Texts of another form are
rejected without effect. Missing: `b < a` and `b` beyond the size of the tree (both violated below), tree64. -/
theorem C58_claimRange_partial (hI : I = tree16 ∨ I = tree32) {length : Nat} {g : GTree I L} {M : Map I.P L}
    (h : Reach I length g M) (s : List UInt8) (l : L) :
    (∀ a b, IsRange I.P.W s a b → a ≤ b →
      ∃ ids : List (MyId I.P), Decomposes ids (BitVec.ofNat _ a) (BitVec.ofNat _ b) ∧ (Room (puts M l ids) →
        ∃ g', g.exec (.claimRange s l) = .ok (.done, g') ∧ Reach I length g' (puts M l ids) ∧
          (∀ i ∈ ids, g'.get i = .ok (some ⟨i, l⟩)) ∧ ∀ q, (∀ i ∈ ids, pre i ≠ q) → puts M l ids q = M q)) ∧
    ((∀ a b, ¬ IsRange I.P.W s a b) → g.exec (.claimRange s l) = .ok (.err, g)) := by
  have hg := h.ginv hI
  have hk := (C34_parseRange (P := I.P) (ok_of hI).pkg3).2
  constructor
  · rintro a b ⟨u, v, hs, hu, hv, ha, hb⟩ hab
    have hpr : parseRange s = some (rangeFrom (BitVec.ofNat _ a) (BitVec.ofNat _ b) : Rng I.P) :=
      (hk s _).2 ⟨u, v, a, b, hs, hu.no_hyphen, hu, hv, ha, hb, rfl⟩
    obtain ⟨ids, i1, i2⟩ := C32_ids_partition (ok_of hI) (rangeFrom (BitVec.ofNat _ a) (BitVec.ofNat _ b) : Rng I.P) (by
      show (BitVec.ofNat _ a) ≤ (BitVec.ofNat _ b)
      rw [BitVec.le_def, BitVec.toNat_ofNat, BitVec.toNat_ofNat, Nat.mod_eq_of_lt ha, Nat.mod_eq_of_lt hb]
      exact hab)
    refine ⟨ids, i2, fun hr => ?_⟩
    obtain ⟨g', e1, e2⟩ := setAll_spec (ok_of hI) l hg (fun i hi => (i2.aligned i hi).1) hr
    have hx : g.exec (.claimRange s l) = .ok (.done, g') := by
      show (g.claimRange s l >>= _) = _
      unfold GTree.claimRange
      rw [hpr]
      simp only [i1]
      rw [e1]; rfl
    have hreach := h.step (o := .claimRange s l) trivial hx (.inr ⟨_, ids, hpr, i1, rfl, rfl⟩) hr
    refine ⟨g', hx, hreach, ?_, fun q hq => puts_other hq⟩
    intro i hi
    rw [get_spec e2 i, puts_get (decomposes_distinct i2) i hi, filter_pos (by simp)]
  · intro hn
    have hpr : (parseRange s : Option (Rng I.P)) = none := by
      cases hp : (parseRange s : Option (Rng I.P)) with
      | none => rfl
      | some r =>
        obtain ⟨u, v, a, b, h1, _, h2, h3, h4, h5, _⟩ := (hk s r).1 hp
        exact absurd ⟨u, v, h1, h2, h3, h4, h5⟩ (hn a b)
    show (g.claimRange s l >>= _) = _
    unfold GTree.claimRange
    rw [hpr]; rfl

/-- what a call returns: `some true` for success, `none` for a panic -/
def okOf {P : Pkg} {γ : Type} : Out (Result P Bool × γ) → Option Bool
  | .ok (.err, _) => some false
  | .ok _ => some true
  | _ => none

/-- **C58, violated** (all packages) `ClaimRange("8-7")` succeeds and claims 0 to 15, and
`ClaimRange("100-100")` in a tree of length 4 succeeds and claims 100. -/
theorem C58_claimRange_violated :
    okOf ((fresh tree16 16).exec (.claimRange [56, 45, 55] true)) = some true ∧
    (fresh tree16 16).gets [.claimRange [56, 45, 55] true] [⟨8, 13⟩, ⟨0, 13⟩] = [.some true, .some true] ∧
    okOf ((fresh tree32 32).exec (.claimRange [56, 45, 55] true)) = some true ∧
    (fresh tree32 32).gets [.claimRange [56, 45, 55] true] [⟨8, 29⟩, ⟨0, 29⟩] = [.some true, .some true] ∧
    okOf ((fresh tree64 64).exec (.claimRange [56, 45, 55] true)) = some true ∧
    okOf ((fresh tree16 4).exec (.claimRange [49, 48, 48, 45, 49, 48, 48] true)) = some true ∧
    (fresh tree16 4).gets [.claimRange [49, 48, 48, 45, 49, 48, 48] true] [⟨100, 16⟩] = [.some true] ∧
    okOf ((fresh tree32 4).exec (.claimRange [49, 48, 48, 45, 49, 48, 48] true)) = some true ∧
    (fresh tree32 4).gets [.claimRange [49, 48, 48, 45, 49, 48, 48] true] [⟨100, 32⟩] = [.some true] ∧
    okOf ((fresh tree64 4).exec (.claimRange [49, 48, 48, 45, 49, 48, 48] true)) = some true ∧
    (fresh tree64 4).gets [.claimRange [49, 48, 48, 45, 49, 48, 48] true] [⟨100, 64⟩] = [.some true] := by decide

-- "5-18"
example : IsRange 16 [53, 45, 49, 56] 5 18 :=
  ⟨[53], [49, 56], rfl, .digit ⟨rfl, by decide⟩, .more (s := [49]) (n := 1) (c := 56) (d := 8) (.digit ⟨rfl, by decide⟩) ⟨rfl, by decide⟩,
    by decide, by decide⟩
example : (fresh tree16 16).gets [.claimRange [53, 45, 49, 56] true] [⟨5, 16⟩, ⟨8, 13⟩, ⟨18, 16⟩, ⟨19, 16⟩] =
    [.some true, .some true, .some true, .none] := by decide

/-! ### C59 -/

/-- **C59, partial** (tree16; tree32 as long as the map has room) `GetAll` lists the claimed prefixes, once
each; `Size` is their number; `GetByLabel` filters. Missing: tree64 (`C54_tree64_violated`). -/
theorem C59_queries_partial (hI : I = tree16 ∨ I = tree32) {length : Nat} {g : GTree I L} {M : Map I.P L}
    (h : Reach I length g M) :
    ∃ l, Listing l M ∧ g.getAll = .ok (l.map some) ∧ g.count = .ok l.length ∧
      ∀ sel, g.getByLabel sel = .ok (l.filter (fun e => sel e.labels)) := by
  obtain ⟨l, h1, h2, h3⟩ := entries_spec (h.ginv hI)
  refine ⟨l, h1, h2, h3, fun sel => ?_⟩
  unfold GTree.getByLabel
  rw [h2]
  exact labelLoop_spec sel l

example : (((fresh tree16 16).after [.claim ⟨0, 8⟩ true, .claim ⟨1, 16⟩ false, .claim ⟨0, 8⟩ false]).count) = .ok 2 := by
  rfl

/-! ### C60 -/

/-- **C60** (all packages) `New` fails iff the length exceeds the width; otherwise the tree is empty, and
`ClaimID` accepts exactly the ids below `2^length`. -/
theorem C60_new (hI : I = tree16 ∨ I = tree32 ∨ I = tree64) (length : Nat) :
    (new I L length = none ↔ I.P.W < length) ∧
    ∀ g, new I L length = some g → g.getAll = .ok [] ∧ g.count = .ok 0 ∧
      ∀ (id : MyId I.P) (l : L), id.len ≤ I.P.W →
        (id.id.toNat < 2 ^ length → ∃ g', g.claimID id l = .ok (.ok (), g')) ∧
        (2 ^ length ≤ id.id.toNat → g.claimID id l = .ok (.err, g)) := by
  constructor
  · unfold new
    split
    · rename_i h; simp [h]
    · rename_i h; simp [h]
  · intro g hg
    unfold new at hg
    split at hg
    · cases hg
    · rename_i hle
      cases hg
      have hP : I.P = id16 ∨ I.P = id32 ∨ I.P = id64 := by
        rcases hI with rfl | rfl | rfl
        · exact .inl rfl
        · exact .inr (.inl rfl)
        · exact .inr (.inr rfl)
      have hvis : (newTree I.P : Tree (Option (Entry I.P L))).visit = .ok [] := by
        rcases hI with rfl | rfl | rfl <;> rfl
      have hent : (⟨newTree I.P, ((1 : BitVec I.P.W) <<< length) - 1, length⟩ : GTree I L).entries = .ok [] := by
        unfold GTree.entries
        rw [hvis]; rfl
      have hpos : 1 < I.P.W := by rcases hP with h | h | h <;> rw [h] <;> decide
      refine ⟨hent, ?_, ?_⟩
      · unfold GTree.count
        rw [hvis]; rfl
      · intro id l hid
        have hv := valid_size (g := (⟨newTree I.P, ((1 : BitVec I.P.W) <<< length) - 1, length⟩ : GTree I L))
          (length := length) rfl (by omega) hpos id
        unfold GTree.claimID
        constructor
        · intro hlt
          rw [hv.2 hlt]
          obtain ⟨rs, t, h1, _⟩ := Verif.Tree.C43_no_panic hP [.set id (some (⟨id, l⟩ : Entry I.P L))] (by
            intro o ho
            rw [List.mem_singleton.1 ho]; exact hid)
          have h1' : (((newTree I.P).set id (some (⟨id, l⟩ : Entry I.P L)) >>= _) >>= _) = Out.ok (rs, t) := h1
          cases hs : (newTree I.P).set id (some (⟨id, l⟩ : Entry I.P L)) with
          | ok x =>
            refine ⟨{ (⟨newTree I.P, ((1 : BitVec I.P.W) <<< length) - 1, length⟩ : GTree I L) with tree := x.2.2 }, ?_⟩
            show (((newTree I.P).set id (some (⟨id, l⟩ : Entry I.P L)) >>= _) >>= _) = _
            rw [hs]; rfl
          | panic m => rw [hs] at h1'; cases h1'
          | realloc => rw [hs] at h1'; cases h1'
          | diverge => rw [hs] at h1'; cases h1'
        · intro hge
          have : (⟨newTree I.P, ((1 : BitVec I.P.W) <<< length) - 1, length⟩ : GTree I L).valid id = false := by
            rw [← Bool.not_eq_true]
            intro hc
            have := hv.1 hc
            omega
          rw [this]; rfl

example : (new tree32 Bool 33).isNone = true ∧ (new tree64 Bool 64).isSome = true := by decide

/-! ### C71 -/

/-- **C71, violated** (tree16, tree32) A clone of a tree with one claim panics on `Get` of the claimed id, and
the second `ClaimID` on the clone of an empty tree panics, while the original works. For tree64 the second
holds. -/
theorem C71_clone_violated :
    (fresh tree16 16).gets [.claim ⟨5, 16⟩ true] [⟨5, 16⟩] = [.some true] ∧
    ((fresh tree16 16).after [.claim ⟨5, 16⟩ true]).clone.gets [] [⟨5, 16⟩] = [.panic] ∧
    (fresh tree16 16).clone.gets [.claim ⟨5, 16⟩ true, .claim ⟨6, 16⟩ true] [⟨5, 16⟩] = [.panic] ∧
    ((fresh tree32 32).after [.claim ⟨5, 32⟩ true]).clone.gets [] [⟨5, 32⟩] = [.panic] ∧
    (fresh tree32 32).clone.gets [.claim ⟨5, 32⟩ true, .claim ⟨6, 32⟩ true] [⟨5, 32⟩] = [.panic] ∧
    (fresh tree64 64).clone.gets [.claim ⟨5, 64⟩ true, .claim ⟨6, 64⟩ true] [⟨5, 64⟩] = [.panic] := by decide

/-- **C71, partial** (tree16, tree32) A clone of a tree without entries has no entries. Apart from the width
and the bit function of the prefix tree, a clone is equal to the original. Missing: clones of trees with
entries, and changes of clones (violated above). -/
theorem C71_clone_partial (hI : I = tree16 ∨ I = tree32) {length : Nat} {g : GTree I L} {M : Map I.P L}
    (h : Reach I length g M) :
    { g.clone with tree := { g.clone.tree with leftFn := some I.P.W, length := I.P.W } } = g ∧
    (g.getAll = .ok [] → g.clone.getAll = .ok []) := by
  obtain ⟨s, hs, _⟩ := (h.ginv hI).tree
  constructor
  · have h1 := hs.leftFn
    have h2 := hs.length
    rcases g with ⟨t, z, n⟩
    cases t
    simp only at h1 h2
    simp [GTree.clone, Tree.clone, h1, h2]
  · intro hg
    have hv : g.tree.visit = .ok [] := by
      have hg : (g.tree.visit >>= fun vis => firsts vis) = .ok [] := hg
      cases hv : g.tree.visit with
      | ok vis =>
        rw [hv] at hg
        cases vis with
        | nil => rfl
        | cons v vis =>
          obtain ⟨n, vs⟩ := v
          cases vs with
          | nil => cases hg
          | cons v vs =>
            have hg : (firsts vis >>= fun vs => Out.ok (v :: vs)) = .ok [] := hg
            cases hf : firsts vis with
            | ok x => rw [hf] at hg; cases hg
            | _ => rw [hf] at hg; cases hg
      | _ => rw [hv] at hg; cases hg
    show (g.tree.clone.visit >>= fun vis => firsts vis) = .ok []
    rw [Verif.Tree.clone_visit_empty hv]; rfl

end Verif.GTree
