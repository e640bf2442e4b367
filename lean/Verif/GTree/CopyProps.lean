import Verif.GTree.HistProps

/-! C128 to C131 for the trees of claimed prefixes: what they list is enough to build them again.
Emptying them makes them as good as new, an update is a release and a claim, and releases by label are releases one by one. -/

set_option linter.unusedSectionVars false
namespace Verif.GTree
open Verif.Id
open Verif.Tree (Tree Out)
variable {I : Impl} {L : Type} [Labels L]

/-! ### Lemmas -/

/-- claims of entries of the map `M`, from a part `N` of it -/
theorem claims_steps (hI : I = tree16 ∨ I = tree32) {length : Nat} {M : Map I.P L} (hM : Room M)
    (hwf : ∀ q e, M q = some e → q = pre e.id ∧ e.id.len ≤ I.P.W) :
    ∀ (l : List (Entry I.P L)) {g : GTree I L} {N : Map I.P L}, Reach I length g N → (∀ q e, N q = some e → M q = some e) →
      (∀ e ∈ l, M (pre e.id) = some e ∧ e.id.id.toNat < 2 ^ length) →
      ∃ g' N', Steps I length g N (l.map fun e => (.claim e.id e.labels, .done)) g' N' ∧
        (∀ q e, N' q = some e → M q = some e) ∧ (∀ e ∈ l, N' (pre e.id) = some e) ∧ ∀ q e, N q = some e → N' q = some e := by
  intro l
  induction l with
  | nil => intro g N _ hs _; exact ⟨g, N, .nil, hs, by simp, fun _ _ h => h⟩
  | cons e l ih =>
    intro g N h hs hl
    obtain ⟨he1, he2⟩ := hl e (by simp)
    have hfit : (Op.claim e.id e.labels : Op I.P L).Fits := (hwf _ _ he1).2
    have heff : Effect length N (.claim e.id e.labels) .done (put N e.id e.labels) := by
      simp only [Effect, if_pos he2, and_self]
    have hsub : ∀ q x, put N e.id e.labels q = some x → M q = some x := by
      intro q x hx
      unfold put at hx
      split at hx
      · rename_i hq; subst hq; cases hx; exact he1
      · exact hs q x hx
    have hroom : Room (put N e.id e.labels) := hM.mono fun q hq => by
      obtain ⟨x, hx⟩ := Option.ne_none_iff_exists'.1 hq
      rw [hsub q x hx]; simp
    obtain ⟨g₁, hx⟩ := exec_of_effect hI h hfit (by intro l; simp) heff hroom
    obtain ⟨g', N', i1, i2, i3, i4⟩ := ih (h.step hfit hx heff hroom) hsub (fun x hx => hl x (by simp [hx]))
    have hput : put N e.id e.labels (pre e.id) = some e := by simp [put]
    refine ⟨g', N', .cons hfit hx heff hroom i1, i2, ?_, ?_⟩
    · intro x hx
      rcases List.mem_cons.1 hx with rfl | hx
      · exact i4 _ _ hput
      · exact i3 x hx
    · intro q x hx
      refine i4 q x ?_
      unfold put
      split
      · rename_i hq
        have := hs q x hx
        rw [hq, he1] at this
        rw [← Option.some.inj this]
      · exact hx

/-! ### C128 -/

/-- **C128, partial** (tree16; tree32 as long as the map has room) If `GetAll` of a tree lists ids below `2^length` only,
claiming what it lists in a new tree of the same length, in any order and any number of times, succeeds every time, and no
further calls and queries tell the new tree from the old one. Missing: trees whose `ClaimRange` stored ids beyond their
length (`C128_tree_violated`); tree64 (`C128_tree64_violated`). -/
theorem C128_tree_partial (hI : I = tree16 ∨ I = tree32) {length : Nat} {g g₀ : GTree I L} {M : Map I.P L}
    (h : Reach I length g M) (hnew : new I L length = some g₀) :
    ∃ es : List (Entry I.P L), g.getAll = .ok (es.map some) ∧ ((∀ e ∈ es, e.id.id.toNat < 2 ^ length) → ∀ l : List (Entry I.P L), (∀ e, e ∈ l ↔ e ∈ es) →
      ∃ g', Steps I length g₀ Map.empty (l.map fun e => (.claim e.id e.labels, .done)) g' M ∧ Alike I length g M g') := by
  obtain ⟨es, h1, h2, _⟩ := C59_queries_partial hI h
  refine ⟨es, h2, fun hin l hl => ?_⟩
  have hi := h.ginv hI
  have hlist : ∀ e, e ∈ es ↔ M (pre e.id) = some e := fun e => h1.mem fun q e he => (hi.wf q e he).1
  obtain ⟨g', N', s1, s2, s3, _⟩ := claims_steps hI hi.room hi.wf l (Reach.new hnew) (by intro q e he; cases he)
    (fun e he => ⟨(hlist e).1 ((hl e).1 he), hin e ((hl e).1 he)⟩)
  have : N' = M := by
    funext q
    refine Option.ext fun e => ⟨s2 q e, fun he => ?_⟩
    obtain ⟨rfl, _⟩ := hi.wf q e he
    exact s3 e ((hl e).2 ((hlist e).2 he))
  subst this
  exact ⟨g', s1, alike_of_same hI h ((Reach.new hnew).steps s1)⟩

/-- **C128, violated** (tree16) A tree of length 8 lists 300/16 after `ClaimRange("300-300")`, and `ClaimID` of a new tree
of this length refuses it. -/
theorem C128_tree_violated :
    ((fresh tree16 8).after [.claimRange [51, 48, 48, 45, 51, 48, 48] true]).getAll = .ok [some ⟨⟨300, 16⟩, true⟩] ∧
    (fresh tree16 8 : GTree tree16 Bool).claimID ⟨300, 16⟩ true = .ok (.err, fresh tree16 8) := ⟨rfl, rfl⟩

/-- **C128, violated** (tree64) After claiming 1/64 and 2/64 a tree has two entries and lists 2/64 twice; the new tree has
one. -/
theorem C128_tree64_violated :
    ((fresh tree64 64).after [.claim ⟨1, 64⟩ true, .claim ⟨2, 64⟩ false]).getAll =
      .ok [some ⟨⟨2, 64⟩, false⟩, some ⟨⟨2, 64⟩, false⟩] ∧
    ((fresh tree64 64).after [.claim ⟨1, 64⟩ true, .claim ⟨2, 64⟩ false]).count = .ok 2 ∧
    ((fresh tree64 64).after [.claim ⟨2, 64⟩ false, .claim ⟨2, 64⟩ false]).count = .ok 1 := ⟨rfl, rfl, rfl⟩

-- a tree of length 8, and a new one of this length
example : ((fresh tree16 8).after [.claim ⟨5, 16⟩ true, .claim ⟨64, 10⟩ false]).getAll =
    .ok ([⟨⟨5, 16⟩, true⟩, ⟨⟨64, 10⟩, false⟩].map some) ∧ new tree16 Bool 8 = some (fresh tree16 8) := ⟨rfl, rfl⟩

/-! ### C129 -/

theorem releases_steps (hI : I = tree16 ∨ I = tree32) {length : Nat} :
    ∀ (l : List (MyId I.P)) {g : GTree I L} {M : Map I.P L}, Reach I length g M → (∀ i ∈ l, i.len ≤ I.P.W ∧ i.id.toNat < 2 ^ length) →
      ∃ g' M', Steps I length g M (l.map fun i => (.release i, .done)) g' M' ∧
        ∀ q e, M' q = some e → M q = some e ∧ e.id ∉ l := by
  intro l
  induction l with
  | nil => intro g M _ _; exact ⟨g, M, .nil, fun q e h => ⟨h, by simp⟩⟩
  | cons i l ih =>
    intro g M h hl
    obtain ⟨h1, h2⟩ := hl i (by simp)
    have hfit : (Op.release i : Op I.P L).Fits := h1
    have heff : Effect length M (.release i) .done (fun q => if q = pre i then (M q).filter (fun e => decide (e.id ≠ i)) else M q) := by
      simp only [Effect, if_pos h2, implies_true, and_self]
    have hsub : ∀ q e, (fun q => if q = pre i then (M q).filter (fun e => decide (e.id ≠ i)) else M q) q = some e → M q = some e ∧ e.id ≠ i := by
      intro q e he
      dsimp only at he
      split at he
      · rw [Option.filter_eq_some_iff] at he
        exact ⟨he.1, by simpa using he.2⟩
      · rename_i hq
        refine ⟨he, fun hei => hq ?_⟩
        rw [← hei]
        exact ((h.ginv hI).wf q e he).1
    have hroom : Room (fun q => if q = pre i then (M q).filter (fun e => decide (e.id ≠ i)) else M q) :=
      (h.ginv hI).room.mono fun q hq => by
        obtain ⟨x, hx⟩ := Option.ne_none_iff_exists'.1 hq
        rw [(hsub q x hx).1]; simp
    obtain ⟨g₁, hx⟩ := exec_of_effect hI h hfit (by intro l; simp) heff hroom
    obtain ⟨g', M', i1, i2⟩ := ih (h.step hfit hx heff hroom) (fun x hx => hl x (by simp [hx]))
    refine ⟨g', M', .cons hfit hx heff hroom i1, fun q e he => ?_⟩
    obtain ⟨j1, j2⟩ := i2 q e he
    obtain ⟨k1, k2⟩ := hsub q e j1
    exact ⟨k1, by simp [k2, j2]⟩

/-- **C129, partial** (tree16; tree32 as long as the map has room) After `ReleaseByLabel` with a selector that matches
everything, or `ReleaseID` of all ids that `GetAll` lists if these are below `2^length`, in any order, no calls and queries
tell the tree from a new one. Missing: `ReleaseID` of ids beyond the length (`C53_outside_violated`); tree64
(`C129_tree64_violated`). -/
theorem C129_tree_partial (hI : I = tree16 ∨ I = tree32) {length : Nat} {g g₀ : GTree I L} {M : Map I.P L}
    (h : Reach I length g M) (hnew : new I L length = some g₀) :
    (∃ g', g.exec (.releaseByLabel fun _ => true) = .ok (.done, g') ∧ Alike I length g₀ Map.empty g') ∧
    ∃ es : List (Entry I.P L), g.getAll = .ok (es.map some) ∧ ((∀ e ∈ es, e.id.id.toNat < 2 ^ length) →
      ∀ l : List (MyId I.P), (∀ i, i ∈ l ↔ ∃ e ∈ es, e.id = i) →
        ∃ g', Steps I length g M (l.map fun i => (.release i, .done)) g' Map.empty ∧ Alike I length g₀ Map.empty g') := by
  have hi := h.ginv hI
  constructor
  · have heff : Effect length M (.releaseByLabel fun _ => true) .done Map.empty := by
      refine ⟨rfl, fun q => ?_⟩
      cases M q <;> rfl
    have hroom : Room (Map.empty : Map I.P L) := hi.room.mono fun q hq => absurd rfl hq
    have hfit : (Op.releaseByLabel fun _ => true : Op I.P L).Fits := trivial
    obtain ⟨g', hx⟩ := exec_of_effect hI h hfit (by intro l; simp) heff hroom
    exact ⟨g', hx, alike_of_same hI (Reach.new hnew) (h.step hfit hx heff hroom)⟩
  · obtain ⟨es, h1, h2, _⟩ := C59_queries_partial hI h
    have hlist : ∀ e, e ∈ es ↔ M (pre e.id) = some e := fun e => h1.mem fun q e he => (hi.wf q e he).1
    refine ⟨es, h2, fun hin l hl => ?_⟩
    obtain ⟨g', M', s1, s2⟩ := releases_steps hI l h (fun i hi' => by
      obtain ⟨e, he, rfl⟩ := (hl i).1 hi'
      exact ⟨(hi.wf _ _ ((hlist e).1 he)).2, hin e he⟩)
    have : M' = Map.empty := by
      funext q
      cases hq : M' q with
      | none => rfl
      | some e =>
        obtain ⟨j1, j2⟩ := s2 q e hq
        obtain ⟨rfl, _⟩ := hi.wf q e j1
        exact absurd ((hl _).2 ⟨e, (hlist e).2 j1, rfl⟩) j2
    subst this
    exact ⟨g', s1, alike_of_same hI (Reach.new hnew) (h.steps s1)⟩

-- the tree lists 5/16 and 64/10, both below 2^8; released in the other order, nothing is left
example : ((fresh tree16 8).after [.claim ⟨5, 16⟩ true, .claim ⟨64, 10⟩ false]).count = .ok 2 ∧
    ((fresh tree16 8).after [.claim ⟨5, 16⟩ true, .claim ⟨64, 10⟩ false, .release ⟨64, 10⟩, .release ⟨5, 16⟩]).count = .ok 0 :=
  ⟨rfl, rfl⟩

/-- **C129, violated** (tree64) After claiming 1/64 and 2/64, neither `ReleaseByLabel` of everything nor `ReleaseID` of all
that is listed empties the tree. -/
theorem C129_tree64_violated :
    ((fresh tree64 64).after [.claim ⟨1, 64⟩ true, .claim ⟨2, 64⟩ false, .releaseByLabel fun _ => true]).count = .ok 1 ∧
    ((fresh tree64 64).after [.claim ⟨1, 64⟩ true, .claim ⟨2, 64⟩ false, .release ⟨2, 64⟩, .release ⟨2, 64⟩]).count = .ok 1 := ⟨rfl, rfl⟩

/-! ### C130 -/

/-- **C130, partial** (tree16; tree32 as long as the map has room) `Update` of an id below `2^length` does what `ReleaseID`
and `ClaimID` do, and undoes what earlier updates did: the calls succeed, and no later calls and queries tell the trees
apart. Missing: tree64 (`C130_tree64_violated`). -/
theorem C130_tree_partial (hI : I = tree16 ∨ I = tree32) {length : Nat} {g : GTree I L} {M : Map I.P L}
    (h : Reach I length g M) {id : MyId I.P} (hid : id.len ≤ I.P.W) (hlt : id.id.toNat < 2 ^ length) (l l' : L)
    (hr : Room (put M id l)) :
    ∃ g₁ g₂ g₃, Steps I length g M [(.update id l, .done)] g₁ (put M id l) ∧
      Steps I length g M [(.release id, .done), (.claim id l, .done)] g₂ (put M id l) ∧
      Steps I length g M [(.update id l', .done), (.update id l, .done)] g₃ (put M id l) ∧
      Alike I length g₁ (put M id l) g₂ ∧ Alike I length g₁ (put M id l) g₃ := by
  have hup : ∀ (N : Map I.P L) l, Effect length N (.update id l) .done (put N id l) := by
    intro N l; simp only [Effect, if_pos hlt, and_self]
  have hcl : ∀ (N : Map I.P L) l, Effect length N (.claim id l) .done (put N id l) := by
    intro N l; simp only [Effect, if_pos hlt, and_self]
  let D : Map I.P L := fun q => if q = pre id then (M q).filter (fun e => decide (e.id ≠ id)) else M q
  have hre : Effect length M (.release id) .done D := by
    simp only [Effect, if_pos hlt, D, implies_true, and_self]
  have hD : Room D := (h.ginv hI).room.mono fun q hq => by
    intro hn
    apply hq
    dsimp only [D]
    rw [hn]
    split <;> rfl
  have hputD : put D id l = put M id l := by
    funext q
    unfold put
    split
    · rfl
    · rename_i hq
      exact if_neg hq
  have hput2 : put (put M id l') id l = put M id l := by
    funext q
    unfold put
    split <;> rfl
  have hr' : Room (put M id l') := hr.mono fun q hq => by
    unfold put at hq ⊢
    split at hq
    · rename_i e; rw [if_pos e]; simp
    · rename_i e; rw [if_neg e]; exact hq
  obtain ⟨g₁, x1⟩ := exec_of_effect hI h (o := .update id l) hid (by intro l; simp) (hup M l) hr
  obtain ⟨k₂, x2⟩ := exec_of_effect hI h (o := .release id) hid (by intro l; simp) hre hD
  have r2 := h.step (o := .release id) hid x2 hre hD
  have e2 : Effect length D (.claim id l) .done (put M id l) := hputD ▸ hcl D l
  obtain ⟨g₂, y2⟩ := exec_of_effect hI r2 (o := .claim id l) hid (by intro l; simp) e2 hr
  obtain ⟨k₃, x3⟩ := exec_of_effect hI h (o := .update id l') hid (by intro l; simp) (hup M l') hr'
  have r3 := h.step (o := .update id l') hid x3 (hup M l') hr'
  have e3 : Effect length (put M id l') (.update id l) .done (put M id l) := hput2 ▸ hup (put M id l') l
  obtain ⟨g₃, y3⟩ := exec_of_effect hI r3 (o := .update id l) hid (by intro l; simp) e3 hr
  have q1 : Steps I length g M [(.update id l, .done)] g₁ (put M id l) := .cons hid x1 (hup M l) hr .nil
  have q2 : Steps I length g M [(.release id, .done), (.claim id l, .done)] g₂ (put M id l) :=
    .cons hid x2 hre hD (.cons hid y2 e2 hr .nil)
  have q3 : Steps I length g M [(.update id l', .done), (.update id l, .done)] g₃ (put M id l) :=
    .cons hid x3 (hup M l') hr' (.cons hid y3 e3 hr .nil)
  exact ⟨g₁, g₂, g₃, q1, q2, q3, alike_of_same hI (h.steps q1) (h.steps q2), alike_of_same hI (h.steps q1) (h.steps q3)⟩

-- 5/16 is claimed in a tree of length 8, updated, and released and claimed
example : (5 : BitVec 16).toNat < 2 ^ 8 ∧
    (fresh tree16 8).gets [.claim ⟨5, 16⟩ true, .update ⟨5, 16⟩ false] [⟨5, 16⟩] = [.some false] ∧
    (fresh tree16 8).gets [.claim ⟨5, 16⟩ true, .release ⟨5, 16⟩, .claim ⟨5, 16⟩ false] [⟨5, 16⟩] = [.some false] := by decide

/-- **C130, violated** (tree64) With 1/64 and 2/64 claimed and 2/64 released, `Update` of 1/64 succeeds, `ReleaseID` of it
panics. -/
theorem C130_tree64_violated :
    okOf (((fresh tree64 64).after [.claim ⟨1, 64⟩ true, .claim ⟨2, 64⟩ false, .release ⟨2, 64⟩]).exec (.update ⟨1, 64⟩ false)) = some true ∧
    okOf (((fresh tree64 64).after [.claim ⟨1, 64⟩ true, .claim ⟨2, 64⟩ false, .release ⟨2, 64⟩]).exec (.release ⟨1, 64⟩)) = none := by decide

/-! ### C131 -/

theorem releases_map (hI : I = tree16 ∨ I = tree32) {length : Nat} :
    ∀ (l : List (MyId I.P)) {g : GTree I L} {M : Map I.P L}, Reach I length g M → (∀ i ∈ l, i.len ≤ I.P.W ∧ i.id.toNat < 2 ^ length) →
      ∃ g', Steps I length g M (l.map fun i => (.release i, .done)) g' (fun q => (M q).filter fun e => decide (e.id ∉ l)) := by
  intro l
  induction l with
  | nil =>
    intro g M _ _
    have : (fun q => (M q).filter fun e => decide (e.id ∉ ([] : List (MyId I.P)))) = M := by
      funext q; cases M q <;> simp [Option.filter]
    rw [this]
    exact ⟨g, .nil⟩
  | cons i l ih =>
    intro g M h hl
    obtain ⟨h1, h2⟩ := hl i (by simp)
    have hfit : (Op.release i : Op I.P L).Fits := h1
    let D : Map I.P L := fun q => (M q).filter fun e => decide (e.id ≠ i)
    have heff : Effect length M (.release i) .done D := by
      simp only [Effect, if_pos h2, true_and]
      intro q
      split
      · rfl
      · rename_i hq
        dsimp only [D]
        cases hm : M q with
        | none => rfl
        | some e =>
          have : e.id ≠ i := fun hei => hq (hei ▸ ((h.ginv hI).wf q e hm).1)
          simp [Option.filter, this]
    have hroom : Room D := (h.ginv hI).room.mono fun q hq hn => hq (by dsimp only [D]; rw [hn]; rfl)
    obtain ⟨g₁, hx⟩ := exec_of_effect hI h hfit (by intro l; simp) heff hroom
    obtain ⟨g', hst⟩ := ih (h.step hfit hx heff hroom) (fun x hx => hl x (by simp [hx]))
    have : (fun q => (D q).filter fun e => decide (e.id ∉ l)) = fun q => (M q).filter fun e => decide (e.id ∉ i :: l) := by
      funext q
      dsimp only [D]
      rw [Option.filter_filter]
      congr 1
      funext e
      simp [and_comm]
    rw [this] at hst
    exact ⟨g', .cons hfit hx heff hroom hst⟩

/-- what `ReleaseByLabel` leaves -/
theorem releaseByLabel_steps (hI : I = tree16 ∨ I = tree32) {length : Nat} {g : GTree I L} {M : Map I.P L}
    (h : Reach I length g M) (sel : L → Bool) :
    ∃ g', Steps I length g M [(.releaseByLabel sel, .done)] g' (fun q => (M q).filter fun e => !sel e.labels) := by
  have heff : Effect length M (.releaseByLabel sel) .done (fun q => (M q).filter fun e => !sel e.labels) := ⟨rfl, fun _ => rfl⟩
  have hroom : Room (fun q => (M q).filter fun e => !sel e.labels) :=
    (h.ginv hI).room.mono fun q hq hn => hq (by rw [hn]; rfl)
  have hfit : (Op.releaseByLabel sel : Op I.P L).Fits := trivial
  obtain ⟨g', hx⟩ := exec_of_effect hI h hfit (by intro l; simp) heff hroom
  exact ⟨g', .cons hfit hx heff hroom .nil⟩

/-- **C131, partial** (tree16; tree32 as long as the map has room) `ReleaseByLabel` leaves what `GetByLabel` lists for the
opposite selector. It does what `ReleaseID` of all ids does that `GetByLabel` lists, in any order, if these are below
`2^length`; and two calls of it do what one does whose selector matches what one of the two matches. Missing: `ReleaseID`
of ids beyond the length (`C53_outside_violated`); tree64 (`C131_tree64_violated`). -/
theorem C131_tree_partial (hI : I = tree16 ∨ I = tree32) {length : Nat} {g : GTree I L} {M : Map I.P L}
    (h : Reach I length g M) (sel : L → Bool) :
    ∃ (g' : GTree I L) (M' : Map I.P L) (es ks : List (Entry I.P L)),
      Steps I length g M [(.releaseByLabel sel, .done)] g' M' ∧
      g.getByLabel sel = .ok es ∧ g.getByLabel (fun l => !sel l) = .ok ks ∧
      g'.getAll = .ok (ks.map some) ∧ g'.getByLabel sel = .ok [] ∧
      ((∀ e ∈ es, e.id.id.toNat < 2 ^ length) → ∀ l : List (MyId I.P), (∀ i, i ∈ l ↔ ∃ e ∈ es, e.id = i) →
        ∃ g'', Steps I length g M (l.map fun i => (.release i, .done)) g'' M' ∧ Alike I length g' M' g'') ∧
      ∀ sel₂ : L → Bool, ∃ g₁ g₂ M₁, Steps I length g' M' [(.releaseByLabel sel₂, .done)] g₁ M₁ ∧
        Steps I length g M [(.releaseByLabel fun l => sel l || sel₂ l, .done)] g₂ M₁ ∧ Alike I length g₁ M₁ g₂ := by
  have hi := h.ginv hI
  obtain ⟨g', hst⟩ := releaseByLabel_steps hI h sel
  have h' := h.steps hst
  obtain ⟨al, a1, _, _, a4⟩ := C59_queries_partial hI h
  obtain ⟨bl, b1, b2, _, b4⟩ := C59_queries_partial hI h'
  have hbl : bl = al.filter fun e => !sel e.labels := b1.unique (a1.filter _)
  have hmem : ∀ e, e ∈ al ↔ M (pre e.id) = some e := fun e => a1.mem fun q e he => (hi.wf q e he).1
  refine ⟨g', _, _, _, hst, a4 sel, a4 _, ?_, ?_, ?_, ?_⟩
  · rw [b2, hbl]
  · rw [b4, hbl, List.filter_filter]
    congr 1
    rw [List.filter_eq_nil_iff]
    intro e _
    cases sel e.labels <;> simp
  · intro hin l hl
    obtain ⟨g'', hs⟩ := releases_map hI l h (fun i hi' => by
      obtain ⟨e, he, rfl⟩ := (hl i).1 hi'
      exact ⟨(hi.wf _ _ ((hmem e).1 (List.mem_filter.1 he).1)).2, hin e he⟩)
    have : (fun q => (M q).filter fun e => decide (e.id ∉ l)) = fun q => (M q).filter fun e => !sel e.labels := by
      funext q
      cases hq : M q with
      | none => rfl
      | some e =>
        have hpre := (hi.wf q e hq).1
        have : e.id ∈ l ↔ sel e.labels = true := by
          rw [hl]
          constructor
          · rintro ⟨e', he', hid⟩
            obtain ⟨m1, m2⟩ := List.mem_filter.1 he'
            have := (hmem e').1 m1
            rw [hid, ← hpre, hq] at this
            cases this
            exact m2
          · intro hs
            exact ⟨e, List.mem_filter.2 ⟨(hmem e).2 (by rw [← hpre]; exact hq), hs⟩, rfl⟩
        cases hs : sel e.labels <;> simp [Option.filter, this, hs]
    rw [this] at hs
    exact ⟨g'', hs, alike_of_same hI h' (h.steps hs)⟩
  · intro sel₂
    obtain ⟨g₁, s1⟩ := releaseByLabel_steps hI h' sel₂
    obtain ⟨g₂, s2⟩ := releaseByLabel_steps hI h (fun l => sel l || sel₂ l)
    have : (fun q => (M q).filter fun e => !(sel e.labels || sel₂ e.labels)) =
        fun q => ((M q).filter fun e => !sel e.labels).filter fun e => !sel₂ e.labels := by
      funext q
      rw [Option.filter_filter]
      congr 1
      funext e
      cases sel e.labels <;> cases sel₂ e.labels <;> rfl
    rw [this] at s2
    exact ⟨g₁, g₂, _, s1, s2, alike_of_same hI (h'.steps s1) (h.steps s2)⟩

-- 5/16 is released, 64/10 stays
example : ((fresh tree16 8).after [.claim ⟨5, 16⟩ true, .claim ⟨64, 10⟩ false]).getByLabel id = .ok [⟨⟨5, 16⟩, true⟩] ∧
    ((fresh tree16 8).after [.claim ⟨5, 16⟩ true, .claim ⟨64, 10⟩ false, .releaseByLabel id]).getAll =
      .ok [some ⟨⟨64, 10⟩, false⟩] := ⟨rfl, rfl⟩

/-- **C131, violated** (tree64) With 1/64 and 2/64 claimed, `ReleaseByLabel` works once; the same call again panics. -/
theorem C131_tree64_violated :
    okOf (((fresh tree64 64).after [.claim ⟨1, 64⟩ true, .claim ⟨2, 64⟩ false]).exec (.releaseByLabel fun b => !b)) = some true ∧
    okOf (((fresh tree64 64).after [.claim ⟨1, 64⟩ true, .claim ⟨2, 64⟩ false, .releaseByLabel fun b => !b]).exec
      (.releaseByLabel fun b => !b)) = none := by decide

end Verif.GTree
