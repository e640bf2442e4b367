import Verif.GTree.ClaimProps
import Verif.Ranged.Props

/-!
Property C84: the labels of an entry are the map of the caller, not a copy. A Go map is a reference; here a label set is
a reference to a memory that the program may change between the calls. The models are used as they are, with
references for labels; only `Equal` of entries and the selectors look into the memory (entry.go:25-32,
`labels.Selector.Matches`).
-/

namespace Verif.GTree
open Verif.Id
open Verif.Tree (Tree Out newTree)
variable {I : Impl} {V : Type}

/-- reference to a map of labels -/
abbrev Ref := Nat

/-- change one map -/
def write (h : Ref → V) (r : Ref) (v : V) : Ref → V := fun x => if x = r then v else h x

/-- labels that are read from the memory `h` -/
@[reducible] def refLabels (str : V → String) (h : Ref → V) : Labels Ref := ⟨fun r => str (h r)⟩

/-- what the program does: a call that looks at the memory when it is made, or a change of a map -/
inductive Act (P : Pkg) (V : Type)
  | call (o : (Ref → V) → Op P Ref)
  | write (r : Ref) (v : V)

/-- a sequence of actions of the program, from tree, map and memory to tree, map and memory; with the calls and their
results -/
inductive MemSteps (I : Impl) (str : V → String) (length : Nat) :
    GTree I Ref → Map I.P Ref → (Ref → V) → List (Act I.P V) → List (Op I.P Ref × Result I.P Ref) →
      GTree I Ref → Map I.P Ref → (Ref → V) → Prop
  | nil {g M h} : MemSteps I str length g M h [] [] g M h
  | call {g M h o r g₁ M₁ as os g' M' h'} : (o h).Fits →
      @GTree.exec I Ref (refLabels str h) g (o h) = .ok (r, g₁) → Effect length M (o h) r M₁ → Room M₁ →
      MemSteps I str length g₁ M₁ h as os g' M' h' →
      MemSteps I str length g M h (.call o :: as) ((o h, r) :: os) g' M' h'
  | write {g M h r v as os g' M' h'} : MemSteps I str length g M (write h r v) as os g' M' h' →
      MemSteps I str length g M h (.write r v :: as) os g' M' h'

/-- the labels that a client sees under an id -/
def labelsOf (h : Ref → V) (g : GTree I Ref) (id : MyId I.P) : Option V :=
  match @GTree.get I Ref g id with
  | .ok (some e) => some (h e.labels)
  | _ => none

theorem MemSteps.ginv (hI : I = tree16 ∨ I = tree32) {str : V → String} {length : Nat} {g g' : GTree I Ref} {M M' : Map I.P Ref}
    {h h' : Ref → V} {as os} (hs : MemSteps I str length g M h as os g' M' h') (hg : GInv length g M) : GInv length g' M' := by
  induction hs with
  | nil => exact hg
  | @call g M h o r g₁ M₁ as os g' M' h' ho he hM hr _ ih =>
    obtain ⟨r1, M1, e1, e2, e3⟩ := @exec_spec I Ref (refLabels str h) (ok_of hI) (root_of hI) length g M hg _ ho
    have := e3 _ _ he
    subst this
    have := @effect_unique Ref (refLabels str h) _ _ _ _ _ _ _ e1 hM
    subst this
    obtain ⟨g1, f1, f2⟩ := e2 hr
    rw [he] at f1
    cases f1
    exact ih f2
  | write _ ih => exact ih hg

/-- tree and memory reached by some program from a new tree and some memory -/
def MemReach (I : Impl) (str : V → String) (length : Nat) (g : GTree I Ref) (M : Map I.P Ref) (h : Ref → V) : Prop :=
  ∃ g₀ h₀ as os, new I Ref length = some g₀ ∧ MemSteps I str length g₀ Map.empty h₀ as os g M h

theorem MemReach.ginv (hI : I = tree16 ∨ I = tree32) {str : V → String} {length : Nat} {g : GTree I Ref} {M : Map I.P Ref}
    {h : Ref → V} (hr : MemReach I str length g M h) : GInv length g M := by
  obtain ⟨g₀, h₀, as, os, h1, h2⟩ := hr
  exact h2.ginv hI (@new_inv I Ref (refLabels str h) (ok_of hI) length g₀ h1)

theorem labelsOf_eq (str : V → String) {length : Nat} {g : GTree I Ref} {M : Map I.P Ref} (hg : GInv length g M) (h : Ref → V)
    (id : MyId I.P) : labelsOf h g id = ((M (pre id)).filter (fun e => decide (e.id = id))).map (fun e => h e.labels) := by
  unfold labelsOf
  rw [@get_spec I Ref (refLabels str h) length g M hg id]
  cases (M (pre id)).filter (fun e => decide (e.id = id)) <;> rfl

/-- **C84, violated** (tree16, tree32; every state) After a successful `ClaimID` or `Update` with the map `r`, changing this
map changes the labels that `Get` reports, and what `GetByLabel` selects. -/
theorem C84_tree_violated (hI : I = tree16 ∨ I = tree32) {str : V → String} {length : Nat} {g : GTree I Ref} {M : Map I.P Ref}
    {h : Ref → V} (hr : MemReach I str length g M h) {id : MyId I.P} (hid : id.len ≤ I.P.W) (hlt : id.id.toNat < 2 ^ length)
    (r : Ref) (hroom : Room (put M id r)) (o : Op I.P Ref) (ho : o = .claim id r ∨ o = .update id r) :
    ∃ g', @GTree.exec I Ref (refLabels str h) g o = .ok (.done, g') ∧ labelsOf h g' id = some (h r) ∧
      (∀ v, labelsOf (write h r v) g' id = some v) ∧
      ∀ v (sel : V → Bool), ∃ es, @GTree.getByLabel I Ref g' (fun x => sel (write h r v x)) = .ok es ∧
        ((⟨id, r⟩ : Entry I.P Ref) ∈ es ↔ sel v = true) := by
  have hg := hr.ginv hI
  obtain ⟨g', e1, e2⟩ := (@claim_spec I Ref (refLabels str h) (ok_of hI) length g M hg id hid r).1 hlt hroom
  have hx : @GTree.exec I Ref (refLabels str h) g o = .ok (.done, g') := by
    rcases ho with rfl | rfl
    all_goals
      show (g.claimID id r >>= _) = _
      rw [e1]; rfl
  have hl : ∀ h' : Ref → V, labelsOf h' g' id = some (h' r) := by
    intro h'
    rw [labelsOf_eq str e2]
    unfold put
    rw [if_pos rfl, filter_pos (by simp)]
    rfl
  refine ⟨g', hx, hl h, fun v => by rw [hl]; simp [write], fun v sel => ?_⟩
  let _ := refLabels str h
  obtain ⟨l, l1, l2, _⟩ := entries_spec e2
  refine ⟨l.filter (fun e => sel (write h r v e.labels)), ?_, ?_⟩
  · unfold GTree.getByLabel
    rw [l2]
    exact labelLoop_spec _ l
  · rw [List.mem_filter, l1.mem (fun q e he => (e2.wf q e he).1)]
    simp [put, write]

/-- **C84, partial** (tree16; tree32 as long as the map has room) As long as the program does not change the map it has passed,
the labels stay what they were, whatever other maps are changed and whatever other prefixes are claimed or released.
Missing: independence of the map passed (violated above), tree64. -/
theorem C84_tree_partial (hI : I = tree16 ∨ I = tree32) {str : V → String} {length : Nat} {g : GTree I Ref} {M : Map I.P Ref}
    {h : Ref → V} (hr : MemReach I str length g M h) {id : MyId I.P} (hid : id.len ≤ I.P.W) (hlt : id.id.toNat < 2 ^ length)
    (r : Ref) (hroom : Room (put M id r)) (o : Op I.P Ref) (ho : o = .claim id r ∨ o = .update id r) :
    ∃ g₁, @GTree.exec I Ref (refLabels str h) g o = .ok (.done, g₁) ∧
      ∀ as os g' M' h', MemSteps I str length g₁ (put M id r) h as os g' M' h' → (∀ v, Act.write r v ∉ as) →
        (∀ x ∈ os, ¬ Touches (pre id) r x) → labelsOf h' g' id = some (h r) := by
  have hg := hr.ginv hI
  obtain ⟨g₁, e1, e2⟩ := (@claim_spec I Ref (refLabels str h) (ok_of hI) length g M hg id hid r).1 hlt hroom
  have hx : @GTree.exec I Ref (refLabels str h) g o = .ok (.done, g₁) := by
    rcases ho with rfl | rfl
    all_goals
      show (g.claimID id r >>= _) = _
      rw [e1]; rfl
  refine ⟨g₁, hx, fun as os g' M' h' hs hw ht => ?_⟩
  have key : ∀ {g M h as os g' M' h'}, MemSteps I str length g M h as os g' M' h' → M (pre id) = some ⟨id, r⟩ →
      (∀ v, Act.write r v ∉ as) → (∀ x ∈ os, ¬ Touches (pre id) r x) → M' (pre id) = some ⟨id, r⟩ ∧ h' r = h r := by
    intro g M h as os g' M' h' hs
    induction hs with
    | nil => intro h1 _ _; exact ⟨h1, rfl⟩
    | @call g M h o r' g₁ M₁ as os g' M' h' _ _ hM _ _ ih =>
      intro h1 h2 h3
      refine ih (@touch_keeps Ref (refLabels str h) _ _ _ _ _ _ _ _ hM h1 (h3 _ (by simp))) (fun v hv => h2 v (by simp [hv]))
        (fun x hx => h3 x (by simp [hx]))
    | @write g M h r' v as os g' M' h' _ ih =>
      intro h1 h2 h3
      obtain ⟨i1, i2⟩ := ih h1 (fun v hv => h2 v (by simp [hv])) h3
      refine ⟨i1, ?_⟩
      rw [i2]
      have : r ≠ r' := fun he => h2 v (by simp [he])
      simp [Verif.GTree.write, this]
  obtain ⟨k1, k2⟩ := key hs (by unfold put; rw [if_pos rfl]) hw ht
  rw [labelsOf_eq str (hs.ginv hI e2), k1, filter_pos (by simp)]
  show some (h' r) = _
  rw [k2]

-- claim 5/16 with the map 0, then change it
example : ∃ g', @GTree.exec tree16 Ref (refLabels id fun _ => "a") ⟨newTree tree16.P, 65535, 16⟩ (.claim ⟨5, 16⟩ 0) = .ok (.done, g') ∧
    labelsOf (fun _ => "a") g' ⟨5, 16⟩ = some "a" ∧ labelsOf (write (fun _ => "a") 0 "b") g' ⟨5, 16⟩ = some "b" := by
  obtain ⟨g', h1, h2, h3, _⟩ := C84_tree_violated (I := tree16) (.inl rfl) (str := id) (h := fun _ => "a")
    (⟨_, _, [], [], rfl, .nil⟩ : MemReach tree16 id 16 _ Map.empty _) (id := ⟨5, 16⟩) (by decide) (by decide) 0 (fun h => by cases h)
    _ (.inl rfl)
  exact ⟨g', h1, h2, h3 "b"⟩

end Verif.GTree

namespace Verif.Ranged
open Verif.IdxTable (U64 Ascending)
open Verif.GTree (Ref write)
variable {P : Width} {V : Type}

/-- the labels that a client sees under an id -/
def labelsOf (h : Ref → V) (r : RTable P Ref) (id : U64) : Option V := (obs r id).map h

/-- **C84, violated** (table16, table32, table64; every state) After a successful `Claim` or `Update` with the map `m`,
changing this map changes the labels that `Get` reports. -/
theorem C84_ranged_violated {start stop : BitVec P.W} {r : RTable P Ref} (hr : Reach start stop r) (hp : Proper start stop)
    (h : Ref → V) (id : U64) (m : Ref) :
    ((claim r id m).2 = .ok () → labelsOf h (claim r id m).1 id = some (h m) ∧
      ∀ v, labelsOf (write h m v) (claim r id m).1 id = some v) ∧
    ((update r id m).2 = .ok () → labelsOf h (update r id m).1 id = some (h m) ∧
      ∀ v, labelsOf (write h m v) (update r id m).1 id = some v) := by
  obtain ⟨_, _, h1, h2⟩ := C18_get_offset_partial hr hp id
  unfold labelsOf
  refine ⟨fun hc => ?_, fun hc => ?_⟩
  · rw [h1 m hc]; exact ⟨rfl, fun v => by simp [write]⟩
  · rw [h2 m hc]; exact ⟨rfl, fun v => by simp [write]⟩

/-- the call may replace or remove the entry of a claimed id -/
def Alters {L : Type} (id : U64) : RCall L → Prop
  | .release i => i = id
  | .update i _ => i = id
  | _ => False

theorem alters_keeps {L : Type} {start stop len1 len2 : Nat} {s s' : LMap L} {c : RCall L} {rep : RReply L} {id : U64} {l : L}
    (hs : RStep start stop len1 len2 s c s' rep) (hl : s id = some l) (ha : ¬ Alters id c) : s' id = some l := by
  cases c with
  | claim i d =>
    rcases hs with ⟨h1, rfl, _⟩ | ⟨_, rfl, _⟩
    · unfold LMap.put
      split
      · next he => rw [he, h1.2] at hl; cases hl
      · exact hl
    · exact hl
  | claimFree d =>
    rcases hs with ⟨i, h1, rfl, _⟩ | ⟨_, rfl, _⟩
    · unfold LMap.put
      split
      · next he => rw [he, h1.1.2] at hl; cases hl
      · exact hl
    · exact hl
  | release i =>
    have ha : ¬ i = id := ha
    rcases hs with ⟨h1, rfl, _⟩ | ⟨_, rfl, _⟩
    · unfold LMap.drop
      rw [if_neg (fun he => ha he.symm)]
      exact hl
    · exact hl
  | update i d =>
    have ha : ¬ i = id := ha
    rcases hs with ⟨h1, rfl, _⟩ | ⟨_, rfl, _⟩
    · unfold LMap.put
      rw [if_neg (fun he => ha he.symm)]
      exact hl
    · exact hl
  | _ => rw [hs.1]; exact hl

/-- **C84, partial** (table16, table32, table64, all ranges but the full one) After a successful `Claim` the labels are
those of the map passed, until the id is released or updated; so they do not change if the program does not change this
map. -/
theorem C84_ranged_partial {start stop : BitVec P.W} {r : RTable P Ref} (hr : Reach start stop r) (hp : Proper start stop)
    (h h' : Ref → V) (id : U64) (m : Ref) (hc : (claim r id m).2 = .ok ()) (cs : List (RCall Ref)) (ha : ∀ c ∈ cs, ¬ Alters id c)
    (hm : h' m = h m) : labelsOf h' (run (claim r id m).1 cs).1 id = some (h m) := by
  obtain ⟨hg, hi, hf, rfl, rfl⟩ := hr.inv hp
  have h1 := (C18_get_offset_partial hr hp id).2.2.1 m hc
  have hs := step_refines hg r hi hf (.claim id m)
  have hs3 : (claim r id m).1.start = r.start := hs.2.2.1
  have hs4 : (claim r id m).1.stop = r.stop := hs.2.2.2
  have hi1 : RInv (claim r id m).1 := hs.2.1
  have hf1 : NotFull (claim r id m).1 := by unfold NotFull; rw [hs3, hs4]; exact hf
  rw [obs_eq hg hi1] at h1
  have key : ∀ (cs : List (RCall Ref)) (r : RTable P Ref), RInv r → NotFull r → absR r id = some m → (∀ c ∈ cs, ¬ Alters id c) →
      RInv (run r cs).1 ∧ absR (run r cs).1 id = some m := by
    intro cs
    induction cs with
    | nil => intro r h1 _ h2 _; exact ⟨h1, h2⟩
    | cons c cs ih =>
      intro r h1 hf h2 h3
      obtain ⟨s1, s2, s3, s4⟩ := step_refines hg r h1 hf c
      refine ih (step r c).1 s2 (by unfold NotFull; rw [s3, s4]; exact hf) (alters_keeps s1 h2 (h3 c (by simp)))
        (fun c hc => h3 c (by simp [hc]))
  obtain ⟨k1, k2⟩ := key cs _ hi1 hf1 h1 ha
  unfold labelsOf
  rw [obs_eq hg k1, k2]
  show some (h' m) = _
  rw [hm]

example : (claim (new 10 20 : RTable w16 Ref) 12 0).2 = .ok () := by decide

end Verif.Ranged
