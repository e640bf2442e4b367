import Verif.Tests.Model
import Verif.GTree.ClaimProps

/-!
C89: the demo program `test/main.go`.
-/

namespace Verif.Tests
open Verif.Id Verif.GTree
open Verif.Tree (Out)
variable {L : Type} [Labels L]

theorem room16 (M : Map tree16.P L) : Room M := fun hw => absurd hw (by decide)

theorem demoClaims_eq (lab : Nat → L) : ∀ (n id : Nat) (g : GTree tree16 L) (M : Map tree16.P L), GInv 12 g M →
    id + n ≤ 4096 → demoClaims lab n id g = .ok ((List.range' id n).map .claimed)
  | 0, _, _, _, _, _ => rfl
  | n + 1, id, g, M, hg, h => by
    obtain ⟨g', e1, e2⟩ := (claim_spec (ok_of (.inl rfl)) hg (id := ⟨BitVec.ofNat 16 id, 16⟩) (Nat.le_refl _) (lab id)).1 (by
      show (BitVec.ofNat 16 id).toNat < 4096
      rw [BitVec.toNat_ofNat]
      omega) (room16 _)
    rw [demoClaims, e1]
    show (demoClaims lab n (id + 1) g' >>= _) = _
    rw [demoClaims_eq lab n (id + 1) g' _ e2 (by omega)]
    rfl

theorem claimFree_of_exec {I : Impl} {g g' : GTree I L} {l : L} {e : Entry I.P L}
    (h : g.exec (.claimFree l) = .ok (.got e, g')) : g.claimFree l = .ok (.ok e, g') := by
  change (g.claimFree l >>= _) = _ at h
  cases hc : g.claimFree l with
  | ok x =>
    obtain ⟨r, g1⟩ := x
    rw [hc] at h
    cases r with
    | ok e1 => cases h; rfl
    | err => cases h
  | panic s => rw [hc] at h; cases h
  | realloc => rw [hc] at h; cases h
  | diverge => rw [hc] at h; cases h

theorem demoFree16_eq (lab : Nat → L) (E : Nat → Entry tree16.P L) : ∀ (n id : Nat) (g g' : GTree tree16 L) (M M' : Map tree16.P L),
    Steps tree16 12 g M ((List.range' id n).map fun i => (.claimFree (lab i), .got (E i))) g' M' →
    demoFree16 lab n id g = .ok ((List.range' id n).map fun i => .got16 (E i))
  | 0, _, _, _, _, _, _ => rfl
  | n + 1, id, g, g', M, M', h => by
    rw [List.range'_succ, List.map_cons] at h
    cases h with
    | cons _ he _ _ ht =>
      rw [demoFree16, claimFree_of_exec he]
      show (demoFree16 lab n (id + 1) _ >>= _) = _
      rw [demoFree16_eq lab E n (id + 1) _ _ _ _ ht]
      rfl

theorem demoFree32_eq (lab : Nat → L) (E : Nat → Entry tree32.P L) : ∀ (n id : Nat) (g g' : GTree tree32 L) (M M' : Map tree32.P L),
    Steps tree32 12 g M ((List.range' id n).map fun i => (.claimFree (lab i), .got (E i))) g' M' →
    demoFree32 lab n id g = .ok ((List.range' id n).map fun i => .got32 (E i), g')
  | 0, _, _, _, _, _, h => by cases h; rfl
  | n + 1, id, g, g', M, M', h => by
    rw [List.range'_succ, List.map_cons] at h
    cases h with
    | cons _ he _ _ ht =>
      rw [demoFree32, claimFree_of_exec he]
      show (demoFree32 lab n (id + 1) _ >>= _) = _
      rw [demoFree32_eq lab E n (id + 1) _ _ _ _ ht]
      rfl

/-- the prefixes of 1000 to 2000 -/
def demoIds : List (MyId tree16.P) :=
  [⟨1000, 13⟩, ⟨1008, 12⟩, ⟨1024, 7⟩, ⟨1536, 8⟩, ⟨1792, 9⟩, ⟨1920, 10⟩, ⟨1984, 12⟩, ⟨2000, 16⟩]

/-- `handleId` of an id below 4096 that is not claimed -/
theorem handleId_eq (nil : L) {g : GTree tree16 L} {M : Map tree16.P L} (hg : GInv 12 g M) (id : BitVec 16)
    (hlt : id.toNat < 4096) (hM : M (pre (⟨id, 16⟩ : MyId tree16.P)) = none) (ps : List (Entry tree16.P L))
    (hps : Listing ps (fun q => (M q).filter fun e => decide (pre e.id <+: pre (⟨id, 16⟩ : MyId tree16.P)))) :
    ∃ g', handleId nil g id = .ok ([.err, .parents ps], g') ∧ GInv 12 g' (put M ⟨id, 16⟩ nil) := by
  obtain ⟨g', e1, e2⟩ := (claim_spec (ok_of (.inl rfl)) hg (id := ⟨id, 16⟩) (Nat.le_refl _) nil).1 hlt (room16 _)
  refine ⟨g', ?_, e2⟩
  obtain ⟨l, l1, _, _, l3⟩ := parents_ginv (.inl rfl) e2 (⟨id, 16⟩ : MyId tree16.P) (Nat.le_refl _)
  have hl := l1.filter (fun e => decide (pre e.id <+: pre (⟨id, 16⟩ : MyId tree16.P) ∧ pre e.id ≠ pre (⟨id, 16⟩ : MyId tree16.P)))
  have heq : l.filter (fun e => decide (pre e.id <+: pre (⟨id, 16⟩ : MyId tree16.P) ∧ pre e.id ≠ pre (⟨id, 16⟩ : MyId tree16.P))) = ps := by
    refine hl.unique ?_
    refine Eq.mp (congrArg _ (funext fun q => ?_)) hps
    symm
    unfold put
    split
    · next hq =>
      subst hq
      rw [hM, filter_neg (by simp)]
      rfl
    · next hq =>
      cases hm : M q with
      | none => rfl
      | some e =>
        have := (hg.wf q e hm).1
        by_cases hp : pre e.id <+: pre (⟨id, 16⟩ : MyId tree16.P)
        · have hne : ¬ pre e.id = pre (⟨id, 16⟩ : MyId tree16.P) := fun h => hq (this.trans h)
          rw [filter_pos (by simpa using ⟨hp, hne⟩), filter_pos (by simpa using hp)]
        · rw [filter_neg (by simp [hp]), filter_neg (by simpa using hp)]
  unfold handleId
  rw [get_spec hg, hM]
  show (g.claimID ⟨id, 16⟩ nil >>= _) = _
  rw [e1]
  show (g'.get ⟨id, 16⟩ >>= _) = _
  rw [get_spec e2]
  have : put M ⟨id, 16⟩ nil (pre (⟨id, 16⟩ : MyId tree16.P)) = some ⟨⟨id, 16⟩, nil⟩ := by unfold put; rw [if_pos rfl]
  rw [this, filter_pos (by simp)]
  show (g'.parents ⟨id, 16⟩ >>= _) = _
  rw [l3 rfl, heq]
  rfl

/-- **C89** The demo program runs to the end without a panic. It prints the last id of the prefix 0/4, that 0 to 4095
were claimed, then (tree16 of length 12) the entries 0 to 4095 returned by `ClaimFree`, the same for tree32, and for 1000
and 100 that they are not found, with the parents 1000/13 and none. -/
theorem C89_demo (lab : Nat → L) (rng nil : L) (sel : L → Bool) :
    demo lab rng nil sel [49, 48, 48, 48, 45, 50, 48, 48, 48] = .ok (
      .lastID ⟨4095, 16⟩ :: (List.range 4096).map .claimed ++
      (List.range 4096).map (fun i => .got16 ⟨⟨BitVec.ofNat 16 i, 16⟩, lab i⟩) ++
      (List.range 4096).map (fun i => .got32 ⟨⟨BitVec.ofNat 32 i, 32⟩, lab i⟩) ++
      [.err, .parents [⟨⟨1000, 13⟩, rng⟩]] ++ [.err, .parents []]) := by
  obtain ⟨a, ha, hA⟩ := C83_count_partial (I := tree16) (length := 12) (.inl ⟨rfl, by decide, by decide⟩) lab
  obtain ⟨a', hA, _⟩ := hA 4096 (by decide)
  obtain ⟨b, hb, hB⟩ := C83_count_partial (I := tree32) (length := 12) (.inr ⟨rfl, by decide⟩) lab
  obtain ⟨b', hB, _⟩ := hB 4096 (by decide)
  have hb' := ((Reach.new hb).steps hB).ginv (.inr rfl)
  obtain ⟨b2, hb2, _⟩ := releaseByLabel_spec (ok_of (.inr rfl)) hb' sel
  have hag : GInv 12 a Map.empty := (Reach.new ha).ginv (.inl rfl)
  obtain ⟨c, hc1, hc2⟩ := setAll_spec (ok_of (.inl rfl)) rng (ids := demoIds) hag (by decide) (room16 _)
  have hcr : a.claimRange [49, 48, 48, 48, 45, 50, 48, 48, 48] rng = .ok (.ok (), c) := by
    unfold GTree.claimRange
    rw [show (parseRange [49, 48, 48, 48, 45, 50, 48, 48, 48] : Option (Rng tree16.P)) = some ⟨⟨1000, 16⟩, ⟨2000, 16⟩⟩ by decide]
    simp only [show (⟨⟨1000, 16⟩, ⟨2000, 16⟩⟩ : Rng tree16.P).ids = some demoIds by decide]
    show (a.setAll rng demoIds >>= _) = _
    rw [hc1]
    rfl
  have hd : demoIds.Pairwise (fun i j => pre i ≠ pre j) := by decide
  have hmem : ∀ q e, puts (Map.empty : Map tree16.P L) rng demoIds q = some e → ∃ i ∈ demoIds, pre i = q ∧ e = ⟨i, rng⟩ := by
    intro q e he
    by_cases hq : ∃ i ∈ demoIds, pre i = q
    · obtain ⟨i, h1, h2⟩ := hq
      rw [← h2, puts_get hd i h1] at he
      exact ⟨i, h1, h2, (Option.some.inj he).symm⟩
    · rw [puts_other (fun i hi he => hq ⟨i, hi, he⟩)] at he
      cases he
  have hput := puts_get (l := rng) (M := (Map.empty : Map tree16.P L)) hd
  generalize hMdef : puts (Map.empty : Map tree16.P L) rng demoIds = M at hc2 hmem hput
  have hnone : ∀ q, (∀ i ∈ demoIds, pre i ≠ q) → M q = none := fun q hq => by rw [← hMdef, puts_other hq]; rfl
  obtain ⟨d, hd1, hd2⟩ := handleId_eq nil hc2 1000 (by decide) (hnone _ (by decide)) [⟨⟨1000, 13⟩, rng⟩] (by
    refine ⟨by simp, fun q e => ?_⟩
    rw [Option.filter_eq_some_iff]
    constructor
    · intro h
      simp only [List.map_cons, List.map_nil, List.mem_singleton, Prod.mk.injEq] at h
      obtain ⟨rfl, rfl⟩ := h
      exact ⟨hput _ (by decide), decide_eq_true
        (show pre (⟨1000, 13⟩ : MyId tree16.P) <+: pre (⟨1000, 16⟩ : MyId tree16.P) by decide)⟩
    · rintro ⟨h1, h2⟩
      obtain ⟨i, i1, i2, rfl⟩ := hmem q e h1
      have : i = ⟨1000, 13⟩ := by
        have key : ∀ i ∈ demoIds, pre i <+: pre (⟨1000, 16⟩ : MyId tree16.P) → i = ⟨1000, 13⟩ := by decide
        exact key i i1 (of_decide_eq_true h2)
      subst this
      simp [← i2])
  obtain ⟨f, hf1, hf2⟩ := handleId_eq nil hd2 100 (by decide) (by
    unfold put
    rw [if_neg (by decide)]
    exact hnone _ (by decide)) [] (by
    refine ⟨by simp, fun q e => ?_⟩
    rw [Option.filter_eq_some_iff]
    constructor
    · intro h
      simp at h
    · rintro ⟨h1, h2⟩
      exfalso
      unfold put at h1
      split at h1
      · cases h1
        exact absurd (of_decide_eq_true h2)
          (show ¬ pre (⟨1000, 16⟩ : MyId tree16.P) <+: pre (⟨100, 16⟩ : MyId tree16.P) by decide)
      · obtain ⟨i, i1, i2, rfl⟩ := hmem q e h1
        have key : ∀ i ∈ demoIds, ¬ pre i <+: pre (⟨100, 16⟩ : MyId tree16.P) := by decide
        exact key i i1 (of_decide_eq_true h2))
  have hl : lastID (⟨0, 16 - 12⟩ : MyId id16) = ⟨4095, 16⟩ := by decide
  rw [List.range_eq_range'] at hA hB
  unfold demo
  rw [ha, hb]
  show (demoClaims lab 4096 0 a >>= _) = _
  rw [demoClaims_eq lab 4096 0 a _ hag (by decide)]
  show (demoFree16 lab 4096 0 a >>= _) = _
  rw [demoFree16_eq lab _ 4096 0 a _ _ _ hA]
  show (demoFree32 lab 4096 0 b >>= _) = _
  rw [demoFree32_eq lab _ 4096 0 b _ _ _ hB]
  show (b'.releaseByLabel sel >>= _) = _
  rw [hb2]
  show (a.claimRange _ rng >>= _) = _
  rw [hcr]
  show (handleId nil c 1000 >>= _) = _
  rw [hd1]
  show (handleId nil d 100 >>= _) = _
  rw [hf1, hl, List.range_eq_range']
  rfl

example : ∃ ls, demo (L := Bool) (fun i => i == 7) true false id [49, 48, 48, 48, 45, 50, 48, 48, 48] = .ok ls ∧
    .claimed 4095 ∈ ls ∧ .got32 ⟨⟨7, 32⟩, true⟩ ∈ ls := by
  refine ⟨_, C89_demo _ _ _ _, ?_, ?_⟩
  · simp
  · simp only [List.mem_append, List.mem_map]
    exact .inl (.inl (.inr ⟨7, by simp, rfl⟩))

end Verif.Tests
