import Verif.GTree.Props
import Verif.Id.InvProps

/-!
Property C90, the part about the trees: `ClaimRange` with the ends in the wrong order.
-/

namespace Verif.GTree
open Verif.Id
open Verif.Tree (Tree Out newTree)
variable {I : Impl} {L : Type} [Labels L]

/-- the prefixes of such a list are aligned and different -/
theorem wraps_distinct {P : Pkg} {ids : List (MyId P)} {lo hi : BitVec P.W} (hlt : hi < lo) (h : Wraps ids lo hi) :
    (∀ i ∈ ids, Aligned i) ∧ ids.Pairwise (fun i j => pre i ≠ pre j) := by
  obtain ⟨L1, L2, bot, top, q, rfl, _, h1, h2⟩ := h
  refine ⟨fun i hi => (List.mem_append.1 hi).elim (h1.aligned i) (h2.aligned i), ?_⟩
  refine List.pairwise_append.2 ⟨decomposes_distinct h1, decomposes_distinct h2, ?_⟩
  intro i hi j hj he
  have hl : i.len = j.len := by rw [← pre_length i, ← pre_length j, he]
  have hc : Covers i j.id := (covers_iff_pre (h2.aligned j hj).1 (Nat.le_of_eq hl)).2 (by rw [he]; exact List.prefix_rfl)
  have a1 := ((h1.cover j.id).1 ⟨i, hi, hc⟩).1
  have a2 := ((h2.cover j.id).1 ⟨j, hj, rfl⟩).2
  rw [BitVec.le_def] at a1 a2
  rw [BitVec.lt_def] at hlt
  omega

/-- **C90, partial** (tree16; tree32 as long as the map has room) `ClaimRange("a-b")` with `b < a` succeeds. It stores
entries that cover exactly the ids of the smallest block with `a` and `b`, except for those between `b` and `a`; the rest
stays. Missing: tree64. -/
theorem C90_claimRange_partial (hI : I = tree16 ∨ I = tree32) {length : Nat} {g : GTree I L} {M : Map I.P L}
    (h : Reach I length g M) (s : List UInt8) (l : L) (a b : Nat) (hs : IsRange I.P.W s a b) (hba : b < a) :
    ∃ ids : List (MyId I.P), Wraps ids (BitVec.ofNat _ a) (BitVec.ofNat _ b) ∧ (Room (puts M l ids) →
      ∃ g', g.exec (.claimRange s l) = .ok (.done, g') ∧ Reach I length g' (puts M l ids) ∧
        (∀ i ∈ ids, g'.get i = .ok (some ⟨i, l⟩)) ∧ ∀ q, (∀ i ∈ ids, pre i ≠ q) → puts M l ids q = M q) := by
  have hg := h.ginv hI
  have hk := (C34_parseRange (P := I.P) (ok_of hI).pkg3).2
  obtain ⟨u, v, hs, hu, hv, ha, hb⟩ := hs
  have hpr : parseRange s = some (rangeFrom (BitVec.ofNat _ a) (BitVec.ofNat _ b) : Rng I.P) :=
    (hk s _).2 ⟨u, v, a, b, hs, hu.no_hyphen, hu, hv, ha, hb, rfl⟩
  have hlt : (BitVec.ofNat I.P.W b) < (BitVec.ofNat _ a) := by
    rw [BitVec.lt_def, BitVec.toNat_ofNat, BitVec.toNat_ofNat, Nat.mod_eq_of_lt ha, Nat.mod_eq_of_lt hb]
    exact hba
  obtain ⟨ids, i1, i2⟩ := C90_ids (ok_of hI) (rangeFrom (BitVec.ofNat _ a) (BitVec.ofNat _ b) : Rng I.P) hlt
  obtain ⟨i3, i4⟩ := wraps_distinct hlt i2
  refine ⟨ids, i2, fun hr => ?_⟩
  obtain ⟨g', e1, e2⟩ := setAll_spec (ok_of hI) l hg (fun i hi => (i3 i hi).1) hr
  have hx : g.exec (.claimRange s l) = .ok (.done, g') := by
    show (g.claimRange s l >>= _) = _
    unfold GTree.claimRange
    rw [hpr]
    simp only [i1]
    rw [e1]; rfl
  have hreach := h.step (o := .claimRange s l) trivial hx (.inr ⟨_, ids, hpr, i1, rfl, rfl⟩) hr
  refine ⟨g', hx, hreach, ?_, fun q hq => puts_other hq⟩
  intro i hi
  rw [get_spec e2 i, puts_get i4 i hi, filter_pos (by simp)]

-- "18-5"
example : IsRange 16 [49, 56, 45, 53] 18 5 :=
  ⟨[49, 56], [53], rfl, .more (s := [49]) (n := 1) (c := 56) (d := 8) (.digit ⟨rfl, by decide⟩) ⟨rfl, by decide⟩,
    .digit ⟨rfl, by decide⟩, by decide, by decide⟩
-- 0 to 5 and 18 to 31 are claimed
example : (fresh tree16 16).gets [.claimRange [49, 56, 45, 53] true] [⟨18, 15⟩, ⟨20, 14⟩, ⟨24, 13⟩, ⟨0, 14⟩, ⟨4, 15⟩, ⟨6, 15⟩] =
    [.some true, .some true, .some true, .some true, .some true, .none] := by decide

end Verif.GTree
