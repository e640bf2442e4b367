import Verif.Tree.Leak
import Verif.Tree.Cell64

/-! What an iteration over a copy of a prefix tree yields (C49). -/

namespace Verif.Tree
open Verif.Id
variable {T : Type} [Inhabited T] {P : Pkg}

/-- the values that a copy finds at the node `i` with `c` values: the keys are computed with the width 0 -/
def copyVals (t : Tree T) (i c : Nat) : List T :=
  (List.range c).map (fun j => getV t.vals (BitVec.ofNat 64 i + BitVec.ofNat 64 j))

theorem clone_key (t : Tree T) (i : Nat) : t.clone.key i = BitVec.ofNat 64 i := by
  unfold Tree.key Tree.clone
  simp

theorem clone_valsForNode {t : Tree T} {i : Nat} {v : List T} (h : t.valsForNode i = .ok v) :
    t.clone.valsForNode i = .ok (copyVals t i v.length) := by
  unfold Tree.valsForNode at h ⊢
  by_cases hi : i = 0
  · rw [if_pos hi] at h ⊢
    cases h
    rfl
  · rw [if_neg hi] at h ⊢
    have hn : t.clone.node i = t.node i := rfl
    rw [hn]
    cases hni : t.node i with
    | ok n =>
      rw [hni] at h
      cases h
      simp only [Out.bind_ok, clone_key, copyVals, List.length_map, List.length_range]
      rfl
    | _ => rw [hni] at h; cases h

theorem clone_next (t : Tree T) (it : Iter) : next t.clone it = next t it := by
  have hround : ∀ it, round t.clone it = round t it := fun it => rfl
  have hnext : ∀ fuel it, nextLoop t.clone fuel it = nextLoop t fuel it := by
    intro fuel
    induction fuel with
    | zero => intro it; rfl
    | succ fuel ih =>
      intro it
      rw [nextLoop, nextLoop, hround]
      cases round t it with
      | ok r => cases r with
        | cont it' => exact ih it'
        | found it' => rfl
        | finished it' => rfl
      | _ => rfl
  exact hnext _ _

/-- the copy is visited in the same way -/
theorem clone_visit {t : Tree T} {vis : List (Nat × List T)} (h : t.visit = .ok vis) :
    t.clone.visit = .ok (vis.map (fun e => (e.1, copyVals t e.1 e.2.length))) := by
  have key : ∀ fuel it vis, visitLoop t fuel it = .ok vis →
      visitLoop t.clone fuel it = .ok (vis.map (fun e => (e.1, copyVals t e.1 e.2.length))) := by
    intro fuel
    induction fuel with
    | zero => intro it vis h; cases h
    | succ fuel ih =>
      intro it vis h
      rw [visitLoop] at h ⊢
      rw [clone_next]
      cases hn : next t it with
      | ok r =>
        obtain ⟨b, it'⟩ := r
        rw [hn] at h
        simp only [Out.bind_ok] at h ⊢
        cases b with
        | false =>
          cases h
          rfl
        | true =>
          simp only [if_true] at h ⊢
          cases hv : t.valsForNode it'.index with
          | ok v =>
            rw [hv] at h
            rw [clone_valsForNode hv]
            simp only [Out.bind_ok] at h ⊢
            cases hl : visitLoop t fuel it' with
            | ok l =>
              rw [hl] at h
              rw [ih it' l hl]
              cases h
              rfl
            | _ => rw [hl] at h; cases h
          | _ => rw [hv] at h; cases h
      | _ => rw [hn] at h; cases h
  exact key _ _ _ h

theorem copyVals_default {t : Tree T} {i c : Nat}
    (h : ∀ j < c, getV t.vals (BitVec.ofNat 64 i + BitVec.ofNat 64 j) = default) :
    copyVals t i c = List.replicate c default := by
  unfold copyVals
  rw [List.eq_replicate_iff]
  refine ⟨by simp, ?_⟩
  intro x hx
  obtain ⟨j, hj, rfl⟩ := List.mem_map.1 hx
  exact h j (List.mem_range.1 hj)

/-- no value is stored under a key below `2^W` -/
theorem low_keys (hP : P = id16 ∨ P = id32) {t : Tree T} {s : Sh} (hs : Small P.W t) (hi : Inv P.W t s)
    (he : Exact t s) (hx : ∀ q x c, (q, x, c) ∈ s.entries [] → x + c ≤ 2 ^ P.W) {k : Nat} (hk : k < 2 ^ P.W) :
    getV t.vals (BitVec.ofNat 64 k) = default := by
  have hw : WidthOk P.W := widthOk_of (by rcases hP with h | h <;> simp [h])
  have hW := hw.le
  unfold getV
  rw [(GoMap.get?_eq_none_iff _ _).2]
  · rfl
  intro hmem
  obtain ⟨q, x, c, j, h1, h2, h3⟩ := (he _).1 hmem
  obtain ⟨n, hn, hc⟩ := hi.rep.cnt (Sh.mem_entries.1 h1).1
  have hb := hs.counts q x n (hi.at_iff.2 ⟨c, (Sh.mem_entries.1 h1).1⟩) hn
  have hlt : x < 2 ^ (64 - P.W) := by
    have h4 := hx q x c h1
    have h5 := (Sh.mem_entries.1 h1).2
    rcases hP with rfl | rfl
    · have : x + c ≤ 2 ^ 16 := h4
      show x < 2 ^ 48
      omega
    · have : x + c ≤ 2 ^ 32 := h4
      show x < 2 ^ 32
      omega
  have hpos : x ≠ 0 := by
    have := (hi.rep.lt x (Sh.mem_entries_idx h1)).2
    omega
  rw [hi.key] at h3
  have hj : j < 2 ^ P.W := by omega
  have h4 := congrArg BitVec.toNat h3
  have hpow : 2 ^ (64 - P.W) * 2 ^ P.W = 2 ^ 64 := by rw [← Nat.pow_add]; congr 1; omega
  have hle : (x + 1) * 2 ^ P.W ≤ 2 ^ (64 - P.W) * 2 ^ P.W := Nat.mul_le_mul_right _ hlt
  have hge : 1 * 2 ^ P.W ≤ x * 2 ^ P.W := Nat.mul_le_mul_right _ (by omega)
  rw [Nat.add_mul] at hle
  have hx64 : x < 2 ^ 64 := Nat.lt_of_lt_of_le hlt (Nat.pow_le_pow_right (by decide) (by omega))
  rw [BitVec.toNat_add, BitVec.toNat_shiftLeft, BitVec.toNat_ofNat, BitVec.toNat_ofNat, BitVec.toNat_ofNat,
    Nat.mod_eq_of_lt hx64, Nat.shiftLeft_eq, Nat.add_mod_mod, Nat.mod_add_mod, Nat.mod_eq_of_lt (by omega),
    Nat.mod_eq_of_lt (by omega)] at h4
  omega

/-- **C49, partial** (width 16, 32) What an iteration over a copy yields: it visits the same nodes in the same
order and with the same numbers of values, but all values are the zero value. For trees whose keys did not
overlap and whose node numbers are below `2^W`. Missing: the values (violated above). -/
theorem C49_clone_visit_partial (hP : P = id16 ∨ P = id32) {t : Tree T} (h : ReachSmall P t) :
    ∃ vis, t.visit = .ok vis ∧ ((∀ e ∈ vis, e.1 + e.2.length ≤ 2 ^ P.W) →
      t.clone.visit = .ok (vis.map (fun e => (e.1, List.replicate e.2.length default)))) := by
  obtain ⟨hs, s, hi, hex⟩ := h.inv hP
  refine ⟨_, visit_spec hi, ?_⟩
  intro hlt
  rw [clone_visit (visit_spec hi)]
  congr 1
  apply List.map_congr_left
  intro e hm
  congr 1
  apply copyVals_default
  intro j hj
  have : (BitVec.ofNat 64 e.1 + BitVec.ofNat 64 j) = BitVec.ofNat 64 (e.1 + j) := (BitVec.ofNat_add _ _).symm
  rw [this]
  refine low_keys hP hs hi hex ?_ (by have := hlt e hm; omega)
  intro q x c hx
  have := hlt (x, valsAt t.vals (t.key x) c) (List.mem_map.2 ⟨(q, x, c), hx, rfl⟩)
  rwa [length_valsAt] at this

-- two prefixes; the copy has two zero values
example : ∃ t : Tree Nat, ReachSmall id16 t ∧ t.visit = .ok [(2, [7]), (3, [8])] ∧
    t.clone.visit = .ok [(2, [0]), (3, [0])] := by
  have : ∃ t : Tree Nat, ReachSet id16 t ∧ t.visit = .ok [(2, [7]), (3, [8])] ∧
      t.clone.visit = .ok [(2, [0]), (3, [0])] := by
    refine ⟨_, ⟨[.set ⟨1, 16⟩ 7, .set ⟨0x8000, 16⟩ 8], _, ?_, rfl⟩, rfl, rfl⟩
    intro o ho
    simp only [List.mem_cons, List.not_mem_nil, or_false] at ho
    rcases ho with rfl | rfl <;> exact ⟨by decide, trivial⟩
  obtain ⟨t, h1, h2⟩ := this
  exact ⟨t, h1.small16, h2⟩

end Verif.Tree
