import Verif.Tree.Model
import Verif.Id.Bits

/-! Ids as lists of bits, most significant first. -/

namespace Verif.Tree
open Verif.Id
variable {P : Pkg}

/-- the first `n` of the `W` lowest bits of `x`, most significant first -/
def bitsOf (W : Nat) {v : Nat} (x : BitVec v) (n : Nat) : List Bool :=
  (List.range n).map (fun k => x.getLsbD (W - 1 - k))

@[simp] theorem length_bitsOf (W : Nat) {v : Nat} (x : BitVec v) (n : Nat) :
    (bitsOf W x n).length = n := by simp [bitsOf]

theorem getElem?_bitsOf (W : Nat) {v : Nat} (x : BitVec v) (n k : Nat) :
    (bitsOf W x n)[k]? = if k < n then some (x.getLsbD (W - 1 - k)) else none := by
  unfold bitsOf
  rw [List.getElem?_map]
  by_cases h : k < n
  · rw [List.getElem?_range h]; simp [h]
  · rw [List.getElem?_eq_none (by simpa using h)]; simp [h]

theorem drop_bitsOf {W v : Nat} (x : BitVec v) {n m : Nat} (hm : m ≤ n) (hn : n ≤ W) (hv : W ≤ v) :
    (bitsOf W x n).drop m = bitsOf W (x <<< m) (n - m) := by
  apply List.ext_getElem?
  intro k
  rw [List.getElem?_drop, getElem?_bitsOf, getElem?_bitsOf]
  by_cases h : m + k < n
  · have h' : k < n - m := by omega
    simp only [h, h', if_true]
    rw [BitVec.getLsbD_shiftLeft]
    have e : W - 1 - k - m = W - 1 - (m + k) := by omega
    have h1 : W - 1 - k < v := by omega
    have h2 : ¬ W - 1 - k < m := by omega
    simp [e, h1, h2]
  · have h' : ¬ k < n - m := by omega
    simp only [h, h', if_false]

theorem take_bitsOf (W : Nat) {v : Nat} (x : BitVec v) {n m : Nat} (hm : m ≤ n) :
    (bitsOf W x n).take m = bitsOf W x m := by
  unfold bitsOf
  rw [← List.map_take, List.take_range, Nat.min_eq_left hm]

theorem bitsOf_congr {W v w : Nat} {x : BitVec v} {y : BitVec w} {n : Nat}
    (h : ∀ k < n, x.getLsbD (W - 1 - k) = y.getLsbD (W - 1 - k)) : bitsOf W x n = bitsOf W y n := by
  unfold bitsOf
  apply List.map_congr_left
  intro k hk
  exact h k (List.mem_range.1 hk)

theorem bitsOf_setWidth_up {W v : Nat} (x : BitVec W) (n : Nat) (hv : W ≤ v) :
    bitsOf W (x.setWidth v) n = bitsOf W x n := by
  apply bitsOf_congr
  intro k _
  rw [BitVec.getLsbD_setWidth]
  by_cases h : W - 1 - k < v
  · simp [h]
  · have : W ≤ W - 1 - k := by omega
    simp [h, BitVec.getLsbD_of_ge _ _ this]

theorem bitsOf_setWidth_down {W v : Nat} (x : BitVec v) {n : Nat} (hn : n ≤ W) :
    bitsOf W (x.setWidth W) n = bitsOf W x n := by
  apply bitsOf_congr
  intro k hk
  rw [BitVec.getLsbD_setWidth]
  have : W - 1 - k < W := by omega
  simp [this]

theorem head_bitsOf {W : Nat} (x : BitVec W) {n : Nat} (hn : 0 < n) (hW : 0 < W) :
    (bitsOf W x n).head? = some (decide (((1 : BitVec W) <<< (W - 1)) ≤ x)) := by
  rw [List.head?_eq_getElem?, getElem?_bitsOf]
  simp only [hn, if_true, Option.some.injEq]
  have e : x.getLsbD (W - 1 - 0) = x.msb := by
    rw [BitVec.msb_eq_getLsbD_last]; rfl
  rw [e, BitVec.msb_eq_decide]
  congr 1
  rw [BitVec.le_def, BitVec.toNat_shiftLeft]
  have : (1 : BitVec W).toNat = 1 := by
    show (BitVec.ofNat W 1).toNat = 1
    rw [BitVec.toNat_ofNat, Nat.mod_eq_of_lt]
    exact Nat.one_lt_two_pow (by omega)
  rw [this, Nat.one_shiftLeft, Nat.mod_eq_of_lt (Nat.pow_lt_pow_right (by decide) (by omega))]

/-- length of the common prefix -/
def lcp : List Bool → List Bool → Nat
  | a :: as, b :: bs => if a = b then lcp as bs + 1 else 0
  | _, _ => 0

theorem le_lcp : ∀ (a b : List Bool) (c : Nat),
    c ≤ lcp a b ↔ c ≤ a.length ∧ c ≤ b.length ∧ a.take c = b.take c
  | [], b, c => by
    simp only [lcp, List.length_nil, List.take_nil]
    constructor
    · intro h
      have : c = 0 := by omega
      subst this; simp
    · intro h; omega
  | a :: as, [], c => by
    simp only [lcp, List.length_nil, List.take_nil]
    constructor
    · intro h
      have : c = 0 := by omega
      subst this; simp
    · intro h; omega
  | a :: as, b :: bs, 0 => by simp
  | a :: as, b :: bs, c + 1 => by
    unfold lcp
    simp only [List.length_cons, List.take_succ_cons, List.cons.injEq, Nat.add_le_add_iff_right]
    by_cases h : a = b
    · simp only [h, if_true, true_and, Nat.add_le_add_iff_right]
      exact le_lcp as bs c
    · simp [h]

theorem lcp_le_left (a b : List Bool) : lcp a b ≤ a.length := ((le_lcp a b _).1 (Nat.le_refl _)).1
theorem lcp_le_right (a b : List Bool) : lcp a b ≤ b.length := ((le_lcp a b _).1 (Nat.le_refl _)).2.1
theorem lcp_take (a b : List Bool) : a.take (lcp a b) = b.take (lcp a b) :=
  ((le_lcp a b _).1 (Nat.le_refl _)).2.2

theorem lcp_unique {a b : List Bool} {n : Nat} (h1 : n ≤ a.length) (h2 : n ≤ b.length)
    (h : ∀ c, c ≤ a.length → c ≤ b.length → (c ≤ n ↔ a.take c = b.take c)) : lcp a b = n := by
  apply Nat.le_antisymm
  · exact (h _ (lcp_le_left a b) (lcp_le_right a b)).2 (lcp_take a b)
  · exact (le_lcp a b n).2 ⟨h1, h2, (h n h1 h2).1 (Nat.le_refl _)⟩

theorem bitsOf_eq_iff {W : Nat} (x y : BitVec W) {c : Nat} (hc : c ≤ W) :
    bitsOf W x c = bitsOf W y c ↔ x.toNat / 2 ^ (W - c) = y.toNat / 2 ^ (W - c) := by
  constructor
  · intro h
    apply Nat.eq_of_testBit_eq
    intro i
    rw [Nat.testBit_div_two_pow, Nat.testBit_div_two_pow]
    show x.getLsbD (i + (W - c)) = y.getLsbD (i + (W - c))
    by_cases hi : i < c
    · have e : i + (W - c) = W - 1 - (c - 1 - i) := by omega
      have := congrArg (fun l => l[c - 1 - i]?) h
      simp only [getElem?_bitsOf, show c - 1 - i < c by omega, if_true, Option.some.injEq] at this
      rw [e]; exact this
    · rw [BitVec.getLsbD_of_ge _ _ (by omega), BitVec.getLsbD_of_ge _ _ (by omega)]
  · intro h
    apply bitsOf_congr
    intro k hk
    have := congrArg (fun n => n.testBit (c - 1 - k)) h
    simp only [Nat.testBit_div_two_pow] at this
    have e : c - 1 - k + (W - c) = W - 1 - k := by omega
    rw [e] at this
    exact this

/-- the prefix of an id -/
def bitsId (i : MyId P) : List Bool := bitsOf P.W i.id i.len

/-- the prefix of a node -/
def bitsNode (W : Nat) (n : Node) : List Bool := bitsOf W n.id n.len

theorem matchCount_eq (hW : P.W < 256) (n : Node) (i : MyId P) (hn : n.len ≤ P.W) (hi : i.len ≤ P.W) :
    matchCount n i = lcp (bitsNode P.W n) (bitsId i) := by
  symm
  have hle : matchCount n i ≤ n.len ∧ matchCount n i ≤ i.len := by
    unfold matchCount
    simp only
    constructor <;> (repeat' split) <;> omega
  have hml := leadingZeros_le (n.id.setWidth P.W ^^^ i.id)
  apply lcp_unique
  · simpa [bitsNode] using hle.1
  · simpa [bitsId] using hle.2
  · intro c h1 h2
    have h1' : c ≤ n.len := by simpa [bitsNode] using h1
    have h2' : c ≤ i.len := by simpa [bitsId] using h2
    have : c ≤ matchCount n i ↔ c ≤ leadingZeros (n.id.setWidth P.W ^^^ i.id) := by
      unfold matchCount matchesId
      simp only
      rw [Nat.mod_eq_of_lt (by omega)]
      repeat' split
      all_goals omega
    rw [this, le_common (by omega)]
    unfold bitsNode bitsId
    rw [take_bitsOf _ _ h1', take_bitsOf _ _ h2', ← bitsOf_setWidth_down n.id (by omega),
      bitsOf_eq_iff _ _ (by omega)]

theorem leftBit_eq (hW : 0 < P.W) (i : MyId P) (h : 0 < i.len) :
    (bitsId i).head? = some (leftBit i) := head_bitsOf i.id h hW

theorem isLeftBitSet_eq {W : Nat} (hW : 0 < W) (n : Node) (h : 0 < n.len) (hl : n.len ≤ W) :
    (bitsNode W n).head? = some (isLeftBitSet W n.id) := by
  unfold bitsNode isLeftBitSet
  rw [← bitsOf_setWidth_down n.id hl, head_bitsOf _ h hW]

theorem sub8_eq {a b : Nat} (h : b ≤ a) (ha : a < 256) : sub8 a b = a - b := by
  unfold sub8
  rw [show a + 256 - b = (a - b) + 256 by omega, Nat.add_mod_right, Nat.mod_eq_of_lt (by omega)]

theorem bitsId_shiftLeft (hW : P.W < 256) (i : MyId P) {m : Nat} (hm : m ≤ i.len) (hi : i.len ≤ P.W) :
    bitsId (shiftLeft i m) = (bitsId i).drop m ∧ (shiftLeft i m).len = i.len - m := by
  have h : sub8 i.len m = i.len - m := sub8_eq hm (by omega)
  unfold bitsId shiftLeft
  simp only [h, and_true]
  rw [drop_bitsOf i.id hm hi (Nat.le_refl _)]

theorem bitsNode_shiftLength {W : Nat} (hW : W ≤ 64) (n : Node) {m : Nat} (hm : m ≤ n.len)
    (hi : n.len ≤ W) :
    bitsNode W (shiftLength m n) = (bitsNode W n).drop m ∧ (shiftLength m n).len = n.len - m := by
  have h : sub8 n.len m = n.len - m := sub8_eq hm (by omega)
  unfold bitsNode shiftLength
  simp only [h, and_true]
  rw [drop_bitsOf n.id hm hi hW]

theorem bitsNode_val64 (hW : P.W ≤ 64) (i : MyId P) {m : Nat} (hm : m ≤ i.len) (l r c : Nat) :
    bitsNode P.W ⟨l, r, MyId.val64 i, m, c⟩ = (bitsId i).take m := by
  unfold bitsNode bitsId MyId.val64
  simp only
  rw [bitsOf_setWidth_up _ _ hW, take_bitsOf _ _ hm]

theorem getLsbD_leftMask {W : Nat} : ∀ {l : Nat}, l ≤ W → ∀ k, k < W →
    (leftMask W l).getLsbD k = decide (W - l ≤ k)
  | 0, _, k, hk => by
    unfold leftMask
    rw [show decide (W - 0 ≤ k) = false by simp; omega]
    exact BitVec.getLsbD_zero
  | l + 1, hl, k, hk => by
    unfold leftMask
    rw [BitVec.getLsbD_or, getLsbD_leftMask (by omega) k hk, BitVec.getLsbD_shiftLeft]
    have h1 : (1 : BitVec W).getLsbD (k - (W - (l + 1))) = decide (k - (W - (l + 1)) = 0) := by
      have := BitVec.getLsbD_one (w := W) (i := k - (W - (l + 1)))
      show (1#W).getLsbD _ = _
      rw [this]
      simp; omega
    rw [h1]
    by_cases a : W - l ≤ k
    · simp [a]; omega
    · by_cases b : W - (l + 1) ≤ k
      · simp [a, b, hk]; omega
      · simp [a, b, hk]

theorem mergeID_eq {W a b : Nat} (x y : BitVec W) (h : a + b ≤ W) (hW : W < 256) :
    ∃ z, mergeID W x a y b = .ok (z, a + b) ∧ bitsOf W z (a + b) = bitsOf W x a ++ bitsOf W y b := by
  refine ⟨(x &&& leftMask W a) ||| ((y &&& leftMask W b) >>> a), ?_, ?_⟩
  · unfold mergeID
    rw [if_neg (by omega), if_neg (by omega), Nat.mod_eq_of_lt (by omega)]
  · apply List.ext_getElem?
    intro k
    rw [getElem?_bitsOf]
    by_cases hk : k < a
    · rw [List.getElem?_append_left (by simpa using hk), getElem?_bitsOf]
      simp only [hk, if_true, show k < a + b by omega, Option.some.injEq]
      rw [BitVec.getLsbD_or, BitVec.getLsbD_and, BitVec.getLsbD_ushiftRight, BitVec.getLsbD_and,
        getLsbD_leftMask (by omega) _ (by omega)]
      have h1 : W - a ≤ W - 1 - k := by omega
      have h2 : W ≤ a + (W - 1 - k) := by omega
      simp [h1, BitVec.getLsbD_of_ge _ _ h2]
    · rw [List.getElem?_append_right (by simpa using Nat.le_of_not_lt hk), getElem?_bitsOf, length_bitsOf]
      by_cases hk2 : k < a + b
      · simp only [hk2, if_true, show k - a < b by omega, Option.some.injEq]
        rw [BitVec.getLsbD_or, BitVec.getLsbD_and, BitVec.getLsbD_ushiftRight, BitVec.getLsbD_and,
          getLsbD_leftMask (by omega) _ (by omega), getLsbD_leftMask (by omega) _ (by omega)]
        have h1 : ¬ W - a ≤ W - 1 - k := by omega
        have h2 : W - b ≤ W - 1 - (k - a) := by omega
        have e : a + (W - 1 - k) = W - 1 - (k - a) := by omega
        simp only [h1, h2, decide_true, decide_false, Bool.and_false, Bool.and_true, Bool.false_or, e]
      · simp only [hk2, if_false, show ¬ k - a < b by omega]

theorem mergeFromNodes_eq {W : Nat} (hW : W = 16 ∨ W = 32 ∨ W = 64) (l r : Node)
    (h : l.len + r.len ≤ W) :
    ∃ z, mergeFromNodes l r W = .ok (z, l.len + r.len) ∧
      bitsOf W z (l.len + r.len) = bitsNode W l ++ bitsNode W r := by
  obtain ⟨z, h1, h2⟩ := mergeID_eq (l.id.setWidth W) (r.id.setWidth W) h (by omega)
  refine ⟨z.setWidth 64, ?_, ?_⟩
  · unfold mergeFromNodes
    rw [if_pos hW, h1]
    rfl
  · rw [bitsOf_setWidth_up z _ (by omega), h2, bitsOf_setWidth_down _ (by omega),
      bitsOf_setWidth_down _ (by omega)]
    rfl

end Verif.Tree
