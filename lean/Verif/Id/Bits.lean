import Verif.Id.Model

/-! Bit level facts about the ids: masks, leading zeros, arithmetic. -/

namespace Verif.Id
variable {P : Pkg}

/-- the mask with the lowest `k` bits clear -/
def hiMask (W k : Nat) : BitVec W := BitVec.allOnes W <<< k

theorem getLsbD_hiMask (W k i : Nat) : (hiMask W k).getLsbD i = (decide (i < W) && decide (k ≤ i)) := by
  unfold hiMask
  rw [BitVec.getLsbD_shiftLeft, BitVec.getLsbD_allOnes]
  by_cases h1 : i < W <;> by_cases h2 : k ≤ i <;> simp [h1, h2] <;> omega

theorem and_hiMask {W : Nat} (x : BitVec W) (k : Nat) : x &&& hiMask W k = (x >>> k) <<< k := by
  apply BitVec.eq_of_getLsbD_eq
  intro i hi
  rw [BitVec.getLsbD_and, getLsbD_hiMask, BitVec.getLsbD_shiftLeft, BitVec.getLsbD_ushiftRight]
  by_cases h2 : k ≤ i
  · rw [show k + (i - k) = i by omega]; simp [hi, h2, Nat.not_lt.2 h2]
  · simp [h2, Nat.lt_of_not_le h2]

theorem toNat_and_hiMask {W : Nat} (x : BitVec W) (k : Nat) :
    (x &&& hiMask W k).toNat = x.toNat / 2 ^ k * 2 ^ k := by
  rw [and_hiMask, BitVec.toNat_shiftLeft, BitVec.toNat_ushiftRight, Nat.shiftLeft_eq,
    Nat.shiftRight_eq_div_pow]
  apply Nat.mod_eq_of_lt
  exact Nat.lt_of_le_of_lt (Nat.div_mul_le_self _ _) x.isLt

theorem toNat_not_hiMask {W k : Nat} (h : k ≤ W) : (~~~(hiMask W k)).toNat = 2 ^ k - 1 := by
  apply Nat.eq_of_testBit_eq
  intro i
  rw [Nat.testBit_two_pow_sub_one]
  show (~~~(hiMask W k)).getLsbD i = _
  rw [BitVec.getLsbD_not, getLsbD_hiMask]
  by_cases h1 : i < W <;> by_cases h2 : k ≤ i <;> simp [h1, h2] <;> omega

theorem toNat_or_not_hiMask {W k : Nat} (h : k ≤ W) (x : BitVec W) :
    (x ||| ~~~(hiMask W k)).toNat = x.toNat / 2 ^ k * 2 ^ k + (2 ^ k - 1) := by
  rw [BitVec.toNat_or, toNat_not_hiMask h]
  have h1 : x.toNat / 2 ^ k * 2 ^ k + (2 ^ k - 1) = (x.toNat >>> k) <<< k ||| (2 ^ k - 1) := by
    rw [← Nat.shiftLeft_add_eq_or_of_lt (by have := Nat.two_pow_pos k; omega), Nat.shiftLeft_eq,
      Nat.shiftRight_eq_div_pow]
  rw [h1]
  apply Nat.eq_of_testBit_eq
  intro i
  simp only [Nat.testBit_or, Nat.testBit_two_pow_sub_one, Nat.testBit_shiftLeft,
    Nat.testBit_shiftRight]
  by_cases h2 : k ≤ i
  · rw [show k + (i - k) = i by omega]; simp [h2, Nat.not_lt.2 h2]
  · simp [h2, Nat.lt_of_not_le h2]

theorem xor_and_eq_zero {W : Nat} (x m : BitVec W) : x ^^^ (x &&& m) = 0 ↔ x &&& m = x := by
  have := BitVec.xor_eq_zero_iff (x := x) (y := x &&& m)
  exact this.trans eq_comm

theorem or_hiMask_eq {W k : Nat} (h : k ≤ W) (x : BitVec W) :
    x ||| hiMask W k = BitVec.allOnes W ↔ x.toNat % 2 ^ k = 2 ^ k - 1 := by
  have h1 : x ||| hiMask W k = BitVec.allOnes W ↔ x &&& ~~~(hiMask W k) = ~~~(hiMask W k) := by
    constructor
    · intro he
      apply BitVec.eq_of_getLsbD_eq
      intro i hi
      have := congrArg (fun v => v.getLsbD i) he
      simp only [BitVec.getLsbD_or, BitVec.getLsbD_allOnes, hi, decide_true] at this
      rw [BitVec.getLsbD_and, BitVec.getLsbD_not]
      cases hx : x.getLsbD i <;> cases hm : (hiMask W k).getLsbD i <;> simp_all
    · intro he
      apply BitVec.eq_of_getLsbD_eq
      intro i hi
      have := congrArg (fun v => v.getLsbD i) he
      simp only [BitVec.getLsbD_and, BitVec.getLsbD_not, hi, decide_true, Bool.true_and] at this
      rw [BitVec.getLsbD_or, BitVec.getLsbD_allOnes]
      cases hx : x.getLsbD i <;> cases hm : (hiMask W k).getLsbD i <;> simp_all
  rw [h1, ← BitVec.toNat_inj, BitVec.toNat_and, toNat_not_hiMask h, Nat.and_two_pow_sub_one_eq_mod]

/-! ### leading zeros -/

theorem leadingZeros_le {W : Nat} (x : BitVec W) : leadingZeros x ≤ W := by
  unfold leadingZeros; split <;> omega

theorem le_leadingZeros {W c : Nat} (hc : c ≤ W) (x : BitVec W) :
    c ≤ leadingZeros x ↔ x.toNat < 2 ^ (W - c) := by
  unfold leadingZeros
  split
  · rename_i h; rw [h]; simp [hc, Nat.two_pow_pos]
  · rename_i h
    have hlt := x.isLt
    have h1 : x.toNat.log2 < W := (Nat.log2_lt h).2 hlt
    rw [← Nat.log2_lt h]
    omega

theorem xor_lt_two_pow {a b k : Nat} : a ^^^ b < 2 ^ k ↔ a / 2 ^ k = b / 2 ^ k := by
  rw [← Nat.shiftRight_eq_div_pow, ← Nat.shiftRight_eq_div_pow]
  have h : a ^^^ b < 2 ^ k ↔ (a ^^^ b) >>> k = 0 := by
    rw [Nat.shiftRight_eq_div_pow, Nat.div_eq_zero_iff]
    have := Nat.two_pow_pos k
    omega
  rw [h, Nat.shiftRight_xor_distrib]
  constructor
  · intro h
    apply Nat.eq_of_testBit_eq
    intro i
    have := congrArg (fun v => v.testBit i) h
    simp only [Nat.testBit_xor, Nat.zero_testBit] at this
    cases hx : (a >>> k).testBit i <;> cases hy : (b >>> k).testBit i <;> simp_all
  · intro h; rw [h, Nat.xor_self]

/-- the leading zeros of the exclusive or count the common leading bits -/
theorem le_common {W c : Nat} (hc : c ≤ W) (a b : BitVec W) :
    c ≤ leadingZeros (a ^^^ b) ↔ a.toNat / 2 ^ (W - c) = b.toNat / 2 ^ (W - c) := by
  rw [le_leadingZeros hc, BitVec.toNat_xor, xor_lt_two_pow]

/-! ### the packages -/

/-- the entry `l` of the mask table is right -/
def MaskAt (P : Pkg) (l : Nat) : Prop := P.mask6[l]? = some (hiMask P.W (P.W - l))

/-- what id16 and id32 get right -/
structure Good (P : Pkg) : Prop where
  pos : 1 < P.W
  lt : P.W ≤ 32
  byte : P.W % 8 = 0
  maskMax : P.maskMax = P.W
  mask : ∀ l, l ≤ P.W → MaskAt P l
  addOne : ∀ x : BitVec P.W, x ≠ BitVec.allOnes P.W → P.addOne x = x + 1
  addOneMax : P.addOne (BitVec.allOnes P.W) = 1
  subOne : ∀ x : BitVec P.W, x ≠ 0 → P.subOne x = x - 1

theorem mask16_eq : mask16 = (List.range 17).map (fun l => hiMask 16 (16 - l)) := by decide
theorem mask32_eq : mask32 = (List.range 33).map (fun l => hiMask 32 (32 - l)) := by decide
theorem mask64_eq : mask64 = 0xffffffff00000000 ::
    ((List.range 64).map (fun l => hiMask 64 (63 - l))) := by decide

theorem mask_of_eq {W : Nat} {m : List (BitVec W)}
    (h : m = (List.range (W + 1)).map (fun l => hiMask W (W - l))) {l : Nat} (hl : l ≤ W) :
    m[l]? = some (hiMask W (W - l)) := by
  rw [h, List.getElem?_map, List.getElem?_range (by omega)]; rfl

theorem mask64_at {l : Nat} (h1 : 1 ≤ l) (h2 : l ≤ 64) : MaskAt id64 l := by
  show mask64[l]? = some (hiMask 64 (64 - l))
  obtain ⟨k, rfl⟩ : ∃ k, l = k + 1 := ⟨l - 1, by omega⟩
  rw [mask64_eq, List.getElem?_cons_succ, List.getElem?_map, List.getElem?_range (by omega)]
  simp only [Option.map_some]
  rw [show 63 - k = 64 - (k + 1) by omega]

theorem sub_borrow {w : Nat} (hw : 1 < w) (x : BitVec w) (hx : x ≠ 0) :
    ((~~~x &&& 1) ||| (~~~(x ^^^ 1) &&& (x - 1))) >>> (w - 1) = 0 := by
  have h1 : (1 : BitVec w).toNat = 1 := by
    show (BitVec.ofNat w 1).toNat = 1
    rw [BitVec.toNat_ofNat, Nat.mod_eq_of_lt (Nat.one_lt_two_pow (by omega))]
  have hp : 2 ^ w = 2 * 2 ^ (w - 1) := by
    have := Nat.pow_succ (n := 2) (m := w - 1)
    rw [show (w - 1).succ = w by omega] at this
    omega
  have hp' : 2 ≤ 2 ^ (w - 1) := by
    have := Nat.pow_le_pow_right (n := 2) (by omega) (show 1 ≤ w - 1 by omega)
    simpa using this
  have hm1 : (1 : BitVec w).msb = false := by
    rw [BitVec.msb_eq_false_iff_two_mul_lt, h1]; omega
  have hx' : x.toNat ≠ 0 := fun h => hx (BitVec.eq_of_toNat_eq (by simpa using h))
  have hmsb : ((~~~x &&& 1) ||| (~~~(x ^^^ 1) &&& (x - 1))).msb = false := by
    rw [BitVec.msb_or, BitVec.msb_and, BitVec.msb_and, BitVec.msb_not, BitVec.msb_not,
      BitVec.msb_xor, hm1]
    cases hxm : x.msb with
    | true => simp
    | false =>
      have : (x - 1).msb = false := by
        rw [BitVec.msb_eq_false_iff_two_mul_lt] at hxm ⊢
        rw [BitVec.toNat_sub_of_le (by rw [BitVec.le_def, h1]; omega), h1]
        omega
      rw [this]; simp
  rw [BitVec.msb_eq_false_iff_two_mul_lt] at hmsb
  apply BitVec.eq_of_toNat_eq
  rw [BitVec.toNat_ushiftRight, Nat.shiftRight_eq_div_pow, Nat.div_eq_of_lt (by omega)]
  simp

theorem good16 : Good id16 := by
  refine ⟨by decide, by decide, by decide, rfl, ?_, ?_, by decide, ?_⟩
  · intro l hl; exact mask_of_eq (W := 16) mask16_eq hl
  · intro x hx
    change BitVec 16 at x
    have hx' : x.toNat ≠ 65535 := fun h => hx (BitVec.eq_of_toNat_eq (h.trans (by decide)))
    have := x.isLt
    show addOne16 x = x + 1
    apply BitVec.eq_of_toNat_eq
    have h1 : (1 : BitVec 16).toNat = 1 := rfl
    simp only [addOne16, add16, BitVec.toNat_add, BitVec.toNat_setWidth, BitVec.toNat_ushiftRight,
      Nat.shiftRight_eq_div_pow, h1]
    omega
  · intro x hx
    change BitVec 16 at x
    show subOne16 x = x - 1
    simp only [subOne16, sub16]
    rw [show (15 : Nat) = 16 - 1 from rfl, sub_borrow (by decide) x hx]
    simp

theorem good32 : Good id32 := by
  refine ⟨by decide, by decide, by decide, rfl, ?_, ?_, by decide, ?_⟩
  · intro l hl; exact mask_of_eq (W := 32) mask32_eq hl
  · intro x hx
    change BitVec 32 at x
    have hx' : x.toNat ≠ 4294967295 := fun h => hx (BitVec.eq_of_toNat_eq (h.trans (by decide)))
    have := x.isLt
    show addOne32 x = x + 1
    apply BitVec.eq_of_toNat_eq
    have h1 : (1 : BitVec 32).toNat = 1 := rfl
    simp only [addOne32, add32, BitVec.toNat_add, BitVec.toNat_setWidth, BitVec.toNat_ushiftRight,
      Nat.shiftRight_eq_div_pow, h1]
    omega
  · intro x hx
    change BitVec 32 at x
    show subOne32 x = x - 1
    simp only [subOne32, sub32]
    rw [show (31 : Nat) = 32 - 1 from rfl, sub_borrow (by decide) x hx]
    simp

theorem add_carry64 (x : BitVec 64) (hx : x ≠ BitVec.allOnes 64) :
    ((x &&& 1) ||| ((x ||| 1) &&& ~~~(x + 1))) >>> 63 = 0 := by
  have hx' : x.toNat ≠ 2 ^ 64 - 1 := fun h => hx (BitVec.eq_of_toNat_eq (by simpa using h))
  have hlt := x.isLt
  have h1 : (1 : BitVec 64).toNat = 1 := rfl
  have hm1 : (1 : BitVec 64).msb = false := by decide
  have hmsb : ((x &&& 1) ||| ((x ||| 1) &&& ~~~(x + 1))).msb = false := by
    rw [BitVec.msb_or, BitVec.msb_and, BitVec.msb_and, BitVec.msb_or, BitVec.msb_not, hm1]
    cases hxm : x.msb with
    | false => simp
    | true =>
      have : (x + 1).msb = true := by
        rw [BitVec.msb_eq_true_iff_two_mul_ge] at hxm ⊢
        rw [BitVec.toNat_add, h1]
        omega
      rw [this]; rfl
  rw [BitVec.msb_eq_false_iff_two_mul_lt] at hmsb
  apply BitVec.eq_of_toNat_eq
  rw [BitVec.toNat_ushiftRight, Nat.shiftRight_eq_div_pow, Nat.div_eq_of_lt (by omega)]
  simp

theorem addOne64_eq (x : BitVec 64) (hx : x ≠ BitVec.allOnes 64) : addOne64 x = x + 1 := by
  simp only [addOne64, add64]
  rw [add_carry64 x hx]
  simp

/-- id64's `subOne` is right below `2^32` only -/
theorem subOne64_eq (x : BitVec 64) (hx : x ≠ 0) (hlt : x.toNat < 2 ^ 32) : subOne64 x = x - 1 := by
  have hx' : x.toNat ≠ 0 := fun h => hx (BitVec.eq_of_toNat_eq (by simpa using h))
  have hy : x.setWidth 32 ≠ 0 := by
    intro h
    have := congrArg BitVec.toNat h
    rw [BitVec.toNat_setWidth, Nat.mod_eq_of_lt hlt] at this
    exact hx' (by simpa using this)
  have h1 : (1 : BitVec 32).toNat = 1 := rfl
  have h2 : (1 : BitVec 64).toNat = 1 := rfl
  simp only [subOne64, sub32]
  rw [show (31 : Nat) = 32 - 1 from rfl, sub_borrow (by decide) _ hy]
  apply BitVec.eq_of_toNat_eq
  have hs : (x.setWidth 32).toNat = x.toNat := by
    rw [BitVec.toNat_setWidth, Nat.mod_eq_of_lt hlt]
  rw [show ∀ y : BitVec 32, y - 0 = y from fun y => BitVec.sub_zero y, BitVec.toNat_setWidth, BitVec.toNat_sub_of_le (by rw [BitVec.le_def, hs, h1]; omega),
    BitVec.toNat_sub_of_le (by rw [BitVec.le_def, h2]; omega), hs, h1, h2]
  omega

end Verif.Id
