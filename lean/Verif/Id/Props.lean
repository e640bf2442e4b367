import Verif.Id.Builder
import Verif.Id.Ids64
import Verif.Id.Parse

/-! Theorems C27-C35 about ids and ranges. -/

namespace Verif.Id
variable {P : Pkg}

/-- the mask tables of all three packages are right from length 1 on -/
theorem masks_pos (hP : P = id16 ∨ P = id32 ∨ P = id64) : ∀ l, 1 ≤ l → l ≤ P.W → MaskAt P l := by
  rcases hP with rfl | rfl | rfl
  · intro l _ h; exact good16.mask l h
  · intro l _ h; exact good32.mask l h
  · intro l h1 h2; exact mask64_at h1 h2

theorem good_of (hP : P = id16 ∨ P = id32) : Good P := by
  rcases hP with rfl | rfl
  · exact good16
  · exact good32

theorem arith_of (hP : P = id16 ∨ P = id32 ∨ P = id64) : Arith P := by
  rcases hP with rfl | rfl | rfl
  · exact Arith16
  · exact Arith32
  · exact Arith64

/-! ### C27 -/

theorem and_mask_eq_iff {W k : Nat} (x y : BitVec W) :
    x &&& hiMask W k = y &&& hiMask W k ↔ x.toNat / 2 ^ k = y.toNat / 2 ^ k := by
  constructor
  · intro h
    have := congrArg BitVec.toNat h
    rw [toNat_and_hiMask, toNat_and_hiMask] at this
    exact Nat.eq_of_mul_eq_mul_right (Nat.two_pow_pos k) this
  · intro h
    apply BitVec.eq_of_toNat_eq
    rw [toNat_and_hiMask, toNat_and_hiMask, h]

theorem div_pow_mono {a b j k : Nat} (hjk : j ≤ k) (h : a / 2 ^ j = b / 2 ^ j) :
    a / 2 ^ k = b / 2 ^ k := by
  have e : 2 ^ k = 2 ^ j * 2 ^ (k - j) := by rw [← Nat.pow_add, Nat.add_sub_cancel' hjk]
  rw [e, ← Nat.div_div_eq_div_mul, ← Nat.div_div_eq_div_mul, h]

theorem overlaps_eq (hP : P = id16 ∨ P = id32 ∨ P = id64) {a b : MyId P} (ha : a.len ≤ P.W)
    (hb : b.len ≤ P.W) : ∃ z, a.overlaps b = some z ∧
      (z = true ↔ a.id.toNat / 2 ^ (P.W - min a.len b.len) = b.id.toNat / 2 ^ (P.W - min a.len b.len)) := by
  unfold MyId.overlaps
  have hm : (if a.len < b.len then a.len else b.len) = min a.len b.len := by split <;> omega
  simp only [hm]
  split
  · rename_i h0
    refine ⟨true, rfl, ?_⟩
    rw [h0]
    have h1 := a.id.isLt
    have h2 := b.id.isLt
    simp [Nat.div_eq_of_lt h1, Nat.div_eq_of_lt h2]
  · rename_i h0
    have := masks_pos hP (min a.len b.len) (by omega) (by omega)
    unfold MaskAt at this
    rw [this]
    refine ⟨_, rfl, ?_⟩
    rw [beq_iff_eq, and_mask_eq_iff]

/-- **C27** For lengths up to the width, `Overlaps` does not panic and decides whether the blocks
intersect, equivalently whether one contains the other. -/
theorem C27_overlaps (hP : P = id16 ∨ P = id32 ∨ P = id64) (a b : MyId P) (ha : a.len ≤ P.W)
    (hb : b.len ≤ P.W) :
    ∃ z, a.overlaps b = some z ∧
      (z = true ↔ ∃ x, Covers a x ∧ Covers b x) ∧
      (z = true ↔ (∀ x, Covers a x → Covers b x) ∨ (∀ x, Covers b x → Covers a x)) := by
  obtain ⟨z, h1, h2⟩ := overlaps_eq hP ha hb
  refine ⟨z, h1, ?_, ?_⟩
  · rw [h2]
    unfold Covers
    constructor
    · intro h
      rcases Nat.le_total a.len b.len with hl | hl
      · rw [Nat.min_eq_left hl] at h
        exact ⟨b.id, h.symm, rfl⟩
      · rw [Nat.min_eq_right hl] at h
        exact ⟨a.id, rfl, h⟩
    · rintro ⟨x, hx1, hx2⟩
      have e1 := div_pow_mono (k := P.W - min a.len b.len) (by omega) hx1
      have e2 := div_pow_mono (k := P.W - min a.len b.len) (by omega) hx2
      rw [← e1, ← e2]
  · rw [h2]
    unfold Covers
    constructor
    · intro h
      rcases Nat.le_total a.len b.len with hl | hl
      · rw [Nat.min_eq_left hl] at h
        right
        intro x hx
        rw [h]
        exact div_pow_mono (by omega) hx
      · rw [Nat.min_eq_right hl] at h
        left
        intro x hx
        rw [← h]
        exact div_pow_mono (by omega) hx
    · rintro (h | h)
      · have e := h a.id rfl
        exact div_pow_mono (by omega) e
      · have e := h b.id rfl
        exact (div_pow_mono (by omega) e).symm

example : (⟨0x8000, 1⟩ : MyId id16).overlaps ⟨0xc000, 2⟩ = some true := by decide
example : (⟨0x8000, 1⟩ : MyId id16).overlaps ⟨0x4000, 2⟩ = some false := by decide

/-! ### C28 -/

theorem before_iff {a b : MyId P} : Before a b ↔ key a < key b := by
  rw [key_lt_iff]; rfl

/-- **C28** `Compare` is the total order by length and then value, `Less` its strict part. -/
theorem C28_compare_total_order (a b c : MyId P) :
    (a.compare b = 0 ↔ a = b) ∧
    (a.compare b = -1 ↔ Before a b) ∧ (a.compare b = 1 ↔ Before b a) ∧
    a.compare b = - b.compare a ∧
    (a.compare b ≤ 0 → b.compare c ≤ 0 → a.compare c ≤ 0) ∧
    (a.less b = true ↔ Before a b) := by
  rw [before_iff, before_iff, less_iff]
  have hi : key a = key b ↔ a = b := ⟨key_inj, fun h => by rw [h]⟩
  rw [← hi]
  refine ⟨?_, ?_, ?_, ?_, ?_, Iff.rfl⟩
  · rcases compare_cases a b with h | h | h <;> omega
  · rcases compare_cases a b with h | h | h <;> omega
  · rcases compare_cases a b with h | h | h <;> omega
  · rcases compare_cases a b with h | h | h <;> rcases compare_cases b a with g | g | g <;> omega
  · rcases compare_cases a b with h | h | h <;> rcases compare_cases b c with g | g | g <;>
      rcases compare_cases a c with k | k | k <;> omega

/-! ### C29 -/

/-- **C29, violated** In all three packages `Next` of the largest value is the id 1 of the same
length, not the zero ID. -/
theorem C29_next_max_violated (hP : P = id16 ∨ P = id32 ∨ P = id64) (len : Nat) :
    (⟨BitVec.allOnes P.W, len⟩ : MyId P).next = ⟨1, len⟩ ∧
    (⟨BitVec.allOnes P.W, len⟩ : MyId P).next ≠ ⟨0, 0⟩ := by
  have A := arith_of hP
  have h := A.next_max (i := (⟨BitVec.allOnes P.W, len⟩ : MyId P)) rfl
  refine ⟨h, ?_⟩
  rw [h]
  intro he
  have := congrArg (fun i : MyId P => i.id.toNat) he
  simp only [toNat_one A.pos] at this
  simp at this

/-- **C29, violated** In id64 the predecessor of `2^32` is not `2^32 - 1`. -/
theorem C29_prev64_violated :
    ((⟨0x100000000, 64⟩ : MyId id64).prev).id.toNat = 0xfffffffe := by decide

/-- **C29, partial** Everything else: the successor below the largest value (all packages), the
predecessor above 0 (id16, id32; id64 below `2^32`), `Prev(0)`, and the inverse laws. Missing: the
end of `Next` and id64 `Prev` from `2^32` on, which are violated. -/
theorem C29_next_prev_partial (hP : P = id16 ∨ P = id32 ∨ P = id64) (i : MyId P) :
    (∀ (_ : i.id.toNat + 1 < 2 ^ P.W), i.next.id.toNat = i.id.toNat + 1 ∧ i.next.len = i.len) ∧
    (∀ (_ : 0 < i.id.toNat) (_ : P = id64 → i.id.toNat < 2 ^ 32),
      i.prev.id.toNat + 1 = i.id.toNat ∧ i.prev.len = i.len ∧ i.prev.next = i) ∧
    (i.id = 0 → i.prev = ⟨0, 0⟩) ∧
    (∀ (_ : i.id.toNat + 1 < 2 ^ P.W) (_ : P = id64 → i.id.toNat + 1 < 2 ^ 32),
      i.next.prev = i) := by
  have A := arith_of hP
  have h1 : ∀ i : MyId P, i.id.toNat + 1 < 2 ^ P.W →
      i.next.id.toNat = i.id.toNat + 1 ∧ i.next.len = i.len := by
    intro i h
    have hne := ne_max_iff.2 h
    rw [A.next_eq hne]
    refine ⟨?_, rfl⟩
    show (i.id + 1).toNat = _
    rw [BitVec.toNat_add, toNat_one A.pos, Nat.mod_eq_of_lt h]
  have h2 : ∀ i : MyId P, 0 < i.id.toNat → (P = id64 → i.id.toNat < 2 ^ 32) →
      i.prev.id.toNat + 1 = i.id.toNat ∧ i.prev.len = i.len := by
    intro i h0 h64
    have hne : i.id ≠ 0 := by rintro h; rw [h] at h0; simp at h0
    have hs : SubOk P i.id := by
      intro _
      rcases hP with rfl | rfl | rfl
      · exact good16.subOne _ hne
      · exact good32.subOne _ hne
      · exact subOne64_eq _ hne (h64 rfl)
    unfold MyId.prev
    simp only [hne, if_false]
    rw [hs hne, BitVec.toNat_sub_of_le (by rw [BitVec.le_def, toNat_one A.pos]; omega),
      toNat_one A.pos]
    exact ⟨by omega, trivial⟩
  have ext : ∀ a b : MyId P, a.id.toNat = b.id.toNat → a.len = b.len → a = b := by
    intro a b h1 h2
    cases a; cases b
    simp only at h1 h2
    rw [h2, BitVec.eq_of_toNat_eq h1]
  refine ⟨h1 i, ?_, ?_, ?_⟩
  · intro h0 h64
    obtain ⟨a, b⟩ := h2 i h0 h64
    refine ⟨a, b, ?_⟩
    have := i.id.isLt
    obtain ⟨c, d⟩ := h1 i.prev (by omega)
    exact ext _ _ (by omega) (by omega)
  · intro h; unfold MyId.prev; rw [if_pos h]; rfl
  · intro h h64
    obtain ⟨a, b⟩ := h1 i h
    obtain ⟨c, d⟩ := h2 i.next (by omega) (fun h => by have := h64 h; omega)
    exact ext _ _ (by omega) (by omega)

example : (⟨0x00ff, 16⟩ : MyId id16).next = ⟨0x0100, 16⟩ := by decide
example : (⟨0x0100, 16⟩ : MyId id16).prev = ⟨0x00ff, 16⟩ := by decide

theorem subOne64_toNat (x : BitVec 64) : (subOne64 x).toNat =
    if x.toNat % 2 ^ 32 = 0 then 2 ^ 32 - 2 else x.toNat % 2 ^ 32 - 1 := by
  have e : (x.setWidth 32).toNat = x.toNat % 2 ^ 32 := BitVec.toNat_setWidth 32 x
  have hlt := (x.setWidth 32).isLt
  have key : ((sub32 (x.setWidth 32) 1).1 - (sub32 (x.setWidth 32) 1).2).toNat =
      if (x.setWidth 32).toNat = 0 then 2 ^ 32 - 2 else (x.setWidth 32).toNat - 1 := by
    show (subOne32 (x.setWidth 32)).toNat = _
    split
    · rename_i h
      have : x.setWidth 32 = 0 := BitVec.eq_of_toNat_eq (by rw [h]; rfl)
      rw [this]
      decide
    · rename_i h
      have hne : x.setWidth 32 ≠ 0 := by intro h0; rw [h0] at h; exact h rfl
      rw [show subOne32 (x.setWidth 32) = x.setWidth 32 - 1 from good32.subOne _ hne,
        BitVec.toNat_sub_of_le (by show 1 ≤ (x.setWidth 32).toNat; omega)]
      rfl
  unfold subOne64
  rw [BitVec.toNat_setWidth, key, e, Nat.mod_eq_of_lt]
  split <;> omega

/-- **C29, partial** What `Next` and `Prev` do where the property fails: `Next` of the largest value has
the value 1, `Prev` in id64 is computed from the lower 32 bits, and from `2^32 - 2` if these are 0. -/
theorem C29_exact_partial (i : MyId id64) :
    (i.id = BitVec.allOnes id64.W → i.next = ⟨1, i.len⟩) ∧
    (i.id ≠ BitVec.allOnes id64.W → i.next = ⟨i.id + 1, i.len⟩) ∧
    (i.id.toNat ≠ 0 → i.prev.len = i.len ∧
      i.prev.id.toNat = if i.id.toNat % 2 ^ 32 = 0 then 2 ^ 32 - 2 else i.id.toNat % 2 ^ 32 - 1) := by
  refine ⟨Arith64.next_max, Arith64.next_eq, ?_⟩
  · intro h
    have hne : i.id ≠ 0 := by intro h0; rw [h0] at h; exact h rfl
    unfold MyId.prev
    simp only [hne, if_false]
    exact ⟨trivial, subOne64_toNat i.id⟩

example : ((⟨0x500000007, 64⟩ : MyId id64).prev).id.toNat = 6 := by decide

/-! ### C30 -/

theorem mask_spec {i : MyId P} {l : Nat} (h1 : l ≤ P.maskMax) (h2 : MaskAt P l) :
    ∃ m, i.mask l = .ok m ∧ m.len = l ∧ m.id.toNat = i.id.toNat / 2 ^ (P.W - l) * 2 ^ (P.W - l) := by
  unfold MyId.mask
  unfold MaskAt at h2
  simp only [Nat.not_lt.2 h1, if_false, h2]
  exact ⟨_, rfl, rfl, toNat_and_hiMask _ _⟩

theorem mask_result {m i : MyId P} {l : Nat} (hl : m.len = l)
    (h : m.id.toNat = i.id.toNat / 2 ^ (P.W - l) * 2 ^ (P.W - l)) (hW : l ≤ P.W) :
    Aligned m ∧ Covers m i.id := by
  subst hl
  unfold Aligned Covers
  rw [h]
  exact ⟨⟨hW, Nat.dvd_mul_left _ _⟩, by rw [Nat.mul_div_cancel _ (Nat.two_pow_pos _)]⟩

/-- **C30** (id16, id32) `Mask(l)` fails iff `l` exceeds the width; otherwise the result has length
`l`, shares the first `l` bits with the id and has zeros below; masking again changes nothing. -/
theorem C30_mask (hP : P = id16 ∨ P = id32) (i : MyId P) (l : Nat) :
    (P.W < l → i.mask l = .err) ∧
    (l ≤ P.W → ∃ m, i.mask l = .ok m ∧ m.len = l ∧ Aligned m ∧ Covers m i.id ∧
      m.mask m.len = .ok m) := by
  have G := good_of hP
  constructor
  · intro h
    unfold MyId.mask
    rw [G.maskMax]
    simp [h]
  · intro h
    obtain ⟨m, h1, h2, h3⟩ := mask_spec (i := i) (l := l) (by rw [G.maskMax]; exact h) (G.mask l h)
    obtain ⟨h4, h5⟩ := mask_result h2 h3 h
    refine ⟨m, h1, h2, h4, h5, ?_⟩
    obtain ⟨m', g1, g2, g3⟩ := mask_spec (i := m) (l := m.len) (by rw [G.maskMax, h2]; exact h)
      (G.mask m.len (by rw [h2]; exact h))
    rw [g1]
    have : m'.id = m.id := by
      apply BitVec.eq_of_toNat_eq
      rw [g3]
      exact Nat.div_mul_cancel h4.2
    cases m; cases m'
    simp only at this g2
    rw [this, g2]

example : (⟨0xabcd, 16⟩ : MyId id16).mask 8 = .ok ⟨0xab00, 8⟩ := rfl

/-- **C30, violated** id64 rejects the lengths 33 to 64, and `Mask(0)` keeps the upper 32 bits. -/
theorem C30_mask64_violated :
    (∀ (i : MyId id64) (l : Nat), 32 < l → i.mask l = .err) ∧
    (match (⟨0x8000000000000000, 64⟩ : MyId id64).mask 0 with
      | .ok m => ¬ Aligned m
      | _ => False) := by
  constructor
  · intro i l h
    unfold MyId.mask
    simp [id64, h]
  · show ¬ (_ ∧ _)
    decide

/-- **C30, partial** id64, what `Mask(0)` does: it clears the lower 32 bits only. -/
theorem C30_mask64_zero_partial (i : MyId id64) :
    ∃ m, i.mask 0 = .ok m ∧ m.len = 0 ∧ m.id.toNat = i.id.toNat / 2 ^ 32 * 2 ^ 32 := by
  unfold MyId.mask
  simp only [mask64_zero, Nat.not_lt.2 (Nat.zero_le id64.maskMax), if_false]
  exact ⟨_, rfl, rfl, toNat_and_hiMask _ _⟩

/-- **C30, partial** id64, lengths 1 to 32. Missing: length 0 and 33 to 64, which are violated. -/
theorem C30_mask64_partial (i : MyId id64) (l : Nat) (h1 : 1 ≤ l) (h2 : l ≤ 32) :
    ∃ m, i.mask l = .ok m ∧ m.len = l ∧ Aligned m ∧ Covers m i.id ∧ m.mask m.len = .ok m := by
  obtain ⟨m, g1, g2, g3⟩ := mask_spec (i := i) (l := l) h2 (mask64_at h1 (by omega))
  obtain ⟨g4, g5⟩ := mask_result g2 g3 (show l ≤ 64 by omega)
  refine ⟨m, g1, g2, g4, g5, ?_⟩
  obtain ⟨m', k1, k2, k3⟩ := mask_spec (i := m) (l := m.len) (show m.len ≤ 32 by omega)
    (mask64_at (by omega) (by omega))
  rw [k1]
  have : m'.id = m.id := by
    apply BitVec.eq_of_toNat_eq
    rw [k3]
    exact Nat.div_mul_cancel g4.2
  cases m; cases m'
  simp only at this k2
  rw [this, k2]

/-! ### C31 -/

theorem prefOk_good (G : Good P) {p : MyId P} (h : p.len ≤ P.W) : PrefOk p :=
  ⟨G.byte, by rw [G.maskMax]; exact h, h, G.mask _ h⟩

theorem prefOk64 {p : MyId id64} (h1 : 1 ≤ p.len) (h2 : p.len ≤ 32) : PrefOk p :=
  ⟨by decide, h2, by show p.len ≤ 64; omega, mask64_at h1 (by omega)⟩

theorem lastID_spec (hb : P.W % 8 = 0) {i : MyId P} (h : i.len ≤ P.W) :
    (lastID i).len = P.W ∧
    (lastID i).id.toNat = i.id.toNat / 2 ^ (P.W - i.len) * 2 ^ (P.W - i.len) +
      (2 ^ (P.W - i.len) - 1) := by
  refine ⟨rfl, ?_⟩
  show (setBits P.W i.len i.id).toNat = _
  rw [setBits_eq hb _ _ h, toNat_or_not_hiMask (Nat.sub_le _ _)]

/-- **C31** `LastID` (all packages) is the largest value sharing the first `length` bits. -/
theorem C31_lastID (hP : P = id16 ∨ P = id32 ∨ P = id64) (i : MyId P) (h : i.len ≤ P.W) :
    (lastID i).len = P.W ∧ Covers i (lastID i).id ∧ ∀ x, Covers i x → x ≤ (lastID i).id := by
  have hb : P.W % 8 = 0 := by rcases hP with rfl | rfl | rfl <;> decide
  obtain ⟨h1, h2⟩ := lastID_spec hb h
  have hp := Nat.two_pow_pos (P.W - i.len)
  refine ⟨h1, ?_, ?_⟩
  · unfold Covers
    rw [h2, Nat.add_comm, Nat.add_mul_div_right _ _ hp, Nat.div_eq_of_lt (Nat.sub_lt hp (by decide)),
      Nat.zero_add]
  · intro x hx
    unfold Covers at hx
    show x.toNat ≤ _
    rw [h2]
    rw [Nat.div_eq_iff hp] at hx
    omega

/-- **C31** (id16, id32) `RangeOfID` is the range from the first to the last value sharing the first
`length` bits. -/
theorem C31_rangeOfID (hP : P = id16 ∨ P = id32) (p : MyId P) (h : p.len ≤ P.W) :
    ∃ r, rangeOfID p = some r ∧ r.lo.len = P.W ∧ r.hi.len = P.W ∧
      ∀ x, Covers p x ↔ r.lo.id ≤ x ∧ x ≤ r.hi.id := by
  have ok := prefOk_good (good_of hP) h
  obtain ⟨r, h1, h2, h3, _⟩ := rangeOfID_spec ok
  refine ⟨r, h1, h2, h3, fun x => ?_⟩
  have := rangeOfID_has ok h1 ⟨x, P.W⟩
  unfold Rng.Has Block at this
  simp only [h2, true_and] at this
  exact this.symm

example : rangeOfID (⟨0xabcd, 12⟩ : MyId id16) = some (rangeFrom 0xabc0 0xabcf) := by decide

/-- **C31, violated** id64: `RangeOfID` of a prefix longer than 32 is the zero range, whose ends are
nil; of the prefix of length 0 it depends on the value. -/
theorem C31_rangeOfID64_violated :
    (∀ p : MyId id64, 32 < p.len → rangeOfID p = none) ∧
    rangeOfID (⟨0x100000000, 0⟩ : MyId id64) =
      some (rangeFrom 0x100000000 0xffffffffffffffff) := by
  constructor
  · intro p h
    unfold rangeOfID
    rw [C30_mask64_violated.1 p p.len h]
  · decide

/-- **C31, partial** id64, what `RangeOfID` of a prefix of length 0 is: the range from the value
without its lower 32 bits to the largest value. -/
theorem C31_rangeOfID64_zero_partial (p : MyId id64) (h : p.len = 0) :
    ∃ r, rangeOfID p = some r ∧ r.lo.len = 64 ∧ r.hi.len = 64 ∧
      r.lo.id.toNat = p.id.toNat / 2 ^ 32 * 2 ^ 32 ∧ r.hi.id = BitVec.allOnes 64 := by
  obtain ⟨m, g1, g2, g3⟩ := C30_mask64_zero_partial p
  unfold rangeOfID
  rw [h, g1]
  refine ⟨_, rfl, rfl, rfl, g3, ?_⟩
  show setBits id64.W m.len m.id = _
  rw [g2, setBits_eq (W := id64.W) (by decide) _ _ (by decide)]
  apply BitVec.eq_of_toNat_eq
  rw [toNat_or_not_hiMask (W := id64.W) (by decide)]
  have h1 : m.id.toNat < 2 ^ 64 := m.id.isLt
  show m.id.toNat / 2 ^ 64 * 2 ^ 64 + (2 ^ 64 - 1) = _
  rw [Nat.div_eq_of_lt h1]
  decide

/-- **C31, partial** id64, lengths 1 to 32. -/
theorem C31_rangeOfID64_partial (p : MyId id64) (h1 : 1 ≤ p.len) (h2 : p.len ≤ 32) :
    ∃ r, rangeOfID p = some r ∧ r.lo.len = 64 ∧ r.hi.len = 64 ∧
      ∀ x, Covers p x ↔ r.lo.id ≤ x ∧ x ≤ r.hi.id := by
  have ok := prefOk64 h1 h2
  obtain ⟨r, g1, g2, g3, _⟩ := rangeOfID_spec ok
  refine ⟨r, g1, g2, g3, fun x => ?_⟩
  have := rangeOfID_has ok g1 ⟨x, id64.W⟩
  unfold Rng.Has Block at this
  simp only [g2, true_and] at this
  exact this.symm

/-! ### C32, C33 -/

/-- **C32** (id16, id32) `IDs()` of a range in order does not panic and lists aligned prefixes,
ascending and disjoint, covering exactly the range. -/
theorem C32_ids_partition (hP : P = id16 ∨ P = id32) (r : Rng P) (h : r.lo.id ≤ r.hi.id) :
    ∃ L, r.ids = some L ∧ Decomposes L r.lo.id r.hi.id := by
  obtain ⟨L, h1, _, _, h4, _⟩ := ids_spec (m0 := 0) (fun l _ => (good_of hP).mask l) r h (Nat.zero_le _)
  exact ⟨L, h1, h4.decomposes⟩

example : (rangeFrom 5 18 : Rng id16).ids =
    some [⟨5, 16⟩, ⟨6, 15⟩, ⟨8, 13⟩, ⟨16, 15⟩, ⟨18, 16⟩] := by decide

/-- **C32, violated** id64: the range from `2^32` to the largest value decomposes into the single
prefix of length 0, which covers everything. -/
theorem C32_ids64_violated :
    (rangeFrom 0x100000000 0xffffffffffffffff : Rng id64).ids = some [⟨0x100000000, 0⟩] ∧
    ¬ Decomposes [(⟨0x100000000, 0⟩ : MyId id64)] 0x100000000 0xffffffffffffffff := by
  refine ⟨by decide, ?_⟩
  intro h
  have := h.aligned _ List.mem_cons_self
  exact absurd this.2 (by decide)

/-- **C32, partial** id64: all ranges but those that straddle `2^63` and both start and end at a
border of blocks of `2^32` values. Missing: these (`C32_ids64_wrong_violated`). -/
theorem C32_ids64_partial (r : Rng id64) (h : r.lo.id ≤ r.hi.id) (hs : ¬ Misread r ∨ Whole r) :
    ∃ L, r.ids = some L ∧ Decomposes L r.lo.id r.hi.id := by
  obtain ⟨L, h1, _, h4, _⟩ := ids64_spec r h hs
  exact ⟨L, h1, Tiles.decomposes (P := id64) h4⟩

/-- **C32, violated** id64: each of the ranges excluded in `C32_ids64_partial` is listed as one prefix of
length 0, which covers all values; the list is a decomposition only of the range of all values. -/
theorem C32_ids64_wrong_violated (r : Rng id64) (hs : Misread r) :
    r.ids = some [⟨r.lo.id, 0⟩] ∧ (∀ x, Covers (⟨r.lo.id, 0⟩ : MyId id64) x) ∧
    (Decomposes [(⟨r.lo.id, 0⟩ : MyId id64)] r.lo.id r.hi.id → Whole r) := by
  have hcov : ∀ x, Covers (⟨r.lo.id, 0⟩ : MyId id64) x := by
    intro x
    show x.toNat / 2 ^ 64 = r.lo.id.toNat / 2 ^ 64
    have h1 : x.toNat < 2 ^ 64 := x.isLt
    have h2 : r.lo.id.toNat < 2 ^ 64 := r.lo.id.isLt
    rw [Nat.div_eq_of_lt h1, Nat.div_eq_of_lt h2]
  refine ⟨ids64_misread hs, hcov, fun h => ?_⟩
  have h0 : ∀ x, r.lo.id ≤ x ∧ x ≤ r.hi.id := fun x => (h.cover x).1 ⟨_, List.mem_cons_self, hcov x⟩
  constructor
  · apply BitVec.eq_of_toNat_eq
    have h1 : r.lo.id.toNat ≤ 0 := (h0 0#64).1
    show _ = 0
    omega
  · apply BitVec.eq_of_toNat_eq
    have h1 : (BitVec.allOnes 64).toNat ≤ r.hi.id.toNat := (h0 (BitVec.allOnes 64)).2
    have h2 : r.hi.id.toNat < 2 ^ 64 := r.hi.id.isLt
    have h3 : (BitVec.allOnes 64).toNat = 2 ^ 64 - 1 := by decide
    show _ = (BitVec.allOnes 64).toNat
    omega

-- a range across `2^63` of either kind
example : Misread (rangeFrom 0x100000000 0xffffffffffffffff : Rng id64) := by
  unfold Misread SameHalf; decide
example : ¬ Misread (rangeFrom 0x100000000 0xfffffffffffffffe : Rng id64) := by
  unfold Misread SameHalf; decide

theorem minimal_of {L : List (MyId P)} {a b : BitVec P.W}
    (ht : Tiles P.W (L.map toPair) a.toNat (b.toNat + 1))
    (hm : Maximal P.W (L.map toPair) a.toNat (b.toNat + 1)) : Minimal L a b := by
  have hd := ht.decomposes
  have hmax : ∀ q : MyId P, q.len ≤ P.W → (∀ x, Covers q x → a ≤ x ∧ x ≤ b) →
      ∃ p ∈ L, ∀ x, Covers q x → Covers p x := by
    intro q hq hin
    have hp := Nat.two_pow_pos (P.W - q.len)
    have hqlt := q.id.isLt
    -- first and last of the block
    have hz : q.id.toNat / 2 ^ (P.W - q.len) * 2 ^ (P.W - q.len) ≤ q.id.toNat := Nat.div_mul_le_self _ _
    have htop : q.id.toNat / 2 ^ (P.W - q.len) * 2 ^ (P.W - q.len) + 2 ^ (P.W - q.len) ≤ 2 ^ P.W := by
      have e : 2 ^ P.W = 2 ^ q.len * 2 ^ (P.W - q.len) := by
        rw [← Nat.pow_add, Nat.add_sub_cancel' hq]
      have h1 : q.id.toNat / 2 ^ (P.W - q.len) < 2 ^ q.len := by
        rw [Nat.div_lt_iff_lt_mul hp, ← e]; exact hqlt
      calc _ = (q.id.toNat / 2 ^ (P.W - q.len) + 1) * 2 ^ (P.W - q.len) := by
            rw [Nat.add_mul, Nat.one_mul]
        _ ≤ 2 ^ q.len * 2 ^ (P.W - q.len) := Nat.mul_le_mul_right _ h1
        _ = _ := e.symm
    generalize hzd : q.id.toNat / 2 ^ (P.W - q.len) * 2 ^ (P.W - q.len) = z at *
    have hzdiv : z / 2 ^ (P.W - q.len) = q.id.toNat / 2 ^ (P.W - q.len) := by
      rw [← hzd, Nat.mul_div_cancel _ hp]
    have hdvd : 2 ^ (P.W - q.len) ∣ z := ⟨_, hzd.symm.trans (Nat.mul_comm _ _)⟩
    have cov : ∀ y, z ≤ y → y < z + 2 ^ (P.W - q.len) → y / 2 ^ (P.W - q.len) = q.id.toNat / 2 ^ (P.W - q.len) := by
      intro y h1 h2
      rw [Nat.div_eq_iff hp]
      omega
    have ofn : ∀ y, y < 2 ^ P.W → (BitVec.ofNat P.W y).toNat = y := by
      intro y hy; rw [BitVec.toNat_ofNat, Nat.mod_eq_of_lt hy]
    have first := hin (BitVec.ofNat _ z) (by
      unfold Covers; rw [ofn z (by omega)]; exact hzdiv)
    have last := hin (BitVec.ofNat _ (z + 2 ^ (P.W - q.len) - 1)) (by
      unfold Covers; rw [ofn _ (by omega)]; exact cov _ (by omega) (by omega))
    have f1 : a.toNat ≤ (BitVec.ofNat P.W z).toNat := first.1
    have l1 : (BitVec.ofNat P.W (z + 2 ^ (P.W - q.len) - 1)).toNat ≤ b.toNat := last.2
    rw [ofn _ (by omega)] at f1 l1
    obtain ⟨pp, hpp, h1, h2⟩ := hm z q.len hq hdvd f1 (by omega)
    obtain ⟨p, hpL, rfl⟩ := List.mem_map.1 hpp
    refine ⟨p, hpL, ?_⟩
    intro x hx
    rw [covers_iff_blk (hd.aligned p hpL).2]
    unfold Covers at hx
    rw [Nat.div_eq_iff hp] at hx
    unfold blk
    omega
  refine ⟨?_, hmax⟩
  intro M hM hcov
  -- a cover element for the start of every listed prefix
  have hex : ∀ p ∈ L, ∃ q ∈ M, Covers q p.id := by
    intro p hp
    refine (hcov p.id).2 ((hd.cover p.id).1 ⟨p, hp, rfl⟩)
  have uniq : ∀ p ∈ L, ∀ p' ∈ L, ∀ x, Covers p x → Covers p' x → p = p' := by
    intro p hp p' hp' x h1 h2
    have hpw := hd.ascending
    clear hex hcov hmax hm ht
    have key : ∀ l : List (MyId P), l.Pairwise (fun p q => ∀ x y, Covers p x → Covers q y → x < y) →
        p ∈ l → p' ∈ l → p = p' := by
      intro l
      induction l with
      | nil => intro _ h; simp at h
      | cons y l ih =>
        intro hpw ha hb
        rw [List.pairwise_cons] at hpw
        rcases List.mem_cons.1 ha with rfl | ha'
        · rcases List.mem_cons.1 hb with rfl | hb'
          · rfl
          · exact absurd (hpw.1 p' hb' x x h1 h2) (BitVec.lt_irrefl x)
        · rcases List.mem_cons.1 hb with rfl | hb'
          · exact absurd (hpw.1 p ha' x x h2 h1) (BitVec.lt_irrefl x)
          · exact ih hpw.2 ha' hb'
    exact key L hpw hp hp'
  have hnd : L.Nodup := by
    have := List.Pairwise.and_mem.1 hd.ascending
    refine this.imp ?_
    rintro p q ⟨_, _, hpq⟩ rfl
    exact absurd (hpq p.id p.id rfl rfl) (BitVec.lt_irrefl _)
  classical
  have hch : ∃ f : MyId P → MyId P, ∀ p ∈ L, f p ∈ M ∧ Covers (f p) p.id := by
    refine ⟨fun p => if h : p ∈ L then (hex p h).choose else p, ?_⟩
    intro p hp
    simp only [hp, dif_pos]
    exact (hex p hp).choose_spec
  obtain ⟨f, hf⟩ := hch
  have hinj : ∀ p ∈ L, ∀ p' ∈ L, f p = f p' → p = p' := by
    intro p hp p' hp' he
    obtain ⟨m1, c1⟩ := hf p hp
    obtain ⟨m2, c2⟩ := hf p' hp'
    rw [← he] at c2
    obtain ⟨p'', hp'', hall⟩ := hmax (f p) (hM _ m1) (fun x hx => (hcov x).1 ⟨f p, m1, hx⟩)
    have e1 := uniq p hp p'' hp'' p.id rfl (hall _ c1)
    have e2 := uniq p' hp' p'' hp'' p'.id rfl (hall _ c2)
    rw [e1, e2]
  have hnd' : (L.map f).Nodup := by
    rw [List.Nodup, List.pairwise_map]
    have := List.Pairwise.and_mem.1 hnd
    refine this.imp ?_
    rintro p q ⟨hp, hq, hne⟩ he
    exact hne (hinj p hp q hq he)
  have hsub : L.map f ⊆ M := by
    intro q hq
    obtain ⟨p, hp, rfl⟩ := List.mem_map.1 hq
    exact (hf p hp).1
  have := hnd'.length_le_of_subset hsub
  simpa using this

/-- **C33** (id16, id32) No list of prefixes, aligned or not, overlapping or not, that covers exactly
the range is shorter than `IDs()`; every prefix inside the range lies inside a listed one. -/
theorem C33_ids_minimal (hP : P = id16 ∨ P = id32) (r : Rng P) (h : r.lo.id ≤ r.hi.id) :
    ∃ L, r.ids = some L ∧ Minimal L r.lo.id r.hi.id := by
  obtain ⟨L, h1, _, _, h4, h5⟩ := ids_spec (m0 := 0) (fun l _ => (good_of hP).mask l) r h (Nat.zero_le _)
  exact ⟨L, h1, minimal_of h4 h5⟩

/-- **C33, violated** id64: the list of `C32_ids64_violated` is the only candidate and is not a
cover of the range: it covers 0. -/
theorem C33_ids64_violated :
    (rangeFrom 0x100000000 0xffffffffffffffff : Rng id64).ids = some [⟨0x100000000, 0⟩] ∧
    Covers (⟨0x100000000, 0⟩ : MyId id64) 0 := by
  refine ⟨by decide, ?_⟩
  show _ / _ = _ / _
  decide

/-- **C33, partial** id64, the ranges of `C32_ids64_partial`. -/
theorem C33_ids64_partial (r : Rng id64) (h : r.lo.id ≤ r.hi.id) (hs : ¬ Misread r ∨ Whole r) :
    ∃ L, r.ids = some L ∧ Minimal L r.lo.id r.hi.id := by
  obtain ⟨L, h1, _, h4, h5⟩ := ids64_spec r h hs
  exact ⟨L, h1, minimal_of (P := id64) h4 h5⟩

example : (rangeFrom 5 18 : Rng id64).ids =
    some [⟨5, 64⟩, ⟨6, 63⟩, ⟨8, 61⟩, ⟨16, 63⟩, ⟨18, 64⟩] := by decide
example : ¬ Misread (rangeFrom 5 18 : Rng id64) := by unfold Misread SameHalf; decide

/-! ### C34 -/

/-- **C34** `ParseRange` succeeds exactly on two decimal numerals that fit the width, separated by
the first hyphen, and returns the range from the first to the second value; in particular it
inverts `String`. -/
theorem C34_parseRange (hP : P = id16 ∨ P = id32 ∨ P = id64) :
    (∀ a b : BitVec P.W, parseRange (rangeFrom a b : Rng P).string = some (rangeFrom a b)) ∧
    (∀ (s : List UInt8) (r : Rng P), parseRange s = some r ↔
      ∃ u v a b, s = u ++ 45 :: v ∧ (45 : UInt8) ∉ u ∧ Numeral u a ∧ Numeral v b ∧
        a < 2 ^ P.W ∧ b < 2 ^ P.W ∧ r = rangeFrom (BitVec.ofNat _ a) (BitVec.ofNat _ b)) := by
  have h1 : 0 < P.W := by rcases hP with rfl | rfl | rfl <;> decide
  have h2 : P.W ≤ 64 := by rcases hP with rfl | rfl | rfl <;> decide
  have key := parseRange_iff (P := P) h1 h2
  refine ⟨?_, key⟩
  intro a b
  rw [key]
  refine ⟨fmtUint a.toNat, fmtUint b.toNat, a.toNat, b.toNat, rfl, (numeral_fmtUint _).no_hyphen,
    numeral_fmtUint _, numeral_fmtUint _, a.isLt, b.isLt, ?_⟩
  simp [rangeFrom]

/-- the value of a numeral is unique, so the specification determines the result -/
theorem C34_numeral_deterministic {s : List UInt8} {a b : Nat} (h1 : Numeral s a) (h2 : Numeral s b) :
    a = b := by
  rw [numeral_iff] at h1 h2
  exact Option.some.inj (h1.2.symm.trans h2.2)

-- "007-65535", "1-65536", "5"
example : (parseRange [48, 48, 55, 45, 54, 53, 53, 51, 53] : Option (Rng id16)) =
    some (rangeFrom 7 65535) := by decide
example : (parseRange [49, 45, 54, 53, 53, 51, 54] : Option (Rng id16)) = none := by decide
example : (parseRange [53] : Option (Rng id16)) = none := by decide

/-! ### C35 -/

/-- **C35** For valid ranges the position predicates decide the relations between the sets of ids;
`OverlapsStartOf` and `OverlapsEndOf` assume, as at their call sites, that the ranges intersect. -/
theorem C35_positions (r o : Rng P) (hr : r.Valid) (ho : o.Valid) :
    (r.entirelyBefore o = true ↔ ∀ i j, r.Has i → o.Has j → Before i j) ∧
    (r.coveredBy o = true ↔ ∀ i, r.Has i → o.Has i) ∧
    (r.inMiddleOf o = true ↔ (∀ i, r.Has i → o.Has i) ∧ ¬ r.Has o.lo ∧ ¬ r.Has o.hi) ∧
    ((∃ i, r.Has i ∧ o.Has i) →
      (r.overlapsStartOf o = true ↔ r.Has o.lo ∧ ¬ r.Has o.hi) ∧
      (r.overlapsEndOf o = true ↔ r.Has o.hi ∧ ¬ r.Has o.lo)) := by
  have kr := hr.key_le
  have ko := ho.key_le
  have R1 : inK r (key r.lo) := ⟨Nat.le_refl _, kr⟩
  have R2 : inK r (key r.hi) := ⟨kr, Nat.le_refl _⟩
  have O1 : inK o (key o.lo) := ⟨Nat.le_refl _, ko⟩
  have O2 : inK o (key o.hi) := ⟨ko, Nat.le_refl _⟩
  have hh := has_iff hr
  have hho := has_iff ho
  have cov : (∀ i, r.Has i → o.Has i) ↔ key o.lo ≤ key r.lo ∧ key r.hi ≤ key o.hi := by
    constructor
    · intro h
      have h1 := (hho _).1 (h r.lo ((hh _).2 R1))
      have h2 := (hho _).1 (h r.hi ((hh _).2 R2))
      exact ⟨h1.1, h2.2⟩
    · rintro ⟨h1, h2⟩ i hi
      rw [hho]
      rw [hh] at hi
      unfold inK at *
      omega
  refine ⟨?_, ?_, ?_, ?_⟩
  · unfold Rng.entirelyBefore
    rw [less_iff]
    constructor
    · intro h i j hi hj
      rw [before_iff]
      rw [hh] at hi
      rw [hho] at hj
      unfold inK at hi hj
      omega
    · intro h
      exact before_iff.1 (h r.hi o.lo ((hh _).2 R2) ((hho _).2 O1))
  · unfold Rng.coveredBy
    rw [Bool.and_eq_true, lessOrEq_iff, lessOrEq_iff, cov]
  · unfold Rng.inMiddleOf
    rw [Bool.and_eq_true, less_iff, less_iff, cov, hh, hh]
    unfold inK
    omega
  · rintro ⟨i, hi1, hi2⟩
    rw [hh] at hi1
    rw [hho] at hi2
    unfold Rng.overlapsStartOf Rng.overlapsEndOf
    rw [Bool.and_eq_true, Bool.and_eq_true, less_iff, less_iff, lessOrEq_iff, lessOrEq_iff, hh, hh]
    unfold inK at *
    omega

/-- **C35** For valid ranges a case of the builder's switch applies. -/
theorem C35_switch_exhaustive (rin rout : Rng P) :
    rout.entirelyBefore rin = true ∨ rin.entirelyBefore rout = true ∨ rin.coveredBy rout = true ∨
    rout.inMiddleOf rin = true ∨ rout.overlapsStartOf rin = true ∨ rout.overlapsEndOf rin = true := by
  unfold Rng.entirelyBefore Rng.coveredBy Rng.inMiddleOf Rng.overlapsStartOf Rng.overlapsEndOf
  simp only [Bool.and_eq_true, less_iff, lessOrEq_iff]
  omega

example : (rangeFrom 3 5 : Rng id16).inMiddleOf (rangeFrom 1 9) = true := by decide
example : (rangeFrom 1 9 : Rng id16).Valid := by unfold Rng.Valid; decide

end Verif.Id
