import Verif.Id.Model
import Verif.Id.Spec

/-! `ParseRange` and `String`. -/

namespace Verif.Id
variable {P : Pkg}

/-- value of a digit string continued from `n` -/
def contValue : Nat → List UInt8 → Option Nat
  | n, [] => some n
  | n, c :: cs => if 48 ≤ c ∧ c ≤ 57 then contValue (10 * n + (c.toNat - 48)) cs else none

theorem digit_iff {c : UInt8} : (48 ≤ c ∧ c ≤ 57) ↔ ∃ d, Digit c d := by
  constructor
  · rintro ⟨h1, h2⟩
    have h1' : 48 ≤ c.toNat := h1
    have h2' : c.toNat ≤ 57 := h2
    exact ⟨c.toNat - 48, by omega, by omega⟩
  · rintro ⟨d, h1, h2⟩
    refine ⟨?_, ?_⟩
    · show 48 ≤ c.toNat; omega
    · show c.toNat ≤ 57; omega

theorem contValue_ge {n v s} (h : contValue n s = some v) : n ≤ v := by
  induction s generalizing n with
  | nil => simp [contValue] at h; omega
  | cons c cs ih =>
    unfold contValue at h
    split at h
    · have := ih h; omega
    · exact absurd h (by simp)

theorem contValue_snoc {n s c} : contValue n (s ++ [c]) =
    (contValue n s).bind (fun m => if 48 ≤ c ∧ c ≤ 57 then some (10 * m + (c.toNat - 48)) else none) := by
  induction s generalizing n with
  | nil => simp [contValue]
  | cons b bs ih =>
    simp only [List.cons_append, contValue]
    split
    · exact ih
    · rfl

theorem numeral_iff {s v} : Numeral s v ↔ s ≠ [] ∧ contValue 0 s = some v := by
  constructor
  · intro h
    induction h with
    | digit hd =>
      refine ⟨by simp, ?_⟩
      simp only [contValue, digit_iff.2 ⟨_, hd⟩, and_self, if_true]
      have := hd.1; simp; omega
    | more hs hd ih =>
      refine ⟨by simp, ?_⟩
      rw [contValue_snoc, ih.2]
      simp only [Option.bind_some, digit_iff.2 ⟨_, hd⟩, and_self, if_true]
      have := hd.1; simp; omega
  · rintro ⟨h1, h2⟩
    have key : ∀ m (s : List UInt8), s.length = m + 1 → ∀ v, contValue 0 s = some v → Numeral s v := by
      intro m
      induction m with
      | zero =>
        intro s hl v hv
        obtain ⟨c, rfl⟩ := List.length_eq_one_iff.1 hl
        unfold contValue at hv
        split at hv
        · rename_i hc
          obtain ⟨d, hd⟩ := digit_iff.1 hc
          simp only [contValue, Option.some.injEq] at hv
          have := hd.1
          have : v = d := by omega
          subst this
          exact .digit hd
        · exact absurd hv (by simp)
      | succ m ih =>
        intro s hl v hv
        have hne : s ≠ [] := by rintro rfl; simp at hl
        rw [← List.dropLast_concat_getLast hne] at hv ⊢
        have hlen : s.dropLast.length = m + 1 := by rw [List.length_dropLast]; omega
        generalize s.dropLast = t at *
        generalize s.getLast hne = c at *
        rw [contValue_snoc] at hv
        cases hn : contValue 0 t with
        | none => rw [hn] at hv; simp at hv
        | some n =>
          rw [hn] at hv
          simp only [Option.bind_some] at hv
          split at hv
          · rename_i hc
            obtain ⟨d, hd⟩ := digit_iff.1 hc
            have h3 := hd.1
            simp only [Option.some.injEq] at hv
            have : v = 10 * n + d := by omega
            subst this
            exact .more (ih t hlen n hn) hd
          · exact absurd hv (by simp)
    have hl : s.length ≠ 0 := by simpa using h1
    exact key (s.length - 1) s (by omega) v h2

theorem cutoff_toNat : (BitVec.allOnes 64 / 10 + 1 : BitVec 64).toNat = 1844674407370955162 := by
  decide

theorem maxVal_toNat {W : Nat} (hW : 0 < W) (hW2 : W ≤ 64) :
    (((1 : BitVec 64) <<< W) - 1).toNat = 2 ^ W - 1 := by
  have hp : 1 < 2 ^ W := Nat.one_lt_two_pow (by omega)
  by_cases h : W = 64
  · subst h; decide
  · have : 2 ^ W < 2 ^ 64 := Nat.pow_lt_pow_right (by decide) (by omega)
    have e : ((1 : BitVec 64) <<< W).toNat = 2 ^ W := by
      rw [BitVec.toNat_shiftLeft, Nat.shiftLeft_eq]
      show 1 * 2 ^ W % 2 ^ 64 = _
      rw [Nat.one_mul, Nat.mod_eq_of_lt this]
    rw [BitVec.toNat_sub_of_le (by rw [BitVec.le_def, e]; show 1 ≤ _; omega), e]
    rfl

theorem parseUintLoop_iff {W : Nat} (hW : 0 < W) (hW2 : W ≤ 64) (s : List UInt8) :
    ∀ n : BitVec 64, n.toNat < 2 ^ W → ∀ v : BitVec 64,
      (parseUintLoop W n s = some v ↔ contValue n.toNat s = some v.toNat ∧ v.toNat < 2 ^ W) := by
  induction s with
  | nil =>
    intro n hn v
    simp only [parseUintLoop, contValue, Option.some.injEq]
    constructor
    · rintro rfl; exact ⟨rfl, hn⟩
    · rintro ⟨h, _⟩; exact BitVec.eq_of_toNat_eq h
  | cons c cs ih =>
    intro n hn v
    unfold parseUintLoop contValue
    split
    · rename_i hc
      have hc2 : 48 ≤ c.toNat := hc.1
      have hc3 : c.toNat ≤ 57 := hc.2
      have hd : (BitVec.ofNat 64 (c - 48).toNat).toNat = c.toNat - 48 := by
        have : (c - 48).toNat = c.toNat - 48 := UInt8.toNat_sub_of_le _ _ hc.1
        rw [this, BitVec.toNat_ofNat, Nat.mod_eq_of_lt (by omega)]
      simp only
      have hWle : 2 ^ W ≤ 2 ^ 64 := Nat.pow_le_pow_right (by decide) hW2
      have hno : 2 ^ W ≤ 10 * n.toNat + (c.toNat - 48) → ¬ (contValue (10 * n.toNat + (c.toNat - 48)) cs = some v.toNat ∧ v.toNat < 2 ^ W) := by
        rintro h ⟨h1, h2⟩
        have := contValue_ge h1
        omega
      split
      · rename_i hcut
        have hcut' : 1844674407370955162 ≤ n.toNat := by
          rw [← cutoff_toNat]; exact hcut
        constructor
        · intro h; exact absurd h (by simp)
        · intro h
          refine absurd h (hno ?_)
          have : (2:Nat) ^ 64 = 18446744073709551616 := by decide
          omega
      · rename_i hcut
        have hcut' : n.toNat < 1844674407370955162 := by
          rw [← cutoff_toNat]; exact Nat.lt_of_not_le hcut
        have em : (n * 10).toNat = 10 * n.toNat := by
          rw [BitVec.toNat_mul, Nat.mul_comm]
          show 10 * n.toNat % 2 ^ 64 = _
          rw [Nat.mod_eq_of_lt (by omega)]
        have e1 : (n * 10 + BitVec.ofNat 64 (c - 48).toNat).toNat =
            (10 * n.toNat + (c.toNat - 48)) % 2 ^ 64 := by
          rw [BitVec.toNat_add, em, hd]
        have p64 : (2:Nat) ^ 64 = 18446744073709551616 := by decide
        split
        · rename_i hov
          constructor
          · intro h; exact absurd h (by simp)
          · intro h
            refine absurd h (hno ?_)
            rcases hov with hov | hov
            · have : (n * 10 + BitVec.ofNat 64 (c - 48).toNat).toNat < (n * 10).toNat := hov
              rw [e1, em] at this
              omega
            · have : (((1 : BitVec 64) <<< W) - 1).toNat < (n * 10 + BitVec.ofNat 64 (c - 48).toNat).toNat := hov
              rw [e1, maxVal_toNat hW hW2] at this
              omega
        · rename_i hov
          have h1 : ¬ (n * 10 + BitVec.ofNat 64 (c - 48).toNat).toNat < (n * 10).toNat :=
            fun h => hov (.inl h)
          have h2 : ¬ (((1 : BitVec 64) <<< W) - 1).toNat < (n * 10 + BitVec.ofNat 64 (c - 48).toNat).toNat :=
            fun h => hov (.inr h)
          rw [e1, em] at h1
          rw [e1, maxVal_toNat hW hW2] at h2
          have e2 : (10 * n.toNat + (c.toNat - 48)) % 2 ^ 64 = 10 * n.toNat + (c.toNat - 48) := by
            omega
          rw [ih _ (by rw [e1]; omega), e1, e2]
    · simp

theorem parseUint_iff {W : Nat} (hW : 0 < W) (hW2 : W ≤ 64) (s : List UInt8) (v : BitVec 64) :
    parseUint s W = some v ↔ Numeral s v.toNat ∧ v.toNat < 2 ^ W := by
  unfold parseUint
  rw [numeral_iff]
  split
  · rename_i h; simp [h]
  · rename_i h
    rw [parseUintLoop_iff hW hW2 s 0 (Nat.two_pow_pos W) v]
    simp [h]

theorem indexByte_eq_some {s : List UInt8} {b : UInt8} {h : Nat} :
    indexByte s b = some h ↔ ∃ u v, s = u ++ b :: v ∧ b ∉ u ∧ u.length = h := by
  induction s generalizing h with
  | nil => simp [indexByte]
  | cons c cs ih =>
    unfold indexByte
    split
    · rename_i hc
      subst hc
      constructor
      · rintro h; simp at h; exact ⟨[], cs, rfl, by simp, by simpa using h⟩
      · rintro ⟨u, v, h1, h2, h3⟩
        cases u with
        | nil => simp at h3; simp [h3]
        | cons x xs => simp at h1; simp [h1.1] at h2
    · rename_i hc
      constructor
      · intro h
        rw [Option.map_eq_some_iff] at h
        obtain ⟨k, hk, rfl⟩ := h
        obtain ⟨u, v, rfl, h2, h3⟩ := ih.1 hk
        exact ⟨c :: u, v, rfl, by simp [h2, Ne.symm hc], by simp [h3]⟩
      · rintro ⟨u, v, h1, h2, h3⟩
        cases u with
        | nil => simp at h1; exact absurd h1.1 hc
        | cons x xs =>
          simp at h1 h2 h3
          rw [Option.map_eq_some_iff]
          exact ⟨xs.length, ih.2 ⟨xs, v, h1.2, h2.2, rfl⟩, h3⟩

theorem parseRange_iff (hW : 0 < P.W) (hW2 : P.W ≤ 64) (s : List UInt8) (r : Rng P) :
    parseRange s = some r ↔ ∃ u v a b, s = u ++ 45 :: v ∧ (45 : UInt8) ∉ u ∧ Numeral u a ∧
      Numeral v b ∧ a < 2 ^ P.W ∧ b < 2 ^ P.W ∧ r = ⟨⟨BitVec.ofNat _ a, P.W⟩, ⟨BitVec.ofNat _ b, P.W⟩⟩ := by
  have hsw : ∀ x : BitVec 64, x.setWidth P.W = BitVec.ofNat P.W x.toNat := fun x => by
    apply BitVec.eq_of_toNat_eq; simp
  unfold parseRange
  constructor
  · intro h
    cases hi : indexByte s 45 with
    | none => simp only [hi] at h; exact absurd h (by simp)
    | some k =>
      obtain ⟨u, v, rfl, h2, rfl⟩ := indexByte_eq_some.1 hi
      simp only [hi] at h
      rw [List.take_left, show u ++ 45 :: v = (u ++ [45]) ++ v by simp,
        List.drop_left' (by simp)] at h
      cases ha : parseUint u P.W with
      | none => simp only [ha] at h; exact absurd h (by simp)
      | some a =>
        cases hb : parseUint v P.W with
        | none => simp only [ha, hb] at h; exact absurd h (by simp)
        | some b =>
          simp only [ha, hb, Option.some.injEq] at h
          obtain ⟨a1, a2⟩ := (parseUint_iff hW hW2 u a).1 ha
          obtain ⟨b1, b2⟩ := (parseUint_iff hW hW2 v b).1 hb
          exact ⟨u, v, a.toNat, b.toNat, rfl, h2, a1, b1, a2, b2, by rw [← h, hsw, hsw]⟩
  · rintro ⟨u, v, a, b, rfl, h2, na, nb, la, lb, rfl⟩
    have hle : 2 ^ P.W ≤ 2 ^ 64 := Nat.pow_le_pow_right (by decide) hW2
    have ea : (BitVec.ofNat 64 a).toNat = a := by
      rw [BitVec.toNat_ofNat, Nat.mod_eq_of_lt (by omega)]
    have eb : (BitVec.ofNat 64 b).toNat = b := by
      rw [BitVec.toNat_ofNat, Nat.mod_eq_of_lt (by omega)]
    have hi : indexByte (u ++ 45 :: v) 45 = some u.length := indexByte_eq_some.2 ⟨u, v, rfl, h2, rfl⟩
    have pa := (parseUint_iff hW hW2 u (BitVec.ofNat 64 a)).2 (by rw [ea]; exact ⟨na, la⟩)
    have pb := (parseUint_iff hW hW2 v (BitVec.ofNat 64 b)).2 (by rw [eb]; exact ⟨nb, lb⟩)
    simp only [hi]
    rw [List.take_left, show u ++ 45 :: v = (u ++ [45]) ++ v by simp,
        List.drop_left' (by simp), pa]
    simp only [pb, hsw, ea, eb]

theorem toNat_digit {d : Nat} (h : d < 10) : (UInt8.ofNat (48 + d)).toNat = 48 + d := by
  rw [UInt8.toNat_ofNat']
  exact Nat.mod_eq_of_lt (by omega)

theorem numeral_fmtUint (n : Nat) : Numeral (fmtUint n) n := by
  induction n using Nat.strongRecOn with
  | ind n ih =>
    unfold fmtUint
    split
    · rename_i h
      exact .digit ⟨toNat_digit h, h⟩
    · rename_i h
      have hm : n % 10 < 10 := Nat.mod_lt _ (by decide)
      have := Numeral.more (ih (n / 10) (by omega)) (c := UInt8.ofNat (48 + n % 10)) (d := n % 10)
        ⟨toNat_digit hm, hm⟩
      rwa [Nat.div_add_mod] at this

theorem Numeral.no_hyphen {s n} (h : Numeral s n) : (45 : UInt8) ∉ s := by
  have hd : ∀ {c d}, Digit c d → (45 : UInt8) ≠ c := by
    rintro c d ⟨h1, _⟩ rfl
    have : (45 : UInt8).toNat = 45 := rfl
    omega
  induction h with
  | digit h => simpa using hd h
  | more _ h ih => simp [ih, hd h]

end Verif.Id
