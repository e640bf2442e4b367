import Verif.Id.Bits
import Verif.Id.Spec

/-! `Range.IDs` decomposes a range into maximal prefixes. -/

namespace Verif.Id
variable {P : Pkg}

/-! ### Nat level -/

theorem pow_split {W c : Nat} (h : c < W) : 2 ^ (W - c) = 2 * 2 ^ (W - (c + 1)) := by
  have := Nat.pow_succ (n := 2) (m := W - (c + 1))
  rw [show (W - (c + 1)).succ = W - c by omega] at this
  omega

/-- a list of (value, length) tiles the half open interval -/
inductive Tiles (W : Nat) : List (Nat × Nat) → Nat → Nat → Prop
  | nil (x) : Tiles W [] x x
  | cons {x len L y} : len ≤ W → 2 ^ (W - len) ∣ x → Tiles W L (x + 2 ^ (W - len)) y →
      Tiles W ((x, len) :: L) x y

theorem Tiles.append {W L M x y z} (h1 : Tiles W L x y) (h2 : Tiles W M y z) :
    Tiles W (L ++ M) x z := by
  induction h1 with
  | nil => exact h2
  | cons a b _ ih => exact .cons a b (ih h2)

theorem Tiles.le {W L x y} (h : Tiles W L x y) : x ≤ y := by
  induction h with
  | nil => exact Nat.le_refl _
  | cons _ _ _ ih => omega

/-- `q` is in the block of `p` -/
def blk (W : Nat) (p : Nat × Nat) (x : Nat) : Prop := p.1 ≤ x ∧ x < p.1 + 2 ^ (W - p.2)

theorem Tiles.mem_le {W L x y} (h : Tiles W L x y) :
    ∀ p ∈ L, x ≤ p.1 ∧ p.1 + 2 ^ (W - p.2) ≤ y ∧ p.2 ≤ W ∧ 2 ^ (W - p.2) ∣ p.1 := by
  induction h with
  | nil => simp
  | cons a b ht ih =>
    intro p hp
    have := ht.le
    rcases List.mem_cons.1 hp with rfl | hp
    · exact ⟨Nat.le_refl _, this, a, b⟩
    · obtain ⟨h1, h2, h3, h4⟩ := ih p hp
      exact ⟨by omega, h2, h3, h4⟩

theorem Tiles.cover {W L x y} (h : Tiles W L x y) (z : Nat) :
    (∃ p ∈ L, blk W p z) ↔ (x ≤ z ∧ z < y) := by
  induction h with
  | nil => simp
  | cons a b ht ih =>
    rename_i x len L y
    have := ht.le
    have hpos := Nat.two_pow_pos (W - len)
    simp only [List.mem_cons, exists_eq_or_imp, ih]
    unfold blk
    simp only
    omega

theorem Tiles.sorted {W L x y} (h : Tiles W L x y) :
    L.Pairwise (fun p q => p.1 + 2 ^ (W - p.2) ≤ q.1) := by
  induction h with
  | nil => exact .nil
  | cons a b ht ih =>
    rw [List.pairwise_cons]
    exact ⟨fun q hq => (ht.mem_le q hq).1, ih⟩

/-- maximality: every aligned block inside `[x,y)` is inside a listed one -/
def Maximal (W : Nat) (L : List (Nat × Nat)) (x y : Nat) : Prop :=
  ∀ z l, l ≤ W → 2 ^ (W - l) ∣ z → x ≤ z → z + 2 ^ (W - l) ≤ y →
    ∃ p ∈ L, p.1 ≤ z ∧ z + 2 ^ (W - l) ≤ p.1 + 2 ^ (W - p.2)

/-- two aligned blocks: the smaller one lies on one side of an aligned point -/
theorem block_side {W l k z m : Nat} (hl : 2 ^ (W - l) ∣ z) (hm : 2 ^ k ∣ m) (hk : W - l ≤ k) :
    z + 2 ^ (W - l) ≤ m ∨ m ≤ z := by
  have hd : 2 ^ (W - l) ∣ m := Nat.dvd_trans (Nat.pow_dvd_pow 2 hk) hm
  obtain ⟨u, hu⟩ := hl
  obtain ⟨v, hv⟩ := hd
  by_cases h : u < v
  · left
    rw [hu, hv, ← Nat.mul_succ]
    exact Nat.mul_le_mul_left _ h
  · right
    rw [hu, hv]
    exact Nat.mul_le_mul_left _ (Nat.le_of_not_lt h)

/-- the shape of one recursion step, at the level of natural numbers -/
theorem split_step {W c a b : Nat} (hc : c < W) (hab : a ≤ b)
    (hcom : a / 2 ^ (W - c) = b / 2 ^ (W - c))
    (hnc : a / 2 ^ (W - (c + 1)) ≠ b / 2 ^ (W - (c + 1))) :
    let k := 2 ^ (W - (c + 1))
    a / k * k + (k - 1) + 1 = b / k * k ∧ a ≤ a / k * k + (k - 1) ∧ b / k * k ≤ b ∧
    (a / k * k) = a / (2 * k) * (2 * k) ∧ b / k * k = a / (2 * k) * (2 * k) + k := by
  intro k
  have hk : 2 ^ (W - c) = 2 * k := pow_split hc
  have hpos : 0 < k := Nat.two_pow_pos _
  rw [hk] at hcom
  change a / k ≠ b / k at hnc
  have e1 := Nat.div_add_mod a k
  have e2 := Nat.mod_lt a hpos
  have e3 := Nat.div_add_mod b k
  have e4 := Nat.mod_lt b hpos
  have d1 : a / (2 * k) = a / k / 2 := by rw [Nat.mul_comm, Nat.div_div_eq_div_mul]
  have d2 : b / (2 * k) = b / k / 2 := by rw [Nat.mul_comm, Nat.div_div_eq_div_mul]
  rw [d1, d2] at hcom
  have hle : a / k ≤ b / k := Nat.div_le_div_right hab
  have hlt : a / k < b / k := Nat.lt_of_le_of_ne hle hnc
  have hq : a / k = 2 * (a / k / 2) := by omega
  have hr : b / k = 2 * (a / k / 2) + 1 := by omega
  rw [d1]
  generalize a / k / 2 = q at *
  rw [hq] at e1 ⊢
  rw [hr] at e3 ⊢
  have m1 : (2 * q + 1) * k = 2 * q * k + k := by rw [Nat.add_mul, Nat.one_mul]
  have m2 : q * (2 * k) = 2 * q * k := by rw [Nat.mul_left_comm, ← Nat.mul_assoc]
  have m3 : k * (2 * q) = 2 * q * k := Nat.mul_comm _ _
  have m4 : k * (2 * q + 1) = 2 * q * k + k := by rw [Nat.mul_comm, m1]
  rw [m1, m2]
  rw [m3] at e1
  rw [m4] at e3
  omega

/-! ### the code -/

theorem compareIDs_eq {a b : BitVec P.W} (hab : a ≤ b)
    (hm : MaskAt P (leadingZeros (a ^^^ b)) ∨ leadingZeros (a ^^^ b) = P.W) :
    ∃ z, compareIDs a b = some (leadingZeros (a ^^^ b), z) ∧
      (z = true ↔ 2 ^ (P.W - leadingZeros (a ^^^ b)) ∣ a.toNat ∧
        b.toNat + 1 = a.toNat + 2 ^ (P.W - leadingZeros (a ^^^ b))) := by
  have hc : leadingZeros (a ^^^ b) ≤ P.W := leadingZeros_le _
  have hcom := (le_common hc a b).1 (Nat.le_refl _)
  have hab' : a.toNat ≤ b.toNat := hab
  unfold compareIDs
  by_cases hW : leadingZeros (a ^^^ b) = P.W
  · simp only [hW, if_true]
    refine ⟨true, rfl, ?_⟩
    rw [hW] at hcom
    simp at hcom ⊢
    omega
  · have hm := hm.resolve_right hW
    unfold MaskAt at hm
    simp only [hW, if_false, hm]
    generalize leadingZeros (a ^^^ b) = c at *
    refine ⟨_, rfl, ?_⟩
    rw [Bool.and_eq_true, beq_iff_eq, beq_iff_eq, xor_and_eq_zero, or_hiMask_eq (by omega)]
    have e : (a &&& hiMask P.W (P.W - c) = a) ↔ 2 ^ (P.W - c) ∣ a.toNat := by
      constructor
      · intro h
        have := toNat_and_hiMask a (P.W - c)
        rw [h] at this
        exact ⟨_, this.trans (Nat.mul_comm _ _)⟩
      · intro h
        apply BitVec.eq_of_toNat_eq
        rw [toNat_and_hiMask]
        exact Nat.div_mul_cancel h
    rw [e]
    have hp := Nat.two_pow_pos (P.W - c)
    have e1 := Nat.div_add_mod a.toNat (2 ^ (P.W - c))
    have e3 := Nat.div_add_mod b.toNat (2 ^ (P.W - c))
    have e2 := Nat.mod_lt b.toNat hp
    rw [hcom] at e1
    constructor
    · rintro ⟨h1, h2⟩
      have h3 := Nat.mod_eq_zero_of_dvd h1
      exact ⟨h1, by omega⟩
    · rintro ⟨h1, h2⟩
      have h3 := Nat.mod_eq_zero_of_dvd h1
      exact ⟨h1, by omega⟩

/-- value and length as natural numbers -/
def toPair (p : MyId P) : Nat × Nat := (p.id.toNat, p.len)

theorem appendRangeIDs_spec {m0 : Nat} (hm : ∀ l, m0 ≤ l → l ≤ P.W → MaskAt P l) (fuel : Nat) :
    ∀ (dst : List (MyId P)) (a b : BitVec P.W), a ≤ b → m0 ≤ leadingZeros (a ^^^ b) →
      P.W < fuel + leadingZeros (a ^^^ b) →
      ∃ L, appendRangeIDs fuel dst a b = some (dst ++ L) ∧ L ≠ [] ∧
        (∀ p ∈ L, m0 ≤ p.len) ∧
        Tiles P.W (L.map toPair) a.toNat (b.toNat + 1) ∧
        Maximal P.W (L.map toPair) a.toNat (b.toNat + 1) := by
  induction fuel with
  | zero =>
    intro dst a b _ _ h
    have := leadingZeros_le (a ^^^ b)
    omega
  | succ n ih =>
    intro dst a b hab hm0 hf
    have hc : leadingZeros (a ^^^ b) ≤ P.W := leadingZeros_le _
    have hcom := (le_common hc a b).1 (Nat.le_refl _)
    obtain ⟨z, hz, hzt⟩ := compareIDs_eq hab (Or.inl (hm _ hm0 hc))
    have hncom : ∀ c, leadingZeros (a ^^^ b) < c → c ≤ P.W →
        a.toNat / 2 ^ (P.W - c) ≠ b.toNat / 2 ^ (P.W - c) := by
      intro c h1 h2 h3
      have := (le_common h2 a b).2 h3
      omega
    have hab' : a.toNat ≤ b.toNat := hab
    have hble := b.isLt
    generalize hcd : leadingZeros (a ^^^ b) = c at *
    unfold appendRangeIDs
    cases z with
    | true =>
      obtain ⟨h1, h2⟩ := hzt.1 rfl
      simp only [hz]
      refine ⟨_, rfl, by simp, by simpa using hm0, ?_, ?_⟩
      · rw [h2]
        exact .cons hc h1 (.nil _)
      · intro x l _ _ h3 h4
        refine ⟨(a.toNat, c), by simp [toPair], h3, ?_⟩
        rw [← h2]; exact h4
    | false =>
      have hnt : ¬ (2 ^ (P.W - c) ∣ a.toNat ∧ b.toNat + 1 = a.toNat + 2 ^ (P.W - c)) := by
        intro h; exact absurd (hzt.2 h) (by simp)
      have hcW : c < P.W := by
        apply Nat.lt_of_le_of_ne hc
        intro h
        rw [h] at hcom hnt
        simp at hcom hnt
        omega
      have hmc := hm (c + 1) (by omega) (by omega)
      unfold MaskAt at hmc
      simp only [hz, bitsSetFrom, bitsClearedFrom, hmc, Option.map_some]
      obtain ⟨s1, s2, s3, s4, s5⟩ := split_step hcW hab' hcom (hncom (c + 1) (by omega) (by omega))
      have ea := toNat_or_not_hiMask (k := P.W - (c + 1)) (Nat.sub_le _ _) a
      have eb := toNat_and_hiMask b (P.W - (c + 1))
      have hk := pow_split hcW
      generalize hA : a ||| ~~~hiMask P.W (P.W - (c + 1)) = a' at *
      generalize hB : b &&& hiMask P.W (P.W - (c + 1)) = b' at *
      have hkp : 0 < 2 ^ (P.W - (c + 1)) := Nat.two_pow_pos _
      rw [← ea] at s1 s2
      rw [← eb] at s1 s3 s5
      have ca : c + 1 ≤ leadingZeros (a ^^^ a') := by
        rw [le_common (by omega), ea, Nat.add_comm (_ * _), Nat.add_mul_div_right _ _ hkp,
          Nat.div_eq_of_lt (Nat.sub_lt hkp (by decide)), Nat.zero_add]
      have cb : c + 1 ≤ leadingZeros (b' ^^^ b) := by
        rw [le_common (by omega), eb, Nat.mul_div_cancel _ hkp]
      obtain ⟨L1, l1, n1, m1, t1, x1⟩ := ih dst a a' s2 (by omega) (by omega)
      obtain ⟨L2, l2, n2, m2, t2, x2⟩ := ih (dst ++ L1) b' b s3 (by omega) (by omega)
      simp only [l1, l2]
      refine ⟨L1 ++ L2, by rw [List.append_assoc], by simp [n1], ?_, ?_, ?_⟩
      · intro p hp
        rcases List.mem_append.1 hp with hp | hp
        · exact m1 p hp
        · exact m2 p hp
      · rw [List.map_append]
        rw [s1] at t1
        exact t1.append t2
      · rw [List.map_append]
        intro z l hl hd hz1 hz2
        rw [s1] at x1
        rcases Nat.lt_or_ge c l with hcl | hcl
        · have hbd : 2 ^ (P.W - (c + 1)) ∣ b'.toNat := ⟨_, eb.trans (Nat.mul_comm _ _)⟩
          rcases block_side hd hbd (by omega) with h | h
          · obtain ⟨p, hp, q⟩ := x1 z l hl hd hz1 h
            exact ⟨p, List.mem_append_left _ hp, q⟩
          · obtain ⟨p, hp, q⟩ := x2 z l hl hd h hz2
            exact ⟨p, List.mem_append_right _ hp, q⟩
        · exfalso
          apply hnt
          have hle : 2 ^ (P.W - c) ≤ 2 ^ (P.W - l) := Nat.pow_le_pow_right (by decide) (by omega)
          have hd' : 2 ^ (P.W - c) ∣ z := Nat.dvd_trans (Nat.pow_dvd_pow 2 (by omega)) hd
          have e1 := Nat.div_add_mod a.toNat (2 ^ (P.W - c))
          have e3 := Nat.div_add_mod b.toNat (2 ^ (P.W - c))
          have e2 := Nat.mod_lt b.toNat (Nat.two_pow_pos (P.W - c))
          rw [hcom] at e1
          have hzk : 2 ^ (P.W - c) * (b.toNat / 2 ^ (P.W - c)) = z := by
            obtain ⟨v, hv⟩ := hd'
            have hzb : z / 2 ^ (P.W - c) = b.toNat / 2 ^ (P.W - c) := by
              apply Nat.le_antisymm
              · exact Nat.div_le_div_right (by omega)
              · rw [← hcom]; exact Nat.div_le_div_right hz1
            rw [← hzb, hv, Nat.mul_div_cancel_left _ (Nat.two_pow_pos _)]
          refine ⟨?_, by omega⟩
          rw [show a.toNat = z by omega]
          exact hd'

/-- `IDs()` of a range whose ends are in order -/
theorem ids_spec {m0 : Nat} (hm : ∀ l, m0 ≤ l → l ≤ P.W → MaskAt P l) (r : Rng P)
    (h : r.lo.id ≤ r.hi.id) (hc : m0 ≤ leadingZeros (r.lo.id ^^^ r.hi.id)) :
    ∃ L, r.ids = some L ∧ L ≠ [] ∧ (∀ p ∈ L, m0 ≤ p.len) ∧
      Tiles P.W (L.map toPair) r.lo.id.toNat (r.hi.id.toNat + 1) ∧
      Maximal P.W (L.map toPair) r.lo.id.toNat (r.hi.id.toNat + 1) := by
  obtain ⟨L, h1, h2⟩ := appendRangeIDs_spec hm (P.W + 1) [] r.lo.id r.hi.id h hc (by omega)
  exact ⟨L, by simpa [Rng.ids] using h1, h2⟩

/-- blocks of aligned prefixes are intervals -/
theorem covers_iff_blk {p : MyId P} (h : 2 ^ (P.W - p.len) ∣ p.id.toNat) (x : BitVec P.W) :
    Covers p x ↔ blk P.W (toPair p) x.toNat := by
  unfold Covers blk toPair
  simp only
  obtain ⟨v, hv⟩ := h
  have hp := Nat.two_pow_pos (P.W - p.len)
  rw [hv, Nat.mul_div_cancel_left _ hp, Nat.div_eq_iff hp]
  rw [Nat.mul_comm]
  omega

/-- the specification from the tiling -/
theorem Tiles.decomposes {L : List (MyId P)} {a b : BitVec P.W}
    (h : Tiles P.W (L.map toPair) a.toNat (b.toNat + 1)) : Decomposes L a b := by
  have hal : ∀ p ∈ L, Aligned p := by
    intro p hp
    have := h.mem_le (toPair p) (List.mem_map_of_mem hp)
    exact ⟨this.2.2.1, this.2.2.2⟩
  refine ⟨hal, ?_, ?_⟩
  · have := h.sorted
    rw [List.pairwise_map] at this
    have := List.Pairwise.and_mem.1 this
    refine this.imp ?_
    intro p q ⟨hp, hq, hpq⟩ x y hx hy
    rw [covers_iff_blk (hal p hp).2] at hx
    rw [covers_iff_blk (hal q hq).2] at hy
    unfold blk at hx hy
    show x.toNat < y.toNat
    omega
  · intro x
    have := h.cover x.toNat
    show _ ↔ (a.toNat ≤ x.toNat ∧ x.toNat ≤ b.toNat)
    rw [show (x.toNat ≤ b.toNat ↔ x.toNat < b.toNat + 1) by omega, ← this]
    constructor
    · rintro ⟨p, hp, hx⟩
      exact ⟨toPair p, List.mem_map_of_mem hp, (covers_iff_blk (hal p hp).2 x).1 hx⟩
    · rintro ⟨q, hq, hx⟩
      obtain ⟨p, hp, rfl⟩ := List.mem_map.1 hq
      exact ⟨p, hp, (covers_iff_blk (hal p hp).2 x).2 hx⟩

end Verif.Id
