import Verif.Id.Ranges

/-! What `IDs` of a range does in id64, whose mask of length 0 keeps the upper 32 bits. -/

namespace Verif.Id

theorem sameHalf_common {r : Rng id64} (h : SameHalf r) :
    1 ≤ leadingZeros (r.lo.id ^^^ r.hi.id) :=
  (le_common (show 1 ≤ id64.W by decide) _ _).2 h

theorem notSame_common {r : Rng id64} (h : ¬ SameHalf r) :
    leadingZeros (r.lo.id ^^^ r.hi.id) = 0 := by
  rcases Nat.eq_zero_or_pos (leadingZeros (r.lo.id ^^^ r.hi.id)) with h0 | h0
  · exact h0
  · exact absurd ((le_common (show 1 ≤ id64.W by decide) _ _).1 h0) h

theorem mask64_zero : id64.mask6[0]? = some (hiMask id64.W 32) := by
  show some _ = some _
  decide

theorem compare_zero {P : Pkg} {k : Nat} (hk : k ≤ P.W) (hW : 0 < P.W)
    (hm : P.mask6[0]? = some (hiMask P.W k)) {a b : BitVec P.W} (h0 : leadingZeros (a ^^^ b) = 0) :
    ∃ z, compareIDs a b = some (0, z) ∧
      (z = true ↔ 2 ^ k ∣ a.toNat ∧ b.toNat % 2 ^ k = 2 ^ k - 1) := by
  unfold compareIDs
  have hne : ¬ (0 = P.W) := by omega
  simp only [h0, hm, hne, if_false]
  refine ⟨_, rfl, ?_⟩
  rw [Bool.and_eq_true, beq_iff_eq, beq_iff_eq, xor_and_eq_zero, or_hiMask_eq hk]
  have e2 : (a &&& hiMask P.W k = a) ↔ 2 ^ k ∣ a.toNat := by
    have h1 := toNat_and_hiMask a k
    constructor
    · intro h2
      rw [h2] at h1
      exact ⟨_, h1.trans (Nat.mul_comm _ _)⟩
    · intro h2
      apply BitVec.eq_of_toNat_eq
      exact h1.trans (Nat.div_mul_cancel h2)
  rw [e2]

theorem compare64 {r : Rng id64} (h : ¬ SameHalf r) :
    ∃ z, compareIDs r.lo.id r.hi.id = some (0, z) ∧
      (z = true ↔ 2 ^ 32 ∣ r.lo.id.toNat ∧ 2 ^ 32 ∣ r.hi.id.toNat + 1) := by
  obtain ⟨z, h1, h2⟩ := compare_zero (k := 32) (by decide) (by decide) mask64_zero (notSame_common h)
  refine ⟨z, h1, h2.trans ?_⟩
  omega

/-- the wrong case -/
theorem ids64_misread {r : Rng id64} (h : Misread r) : r.ids = some [⟨r.lo.id, 0⟩] := by
  obtain ⟨z, hz, hzt⟩ := compare64 h.1
  rw [hzt.2 h.2] at hz
  unfold Rng.ids appendRangeIDs
  simp only [hz]
  rfl

/-- the first step when the ends lie in different halves -/
theorem ids64_split {r : Rng id64} (h : ¬ SameHalf r) (hm : ¬ Misread r) :
    ∃ L1 L2 : List (MyId id64), ∃ a' b' : BitVec id64.W, r.ids = some (L1 ++ L2) ∧
      L1 ≠ [] ∧
      a'.toNat = r.lo.id.toNat / 2 ^ 63 * 2 ^ 63 + (2 ^ 63 - 1) ∧
      b'.toNat = r.hi.id.toNat / 2 ^ 63 * 2 ^ 63 ∧
      Tiles 64 (L1.map toPair) r.lo.id.toNat (a'.toNat + 1) ∧
      Maximal 64 (L1.map toPair) r.lo.id.toNat (a'.toNat + 1) ∧
      Tiles 64 (L2.map toPair) b'.toNat (r.hi.id.toNat + 1) ∧
      Maximal 64 (L2.map toPair) b'.toNat (r.hi.id.toNat + 1) ∧
      (∀ p ∈ L1 ++ L2, 1 ≤ p.len) := by
  obtain ⟨z, hz, hzt⟩ := compare64 h
  have hzf : z = false := by
    rw [← Bool.not_eq_true, hzt]
    exact fun h2 => hm ⟨h, h2⟩
  subst hzf
  have hm1 : id64.mask6[0 + 1]? = some (hiMask id64.W 63) := mask64_at (l := 1) (by decide) (by decide)
  have ea := toNat_or_not_hiMask (W := id64.W) (k := 63) (by decide) r.lo.id
  have eb := toNat_and_hiMask (W := id64.W) r.hi.id 63
  generalize hA : r.lo.id ||| ~~~hiMask id64.W 63 = a' at ea
  generalize hB : r.hi.id &&& hiMask id64.W 63 = b' at eb
  have hx : r.ids = (match appendRangeIDs (P := id64) 64 [] r.lo.id a' with
        | none => none
        | some dst => appendRangeIDs (P := id64) 64 dst b' r.hi.id) := by
    rw [Rng.ids, show id64.W + 1 = 64 + 1 from rfl, appendRangeIDs]
    simp only [hz, bitsSetFrom, bitsClearedFrom, hm1, Option.map_some]
    rw [hA, hB]
    cases appendRangeIDs (P := id64) 64 [] r.lo.id a' <;> rfl
  have haa : r.lo.id.toNat ≤ a'.toNat := by rw [ea]; omega
  have hbb : b'.toNat ≤ r.hi.id.toNat := by rw [eb]; omega
  have ca : 1 ≤ leadingZeros (r.lo.id ^^^ a') := by
    refine (le_common (W := id64.W) (by decide) _ _).2 ?_
    show r.lo.id.toNat / 2 ^ 63 = a'.toNat / 2 ^ 63
    rw [ea]; omega
  have cb : 1 ≤ leadingZeros (b' ^^^ r.hi.id) := by
    refine (le_common (W := id64.W) (by decide) _ _).2 ?_
    show b'.toNat / 2 ^ 63 = r.hi.id.toNat / 2 ^ 63
    rw [eb]; omega
  obtain ⟨L1, l1, n1, m1, t1, x1⟩ := appendRangeIDs_spec (P := id64) (m0 := 1) (fun l => mask64_at) 64 [] r.lo.id a'
    haa ca (by show 64 < 64 + _; omega)
  obtain ⟨L2, l2, n2, m2, t2, x2⟩ := appendRangeIDs_spec (P := id64) (m0 := 1) (fun l => mask64_at) 64 L1 b' r.hi.id
    hbb cb (by show 64 < 64 + _; omega)
  refine ⟨L1, L2, a', b', ?_, n1, ea, eb, t1, x1, t2, x2, ?_⟩
  · rw [hx, l1]; simp only [List.nil_append, l2]
  · intro p hp
    rcases List.mem_append.1 hp with hp | hp
    · exact m1 p hp
    · exact m2 p hp

/-- ranges with their ends in order that are decomposed properly -/
theorem ids64_spec (r : Rng id64) (h : r.lo.id ≤ r.hi.id) (hm : ¬ Misread r ∨ Whole r) :
    ∃ L, r.ids = some L ∧ L ≠ [] ∧
      Tiles 64 (L.map toPair) r.lo.id.toNat (r.hi.id.toNat + 1) ∧
      Maximal 64 (L.map toPair) r.lo.id.toNat (r.hi.id.toNat + 1) := by
  by_cases hs : SameHalf r
  · obtain ⟨L, h1, h2, _, h4, h5⟩ := ids_spec (m0 := 1) (fun l => mask64_at) r h (sameHalf_common hs)
    exact ⟨L, h1, h2, h4, h5⟩
  by_cases hmis : Misread r
  · obtain ⟨w1, w2⟩ := hm.resolve_left (fun h => h hmis)
    have e1 : r.lo.id.toNat = 0 := by rw [w1]; rfl
    have e2 : r.hi.id.toNat + 1 = 2 ^ 64 := by rw [w2]; rfl
    refine ⟨_, ids64_misread hmis, by simp, ?_, ?_⟩
    · rw [e1, e2]
      show Tiles 64 [(r.lo.id.toNat, 0)] 0 (0 + 2 ^ (64 - 0))
      rw [e1]
      exact .cons (by decide) (by decide) (.nil _)
    · intro z l _ _ h3 h4
      refine ⟨(r.lo.id.toNat, 0), by simp [toPair], h3, ?_⟩
      simp only
      rw [e1]
      omega
  · obtain ⟨L1, L2, a', b', e, n1, ea, eb, t1, x1, t2, x2, _⟩ := ids64_split hs hmis
    have hle : r.lo.id.toNat ≤ r.hi.id.toNat := h
    have hs' : ¬ (r.lo.id.toNat / 2 ^ 63 = r.hi.id.toNat / 2 ^ 63) := hs
    have hlt : r.hi.id.toNat < 2 ^ 64 := r.hi.id.isLt
    have e1 : a'.toNat + 1 = b'.toNat := by omega
    have e2 : b'.toNat = 2 ^ 63 := by omega
    rw [e1] at t1 x1
    refine ⟨L1 ++ L2, e, by simp [n1], ?_, ?_⟩
    · rw [List.map_append]; exact t1.append t2
    · rw [List.map_append]
      intro z l hl hd hz1 hz2
      rcases Nat.eq_zero_or_pos l with rfl | hpos
      · exfalso
        have hd' : 2 ^ 64 ∣ z := hd
        have hz2' : z + 2 ^ 64 ≤ r.hi.id.toNat + 1 := hz2
        apply hmis
        refine ⟨hs, ?_, ?_⟩
        · rw [show r.lo.id.toNat = 0 by omega]; decide
        · rw [show r.hi.id.toNat + 1 = 2 ^ 64 by omega]; decide
      · have hbd : 2 ^ 63 ∣ b'.toNat := by rw [e2]; exact Nat.dvd_refl _
        rcases block_side hd hbd (by omega) with h | h
        · obtain ⟨p, hp, q⟩ := x1 z l hl hd hz1 h
          exact ⟨p, List.mem_append_left _ hp, q⟩
        · obtain ⟨p, hp, q⟩ := x2 z l hl hd h hz2
          exact ⟨p, List.mem_append_right _ hp, q⟩

end Verif.Id
