import Verif.Id.Props

/-!
Property C90, the part about the identifiers: what `IDs` of a range yields whose ends are in the wrong order.
`ParseRange` and `RangeFrom` accept such ranges and the trees claim what `IDs` yields.
-/

namespace Verif.Id
variable {P : Pkg}

/-- the code for `to < from`: one list from `from` to the end of the smallest block with both ends, then one from the
start of this block to `to` -/
theorem ids_inverted {m0 : Nat} (hm : ∀ l, m0 ≤ l → l ≤ P.W → MaskAt P l) (r : Rng P)
    (h : r.hi.id < r.lo.id) (hc : m0 ≤ leadingZeros (r.lo.id ^^^ r.hi.id)) :
    ∃ (L1 L2 : List (MyId P)) (bot top : BitVec P.W) (c : Nat), r.ids = some (L1 ++ L2) ∧
      Decomposes L1 r.lo.id top ∧ Decomposes L2 bot r.hi.id ∧ c < P.W ∧
      c = leadingZeros (r.lo.id ^^^ r.hi.id) ∧
      2 ^ (P.W - c) ∣ bot.toNat ∧ top.toNat + 1 = bot.toNat + 2 ^ (P.W - c) ∧
      bot.toNat ≤ r.hi.id.toNat ∧ r.lo.id.toNat ≤ top.toNat := by
  generalize ha : r.lo.id = a at *
  generalize hb : r.hi.id = b at *
  have hlt : b.toNat < a.toNat := h
  have hcW' : leadingZeros (a ^^^ b) ≤ P.W := leadingZeros_le _
  have hcom := (le_common hcW' a b).1 (Nat.le_refl _)
  have hncom : ∀ c, leadingZeros (a ^^^ b) < c → c ≤ P.W →
      a.toNat / 2 ^ (P.W - c) ≠ b.toNat / 2 ^ (P.W - c) := by
    intro c h1 h2 h3
    have := (le_common h2 a b).2 h3
    omega
  have hcW : leadingZeros (a ^^^ b) < P.W := by
    apply Nat.lt_of_le_of_ne hcW'
    intro he
    rw [he] at hcom
    simp at hcom
    omega
  have hm1 := hm _ hc hcW'
  have hm2 := hm (leadingZeros (a ^^^ b) + 1) (by omega) (by omega)
  have hcmp : compareIDs a b = some (leadingZeros (a ^^^ b), false) := by
    unfold compareIDs
    unfold MaskAt at hm1
    simp only [Nat.ne_of_lt hcW, if_false, hm1]
    congr 2
    rw [Bool.and_eq_false_iff]
    generalize leadingZeros (a ^^^ b) = c at *
    rw [← Bool.not_eq_true, ← Bool.not_eq_true, ← Classical.not_and_iff_not_or_not]
    rw [beq_iff_eq, beq_iff_eq, xor_and_eq_zero, or_hiMask_eq (by omega)]
    rintro ⟨h1, h2⟩
    have h3 := toNat_and_hiMask a (P.W - c)
    rw [h1] at h3
    have e3 := Nat.div_add_mod b.toNat (2 ^ (P.W - c))
    rw [← hcom, Nat.mul_comm, ← h3] at e3
    omega
  generalize hcd : leadingZeros (a ^^^ b) = c at *
  unfold MaskAt at hm2
  obtain ⟨s1, s2, s3, s4, s5⟩ := split_step hcW (Nat.le_of_lt hlt) hcom.symm (fun e => hncom (c + 1) (by omega) (by omega) e.symm)
  have ea := toNat_or_not_hiMask (k := P.W - (c + 1)) (Nat.sub_le _ _) a
  have eb := toNat_and_hiMask b (P.W - (c + 1))
  have hk := pow_split hcW
  have hkp : 0 < 2 ^ (P.W - (c + 1)) := Nat.two_pow_pos _
  have hx : r.ids = (match appendRangeIDs P.W [] a (a ||| ~~~hiMask P.W (P.W - (c + 1))) with
        | none => none
        | some dst => appendRangeIDs P.W dst (b &&& hiMask P.W (P.W - (c + 1))) b) := by
    unfold Rng.ids
    rw [ha, hb]
    rw [appendRangeIDs]
    simp only [hcmp, bitsSetFrom, bitsClearedFrom, hm2, Option.map_some]
    all_goals split <;> simp_all
  generalize hA : a ||| ~~~hiMask P.W (P.W - (c + 1)) = a' at *
  generalize hB : b &&& hiMask P.W (P.W - (c + 1)) = b' at *
  have ca : c + 1 ≤ leadingZeros (a ^^^ a') := by
    rw [le_common (by omega), ea, Nat.add_comm (_ * _), Nat.add_mul_div_right _ _ hkp,
      Nat.div_eq_of_lt (Nat.sub_lt hkp (by decide)), Nat.zero_add]
  have cb : c + 1 ≤ leadingZeros (b' ^^^ b) := by
    rw [le_common (by omega), eb, Nat.mul_div_cancel _ hkp]
  have hbb : b' ≤ b := by
    show b'.toNat ≤ b.toNat
    rw [eb]; exact Nat.div_mul_le_self _ _
  have haa : a ≤ a' := by
    show a.toNat ≤ a'.toNat
    have := Nat.div_add_mod a.toNat (2 ^ (P.W - (c + 1)))
    have := Nat.mod_lt a.toNat hkp
    rw [ea]
    have := Nat.mul_comm (a.toNat / 2 ^ (P.W - (c + 1))) (2 ^ (P.W - (c + 1)))
    omega
  obtain ⟨L1, l1, -, -, t1, -⟩ := appendRangeIDs_spec hm P.W [] a a' haa (by omega) (by omega)
  obtain ⟨L2, l2, -, -, t2, -⟩ := appendRangeIDs_spec hm P.W L1 b' b hbb (by omega) (by omega)
  refine ⟨L1, L2, b', a', c, ?_, t1.decomposes, t2.decomposes, hcW, rfl, ?_, ?_, hbb, haa⟩
  · rw [hx, l1]; simp only [List.nil_append, l2]
  · rw [eb, s4, hk]; exact ⟨_, Nat.mul_comm _ _⟩
  · rw [ea, eb, hk]
    omega

/-- `bot` to `top` is the block of `q`, and no smaller prefix has both `x` and `y` -/
structure SmallestBlock (q : MyId P) (x y bot top : BitVec P.W) : Prop where
  aligned : Aligned q
  block : ∀ z, Covers q z ↔ bot ≤ z ∧ z ≤ top
  left : Covers q x
  right : Covers q y
  smallest : ∀ q' : MyId P, q'.len ≤ P.W → Covers q' x → Covers q' y → ∀ z, Covers q z → Covers q' z

theorem smallestBlock_of {a b bot top : BitVec P.W} {c : Nat} (hcW : c ≤ P.W) (hc : c = leadingZeros (a ^^^ b))
    (hd : 2 ^ (P.W - c) ∣ bot.toNat) (ht : top.toNat + 1 = bot.toNat + 2 ^ (P.W - c)) (hb : bot.toNat ≤ b.toNat)
    (hb' : b.toNat ≤ top.toNat) (ha : bot.toNat ≤ a.toNat) (ha' : a.toNat ≤ top.toNat) :
    SmallestBlock (P := P) ⟨bot, c⟩ a b bot top := by
  have hblk : ∀ z, Covers (P := P) ⟨bot, c⟩ z ↔ bot ≤ z ∧ z ≤ top := by
    intro z
    rw [covers_iff_blk (p := ⟨bot, c⟩) hd]
    unfold blk toPair
    rw [BitVec.le_def, BitVec.le_def]
    simp only
    omega
  refine ⟨⟨hcW, hd⟩, hblk, (hblk a).2 ⟨ha, ha'⟩, (hblk b).2 ⟨hb, hb'⟩, ?_⟩
  intro q' hq hx hy z hz
  have h1 : q'.len ≤ c := by
    rw [hc, le_common hq]
    exact (hx : a.toNat / _ = _).trans (hy : b.toNat / _ = _).symm
  have h2 : a.toNat / 2 ^ (P.W - c) = z.toNat / 2 ^ (P.W - c) :=
    (((hblk a).2 ⟨ha, ha'⟩ : Covers _ _) : a.toNat / _ = _).trans (hz : z.toNat / _ = _).symm
  have e : 2 ^ (P.W - q'.len) = 2 ^ (P.W - c) * 2 ^ (c - q'.len) := by
    rw [← Nat.pow_add]; congr 1; omega
  show z.toNat / _ = _
  have h3 : a.toNat / 2 ^ (P.W - q'.len) = q'.id.toNat / 2 ^ (P.W - q'.len) := hx
  rw [← h3, e, ← Nat.div_div_eq_div_mul, ← Nat.div_div_eq_div_mul, h2]

/-- what the list of a range with the ends in the wrong order is: the smallest block with both ends, without the values
between the ends -/
def Wraps (L : List (MyId P)) (lo hi : BitVec P.W) : Prop :=
  ∃ (L1 L2 : List (MyId P)) (bot top : BitVec P.W) (q : MyId P), L = L1 ++ L2 ∧ SmallestBlock q lo hi bot top ∧
    Decomposes L1 lo top ∧ Decomposes L2 bot hi

/-- the values that such a list covers -/
theorem Wraps.cover {L : List (MyId P)} {lo hi : BitVec P.W} (h : Wraps L lo hi) :
    ∃ q : MyId P, Covers q lo ∧ Covers q hi ∧
      (∀ q' : MyId P, q'.len ≤ P.W → Covers q' lo → Covers q' hi → ∀ z, Covers q z → Covers q' z) ∧
      ∀ x, (∃ p ∈ L, Covers p x) ↔ Covers q x ∧ (lo ≤ x ∨ x ≤ hi) := by
  obtain ⟨L1, L2, bot, top, q, rfl, hq, h1, h2⟩ := h
  refine ⟨q, hq.left, hq.right, hq.smallest, fun x => ?_⟩
  have c1 := h1.cover x
  have c2 := h2.cover x
  have b1 := (hq.block lo).1 hq.left
  have b2 := (hq.block hi).1 hq.right
  rw [hq.block]
  simp only [List.mem_append, BitVec.le_def] at *
  constructor
  · rintro ⟨p, hp | hp, hc⟩
    · have := c1.1 ⟨p, hp, hc⟩
      omega
    · have := c2.1 ⟨p, hp, hc⟩
      omega
  · rintro ⟨⟨h3, h4⟩, h5 | h5⟩
    · obtain ⟨p, hp, hc⟩ := c1.2 ⟨h5, h4⟩
      exact ⟨p, .inl hp, hc⟩
    · obtain ⟨p, hp, hc⟩ := c2.2 ⟨h3, h5⟩
      exact ⟨p, .inr hp, hc⟩

theorem wraps_of {m0 : Nat} (hm : ∀ l, m0 ≤ l → l ≤ P.W → MaskAt P l) (r : Rng P)
    (h : r.hi.id < r.lo.id) (hc : m0 ≤ leadingZeros (r.lo.id ^^^ r.hi.id)) :
    ∃ L, r.ids = some L ∧ Wraps L r.lo.id r.hi.id := by
  obtain ⟨L1, L2, bot, top, c, e, d1, d2, hcW, hcd, hd, ht, hb, ha⟩ := ids_inverted hm r h hc
  have hlt : r.hi.id.toNat < r.lo.id.toNat := h
  exact ⟨_, e, L1, L2, bot, top, ⟨bot, c⟩, rfl,
    smallestBlock_of (Nat.le_of_lt hcW) hcd hd ht hb (by omega) (by omega) ha, d1, d2⟩

/-- **C90** (id16, id32) `IDs()` of a range whose ends are in the wrong order does not panic. It lists the prefixes from
the first end up to the end of the smallest block with both ends, then those from the start of this block up to the
second end. -/
theorem C90_ids (hP : P = id16 ∨ P = id32) (r : Rng P) (h : r.hi.id < r.lo.id) :
    ∃ L, r.ids = some L ∧ Wraps L r.lo.id r.hi.id :=
  wraps_of (m0 := 0) (fun l _ => (good_of hP).mask l) r h (Nat.zero_le _)

example : (rangeFrom 18 5 : Rng id16).ids = some [⟨18, 15⟩, ⟨20, 14⟩, ⟨24, 13⟩, ⟨0, 14⟩, ⟨4, 15⟩] := by decide

/-- **C90, partial** id64, unless the ends lie on different sides of `2^63`, the first at the start of a block of `2^32`
values and the second at the end of one. In this case the list consists of one prefix of length 0. -/
theorem C90_ids64_partial (r : Rng id64) (h : r.hi.id < r.lo.id) :
    (¬ Misread r → ∃ L, r.ids = some L ∧ Wraps L r.lo.id r.hi.id) ∧
    (Misread r → r.ids = some [⟨r.lo.id, 0⟩]) := by
  refine ⟨fun hm => ?_, ids64_misread⟩
  by_cases hs : SameHalf r
  · exact wraps_of (m0 := 1) (fun _ => mask64_at) r h (sameHalf_common hs)
  · obtain ⟨L1, L2, a', b', e, _, ea, eb, t1, _, t2, _, _⟩ := ids64_split hs hm
    have hlt : r.hi.id.toNat < r.lo.id.toNat := h
    have hs' : ¬ (r.lo.id.toNat / 2 ^ 63 = r.hi.id.toNat / 2 ^ 63) := hs
    have hlo : r.lo.id.toNat < 2 ^ 64 := r.lo.id.isLt
    have e1 : a'.toNat = 2 ^ 64 - 1 := by omega
    have e2 : b'.toNat = 0 := by omega
    refine ⟨_, e, L1, L2, b', a', ⟨b', 0⟩, rfl, ?_, Tiles.decomposes (P := id64) t1, Tiles.decomposes (P := id64) t2⟩
    refine smallestBlock_of (P := id64) (by decide) (notSame_common hs).symm ?_ ?_ (by omega) (by omega) (by omega)
      (by omega)
    · rw [e2]; exact Nat.dvd_zero _
    · rw [e1, e2]; decide

/-- **C90, violated** id64: the range from `2^63 + 2^32` to `2^32 - 1` yields the single prefix of length 0, which covers
everything, also the values between the ends. -/
theorem C90_ids64_violated :
    (rangeFrom 0x8000000100000000 0xffffffff : Rng id64).ids = some [⟨0x8000000100000000, 0⟩] ∧
    ¬ Wraps [(⟨0x8000000100000000, 0⟩ : MyId id64)] 0x8000000100000000 0xffffffff := by
  refine ⟨by decide, ?_⟩
  intro h
  obtain ⟨q, _, _, _, hx⟩ := h.cover
  have := ((hx 0x100000000).1 ⟨_, List.mem_cons_self, by unfold Covers; decide⟩).2
  exact absurd this (by decide)

end Verif.Id
