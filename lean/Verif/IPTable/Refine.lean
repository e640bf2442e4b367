import Verif.IPTable.Api
import Verif.IdxTable.Refine

/-! The IP table refines a partial map on its address range. -/

namespace Verif.IPTable
open Verif.IdxTable
variable {R : Type} {lo hi : Addr}

theorem ipToInt_v4 (a : BitVec 32) : ipToInt (.v4 a) = 0xffff00000000 + a.toNat := by
  have := a.isLt
  unfold ipToInt Addr.as16
  rw [BitVec.toNat_add, BitVec.toNat_setWidth]
  have h2 : BitVec.toNat (0xffff00000000 : BitVec 128) = 0xffff00000000 := rfl
  have h3 : a.toNat < 2 ^ 32 := this
  omega

theorem ipToInt_v6 (a : BitVec 128) (z : String) : ipToInt (.v6 a z) = a.toNat := by
  rw [ipToInt, Addr.as16]

theorem str_irrefl (s : String) : ¬ s < s := String.lt_irrefl s

/-- `Contains` of a range made by `IPRangeFrom` is membership in the interval -/
theorem contains_iff (lo hi a : Addr) : (ipRangeFrom lo hi).contains a = true ↔ InIP lo hi a := by
  cases lo with
  | zero => simp [ipRangeFrom, IPRange.contains, IPRange.isValid, Addr.noZone, Addr.isValid, InIP]
  | v4 f =>
    cases hi with
    | zero => simp [ipRangeFrom, IPRange.contains, IPRange.isValid, Addr.noZone, Addr.bitLen, InIP]
    | v6 t z => simp [ipRangeFrom, IPRange.contains, IPRange.isValid, Addr.noZone, Addr.bitLen, InIP]
    | v4 t =>
      have hf : (Addr.v4 f).as16.toNat = 0xffff00000000 + f.toNat := ipToInt_v4 f
      have ht : (Addr.v4 t).as16.toNat = 0xffff00000000 + t.toNat := ipToInt_v4 t
      cases a with
      | zero =>
        simp [ipRangeFrom, IPRange.contains, IPRange.isValid, Addr.noZone, Addr.bitLen, InIP,
          Addr.compare]
      | v6 b z =>
        simp [ipRangeFrom, IPRange.contains, IPRange.isValid, Addr.noZone, Addr.bitLen, InIP,
          Addr.compare]
      | v4 b =>
        have hb : (Addr.v4 b).as16.toNat = 0xffff00000000 + b.toNat := ipToInt_v4 b
        simp only [ipRangeFrom, IPRange.contains, IPRange.isValid, Addr.noZone, Addr.bitLen, InIP,
          Addr.compare, Addr.isValid, Addr.zone, hf, ht, hb, Nat.lt_irrefl, gt_iff_lt, if_false,
          str_irrefl, beq_self_eq_true, Bool.and_true, Bool.true_and, Bool.and_eq_true,
          Bool.not_eq_true', beq_eq_false_iff_ne, ne_eq]
        constructor
        · rintro ⟨⟨_, h2⟩, h3⟩
          split at h2
          · simp at h2
          split at h3
          · simp at h3
          omega
        · intro h
          refine ⟨⟨?_, ?_⟩, ?_⟩ <;> (split <;> [omega; (split <;> simp)])
  | v6 f z =>
    cases hi with
    | zero => simp [ipRangeFrom, IPRange.contains, IPRange.isValid, Addr.noZone, Addr.bitLen, InIP]
    | v4 t => simp [ipRangeFrom, IPRange.contains, IPRange.isValid, Addr.noZone, Addr.bitLen, InIP]
    | v6 t z' =>
      cases a with
      | zero =>
        simp [ipRangeFrom, IPRange.contains, IPRange.isValid, Addr.noZone, Addr.bitLen, InIP,
          Addr.compare]
      | v4 b =>
        simp [ipRangeFrom, IPRange.contains, IPRange.isValid, Addr.noZone, Addr.bitLen, InIP,
          Addr.compare]
      | v6 b zb =>
        simp only [ipRangeFrom, IPRange.contains, IPRange.isValid, Addr.noZone, Addr.bitLen, InIP,
          Addr.compare, Addr.isValid, Addr.zone, Addr.as16, Nat.lt_irrefl, gt_iff_lt, if_false,
          str_irrefl, beq_self_eq_true, Bool.and_true, Bool.true_and, Bool.and_eq_true,
          Bool.not_eq_true', beq_eq_false_iff_ne, ne_eq, beq_iff_eq]
        constructor
        · rintro ⟨⟨⟨_, rfl⟩, h2⟩, h3⟩
          split at h2
          · simp at h2
          split at h3
          · simp at h3
          exact ⟨by omega, by omega, rfl⟩
        · rintro ⟨h1, h2, rfl⟩
          refine ⟨⟨⟨?_, rfl⟩, ?_⟩, ?_⟩ <;>
            (split <;> [omega; (split <;> simp)])

/-- the address at offset `i` -/
def extA (lo : Addr) (i : U64) : Addr :=
  match lo with
  | .zero => .zero
  | .v4 f => .v4 (BitVec.ofNat 32 (f.toNat + i.toNat))
  | .v6 f _ => .v6 (BitVec.ofNat 128 (f.toNat + i.toNat)) ""

/-- the offset of an address -/
def idxA (lo a : Addr) : U64 := calculateIndex a lo.noZone

theorem idxA_toNat (hs : MidRange lo hi) {a : Addr} (h : InIP lo hi a) :
    (idxA lo a).toNat = num a - num lo ∧ num lo ≤ num a ∧ num a ≤ num hi := by
  unfold idxA calculateIndex
  match lo, hi, a, h, hs with
  | .v4 f, .v4 t, .v4 b, h, hs =>
    have h3 := t.isLt
    obtain ⟨h1, h2⟩ : f.toNat ≤ b.toNat ∧ b.toNat ≤ t.toNat := h
    simp only [Addr.noZone, ipToInt_v4, num, BitVec.toNat_ofNat]
    refine ⟨?_, h1, h2⟩
    omega
  | .v6 f _, .v6 t _, .v6 b _, h, hs =>
    obtain ⟨h1, h2, _⟩ : f.toNat ≤ b.toNat ∧ b.toNat ≤ t.toNat ∧ _ := h
    obtain ⟨h3, h4⟩ : f.toNat ≤ t.toNat ∧ t.toNat - f.toNat + 1 ≤ 2 ^ 64 := hs
    simp only [Addr.noZone, ipToInt_v6, num, BitVec.toNat_ofNat]
    refine ⟨?_, h1, h2⟩
    omega

theorem num_extA (hs : MidRange lo hi) {i : U64} (h : i.toNat ≤ num hi - num lo) :
    num (extA lo i) = num lo + i.toNat ∧ InIP lo hi (extA lo i) := by
  match lo, hi, hs, h with
  | .v4 f, .v4 t, hs, h =>
    have h3 := t.isLt
    have hs' : f.toNat ≤ t.toNat := hs
    simp only [num] at h
    simp only [extA, num, InIP, BitVec.toNat_ofNat]
    omega
  | .v6 f _, .v6 t _, hs, h =>
    have h3 := t.isLt
    obtain ⟨h1, h2⟩ : f.toNat ≤ t.toNat ∧ t.toNat - f.toNat + 1 ≤ 2 ^ 64 := hs
    simp only [num] at h
    simp only [extA, num, InIP, BitVec.toNat_ofNat]
    refine ⟨?_, ?_, ?_, trivial⟩ <;> omega

theorem num_inj {a b : Addr} (ha : InIP lo hi a) (hb : InIP lo hi b) (h : num a = num b) : a = b := by
  match lo, hi, a, b, ha, hb, h with
  | .v4 _, .v4 _, .v4 a, .v4 b, _, _, h => exact congrArg _ (BitVec.eq_of_toNat_eq h)
  | .v6 _ _, .v6 _ _, .v6 a z, .v6 b z', ha, hb, h =>
    obtain ⟨_, _, rfl⟩ : _ ∧ _ ∧ z = "" := ha
    obtain ⟨_, _, rfl⟩ : _ ∧ _ ∧ z' = "" := hb
    have : a = b := BitVec.eq_of_toNat_eq h
    rw [this]

theorem idxA_inj (hs : MidRange lo hi) {a b : Addr} (ha : InIP lo hi a) (hb : InIP lo hi b)
    (h : idxA lo a = idxA lo b) : a = b := by
  have h1 := idxA_toNat hs ha
  have h2 := idxA_toNat hs hb
  apply num_inj ha hb
  rw [h] at h1; omega

theorem idxA_extA (hs : MidRange lo hi) {i : U64} (h : i.toNat ≤ num hi - num lo) :
    idxA lo (extA lo i) = i := by
  have h1 := num_extA hs h
  have h2 := idxA_toNat hs h1.2
  apply BitVec.eq_of_toNat_eq; omega

theorem extA_idxA (hs : MidRange lo hi) {a : Addr} (h : InIP lo hi a) :
    extA lo (idxA lo a) = a := by
  have h2 := idxA_toNat hs h
  have h1 := num_extA hs (i := idxA lo a) (by omega)
  exact num_inj h1.2 h (by omega)

theorem calcIP (hs : MidRange lo hi) {i : U64} (h : i.toNat ≤ num hi - num lo) :
    calculateIPFromIndex lo.noZone i = some (extA lo i) := by
  match lo, hi, hs, h with
  | .v4 f, .v4 t, hs, h =>
    have h3 := t.isLt
    have hs' : f.toNat ≤ t.toNat := hs
    simp only [num] at h
    have e1 : ipToInt (Addr.v4 f).noZone = 0xffff00000000 + f.toNat := ipToInt_v4 f
    have hlt : 0xffff00000000 + f.toNat + i.toNat < 2 ^ 128 := by omega
    unfold calculateIPFromIndex
    simp only [e1, if_pos hlt]
    rw [if_pos (show (Addr.v4 f).noZone.is4 = true from rfl)]
    have e2 : (BitVec.ofNat 128 (0xffff00000000 + f.toNat + i.toNat)).toNat =
        0xffff00000000 + f.toNat + i.toNat := by
      rw [BitVec.toNat_ofNat]; omega
    rw [if_pos (by rw [e2]; omega)]
    simp only [extA]
    congr 2
    apply BitVec.eq_of_toNat_eq
    rw [BitVec.toNat_setWidth, e2, BitVec.toNat_ofNat]
    omega
  | .v6 f _, .v6 t _, hs, h =>
    have h3 := t.isLt
    obtain ⟨h1, h2⟩ : f.toNat ≤ t.toNat ∧ t.toNat - f.toNat + 1 ≤ 2 ^ 64 := hs
    simp only [num] at h
    have hlt : f.toNat + i.toNat < 2 ^ 128 := by omega
    unfold calculateIPFromIndex
    simp only [Addr.noZone, ipToInt_v6, if_pos hlt]
    rfl

/-- invariant of the states reachable from `New(lo, hi)` -/
structure IInv (lo hi : Addr) (r : IPTab R) : Prop where
  small : MidRange lo hi
  rng : r.ipRange = ipRangeFrom lo hi
  size : r.tab.size.toNat = (num hi - num lo + 1) % 2 ^ 64
  ents : ∀ i e, r.tab.m.get? i = some e → e.id = i ∧ i.toNat ≤ num hi - num lo

/-- fewer than `2^64` addresses -/
def NotFull (lo hi : Addr) : Prop := num hi - num lo + 1 < 2 ^ 64

theorem mid_of_small (h : SmallRange lo hi) : MidRange lo hi ∧ NotFull lo hi := by
  unfold NotFull
  match lo, hi, h with
  | .v4 f, .v4 t, h => exact ⟨h, by have := t.isLt; simp only [num]; omega⟩
  | .v6 f _, .v6 t _, h => exact ⟨⟨h.1, Nat.le_of_lt h.2⟩, h.2⟩

theorem num_le (h : MidRange lo hi) : num hi - num lo + 1 ≤ 2 ^ 64 := by
  match lo, hi, h with
  | .v4 f, .v4 t, h => have := t.isLt; simp only [num]; omega
  | .v6 f _, .v6 t _, h => exact h.2

theorem IInv.size' {r : IPTab R} (h : IInv lo hi r) (hf : NotFull lo hi) :
    r.tab.size.toNat = num hi - num lo + 1 := by
  rw [h.size, Nat.mod_eq_of_lt hf]

theorem IInv.inv {r : IPTab R} (h : IInv lo hi r) (hf : NotFull lo hi) : Inv r.tab := by
  have hs := h.size' hf
  refine ⟨?_, ?_⟩
  · intro h0; rw [h0] at hs; simp at hs
  · intro i e he
    obtain ⟨h1, h2⟩ := h.ents i e he
    exact ⟨h1, by rw [BitVec.lt_def]; omega⟩

theorem IInv.validate {r : IPTab R} (h : IInv lo hi r) {a : Addr} (ha : InIP lo hi a) :
    IdxTable.validate r.tab (idxA lo a) = .ok () := by
  have h2 := idxA_toNat h.small ha
  have h1 := h.size
  have h3 := num_le h.small
  unfold IdxTable.validate
  rw [if_neg]
  by_cases hf : num hi - num lo + 1 < 2 ^ 64
  · rw [Nat.mod_eq_of_lt hf] at h1; bv_omega
  · have : num hi - num lo + 1 = 2 ^ 64 := by omega
    rw [this] at h1
    bv_omega

/-- abstraction -/
def absI (r : IPTab R) : AMap R := fun a =>
  if r.ipRange.contains a then (r.tab.m.get? (calculateIndex a r.ipRange.lo)).map Entry.data
  else none

theorem IInv.abs_in {r : IPTab R} (h : IInv lo hi r) {a : Addr} (ha : InIP lo hi a) :
    absI r a = (r.tab.m.get? (idxA lo a)).map Entry.data := by
  unfold absI
  rw [h.rng, if_pos ((contains_iff lo hi a).2 ha)]
  rfl

theorem IInv.abs_out {r : IPTab R} (h : IInv lo hi r) {a : Addr} (ha : ¬ InIP lo hi a) :
    absI r a = none := by
  unfold absI
  rw [h.rng, if_neg (fun hc => ha ((contains_iff lo hi a).1 hc))]

theorem IInv.abs_some_in {r : IPTab R} (h : IInv lo hi r) {a : Addr} (ha : absI r a ≠ none) :
    InIP lo hi a := by
  apply Classical.byContradiction
  intro hn; exact ha (h.abs_out hn)

theorem validate_in {parse : String → Option Addr} {r : IPTab R} (h : IInv lo hi r) {x : String}
    {a : Addr} (hp : parse x = some a) (ha : InIP lo hi a) : validateIP parse r x = .ok a := by
  unfold validateIP
  rw [hp]
  simp only
  rw [h.rng, if_pos ((contains_iff lo hi a).2 ha)]

theorem validate_out {parse : String → Option Addr} {r : IPTab R}
    (h : r.ipRange = ipRangeFrom lo hi) {x : String}
    (hp : ∀ a, parse x = some a → ¬ InIP lo hi a) : ∃ e, validateIP parse r x = .error e := by
  unfold validateIP
  cases hx : parse x with
  | none => exact ⟨_, rfl⟩
  | some a =>
    simp only
    rw [h, if_neg (fun hc => hp a hx ((contains_iff lo hi a).1 hc))]
    exact ⟨_, rfl⟩

theorem IInv.lo_eq {r : IPTab R} (h : IInv lo hi r) : r.ipRange.lo = lo.noZone := by rw [h.rng]; rfl

theorem resolve_cases (parse : String → Option Addr) (lo hi : Addr) (x : String) :
    (∃ a, parse x = some a ∧ InIP lo hi a) ∨ (∀ a, parse x = some a → ¬ InIP lo hi a) := by
  by_cases h : ∃ a, parse x = some a ∧ InIP lo hi a
  · exact Or.inl h
  · exact Or.inr (fun a ha hin => h ⟨a, ha, hin⟩)

def setTab (r : IPTab R) (i : U64) (e : Entry R) : IPTab R :=
  { r with tab := { r.tab with m := r.tab.m.set i e } }

theorem abs_set {r : IPTab R} (h : IInv lo hi r) {a : Addr} (ha : InIP lo hi a) (d : R) :
    absI (setTab r (idxA lo a) ⟨idxA lo a, d⟩) = (absI r).put a d ∧
    IInv lo hi (setTab r (idxA lo a) ⟨idxA lo a, d⟩) := by
  have hinv : IInv lo hi (setTab r (idxA lo a) ⟨idxA lo a, d⟩) := by
    refine ⟨h.small, h.rng, h.size, ?_⟩
    intro i e he
    simp only [setTab, GoMap.get?_set] at he
    by_cases hi : i = idxA lo a
    · rw [if_pos hi] at he
      cases he
      have := idxA_toNat h.small ha
      exact ⟨hi.symm, by rw [hi]; omega⟩
    · rw [if_neg hi] at he; exact h.ents i e he
  refine ⟨?_, hinv⟩
  funext b
  by_cases hb : InIP lo hi b
  · rw [hinv.abs_in hb]
    simp only [setTab, GoMap.get?_set, AMap.put]
    by_cases hab : b = a
    · subst hab; simp
    · have : idxA lo b ≠ idxA lo a := fun he => hab (idxA_inj h.small hb ha he)
      rw [if_neg this, if_neg hab, h.abs_in hb]
  · have hne : b ≠ a := by intro he; subst he; exact hb ha
    rw [hinv.abs_out hb, AMap.put, if_neg hne, h.abs_out hb]

theorem mem_free {r : IPTab R} (h : IInv lo hi r) (hf : NotFull lo hi) (a : Addr) :
    AvailIP lo hi (absI r) a ↔ ∃ i, i ∈ freeKeys r.tab ∧ a = extA lo i := by
  have hsz := h.size' hf
  constructor
  · rintro ⟨ha, hn⟩
    rw [h.abs_in ha, Option.map_eq_none_iff] at hn
    refine ⟨idxA lo a, ?_, (extA_idxA h.small ha).symm⟩
    have := idxA_toNat h.small ha
    rw [mem_freeKeys, BitVec.lt_def]
    exact ⟨by omega, hn⟩
  · rintro ⟨i, hi', rfl⟩
    rw [mem_freeKeys, BitVec.lt_def] at hi'
    have hle : i.toNat ≤ num hi - num lo := by omega
    have := num_extA h.small hle
    refine ⟨this.2, ?_⟩
    rw [h.abs_in this.2, idxA_extA h.small hle, hi'.2]; rfl

theorem findFree_spec {r : IPTab R} (h : IInv lo hi r) (hf : NotFull lo hi) :
    (∃ a, LeastIP lo hi (absI r) a ∧ findFree r = .addr a) ∨
    ((∀ a, ¬ AvailIP lo hi (absI r) a) ∧ ∃ e, findFree r = .err e) := by
  have hsz := h.size' hf
  have hfe := IdxTable.findFree_eq r.tab
  cases hk : freeKeys r.tab with
  | nil =>
    right
    rw [hk] at hfe
    refine ⟨?_, ⟨.idx .noFree, by simp only [findFree, hfe]⟩⟩
    intro a
    rw [mem_free h hf, hk]; simp
  | cons x xs =>
    left
    rw [hk] at hfe
    have hx : x ∈ freeKeys r.tab := by rw [hk]; simp
    have hxf := hx
    rw [mem_freeKeys, BitVec.lt_def] at hx
    refine ⟨extA lo x, ⟨(mem_free h hf _).2 ⟨x, hxf, rfl⟩, ?_⟩, ?_⟩
    · intro b hb
      rw [mem_free h hf] at hb
      obtain ⟨y, hy, rfl⟩ := hb
      have hs := freeKeys_sorted r.tab
      rw [hk, List.pairwise_cons] at hs
      have hxy : x.toNat ≤ y.toNat := by
        rw [hk] at hy
        rcases List.mem_cons.1 hy with rfl | hy
        · exact Nat.le_refl _
        · have := hs.1 y hy; rw [BitVec.lt_def] at this; omega
      rw [mem_freeKeys, BitVec.lt_def] at hy
      rw [(num_extA h.small (i := x) (by omega)).1, (num_extA h.small (i := y) (by omega)).1]
      omega
    · simp only [findFree, hfe, h.lo_eq, calcIP h.small (i := x) (by omega)]

theorem getAllLoop_some (es : List (Entry R)) :
    getAllLoop (es.map some) = some (es.map Entry.data) := by
  induction es with
  | nil => rfl
  | cons e es ih => simp [getAllLoop, ih]

theorem getByLabelLoop_some (sel : R → Bool) (es : List (Entry R)) :
    getByLabelLoop sel (es.map some) = some ((es.map Entry.data).filter sel) := by
  induction es with
  | nil => rfl
  | cons e es ih =>
    simp only [List.map_cons, getByLabelLoop, ih]
    by_cases h : sel e.data = true <;> simp [h]

/-- the claimed addresses, ascending -/
def addrsOf (lo : Addr) (r : IPTab R) : List Addr := (sortKeys r.tab.m.keys).map (extA lo)

theorem key_le {r : IPTab R} (h : IInv lo hi r) {k : U64} (hk : k ∈ sortKeys r.tab.m.keys) :
    k.toNat ≤ num hi - num lo ∧ ∃ e, r.tab.m.get? k = some e := by
  rw [(sortKeys_perm _).mem_iff, ← GoMap.get?_isSome_iff, Option.isSome_iff_exists] at hk
  obtain ⟨e, he⟩ := hk
  exact ⟨(h.ents k e he).2, e, he⟩

theorem lists_addrs {r : IPTab R} (h : IInv lo hi r) : ListsIP (absI r) (addrsOf lo r) := by
  constructor
  · unfold addrsOf
    rw [List.pairwise_map]
    refine (sortKeys_pairwise_lt _ r.tab.m.keys_nodup).imp_of_mem ?_
    intro a b ha hb hab
    rw [BitVec.lt_def] at hab
    rw [(num_extA h.small (key_le h ha).1).1, (num_extA h.small (key_le h hb).1).1]
    omega
  · intro a
    unfold addrsOf
    rw [List.mem_map]
    constructor
    · rintro ⟨k, hk, rfl⟩
      obtain ⟨hle, e, he⟩ := key_le h hk
      rw [h.abs_in (num_extA h.small hle).2, idxA_extA h.small hle, he]
      simp
    · intro ha
      have hin := h.abs_some_in ha
      rw [h.abs_in hin] at ha
      refine ⟨idxA lo a, ?_, extA_idxA h.small hin⟩
      rw [(sortKeys_perm _).mem_iff, ← GoMap.get?_isSome_iff]
      cases hg : r.tab.m.get? (idxA lo a) with
      | none => rw [hg] at ha; exact absurd rfl ha
      | some e => rfl

theorem filterMap_addrs {r : IPTab R} (h : IInv lo hi r) :
    ((sortKeys r.tab.m.keys).filterMap r.tab.m.get?).map Entry.data =
      (addrsOf lo r).filterMap (absI r) := by
  unfold addrsOf
  rw [List.filterMap_map, List.map_filterMap]
  apply List.filterMap_congr
  intro k hk
  obtain ⟨hle, e, he⟩ := key_le h hk
  simp only [Function.comp_apply]
  rw [h.abs_in (num_extA h.small hle).2, idxA_extA h.small hle]

/-- The number of entries does not overflow, as `Iterate` counts them in a `uint64`. -/
def Counts (r : IPTab R) : Prop := r.tab.m.keys.length < 2 ^ 64

theorem IInv.counts {r : IPTab R} (h : IInv lo hi r) (hf : NotFull lo hi) : Counts r := (h.inv hf).keys_length_lt

theorem getAll_eq' {r : IPTab R} (h : IInv lo hi r) (hf : Counts r) :
    getAll r = some ((addrsOf lo r).filterMap (absI r)) := by
  unfold getAll
  rw [getAll_eq_of_len hf, getAllLoop_some, filterMap_addrs h]

theorem getByLabel_eq {r : IPTab R} (h : IInv lo hi r) (hf : Counts r) (sel : R → Bool) :
    getByLabel r sel = some (((addrsOf lo r).filterMap (absI r)).filter sel) := by
  unfold getByLabel
  rw [getAll_eq_of_len hf, getByLabelLoop_some, filterMap_addrs h]

/-- the calls that do not search or list -/
def Explicit : ICall R → Prop
  | .findFree | .getAll | .getByLabel _ => False
  | _ => True

theorem step_refines_explicit (parse : String → Option Addr) (r : IPTab R) (h : IInv lo hi r) (c : ICall R)
    (hc : Explicit c) :
    IStep parse lo hi (absI r) c (absI (step parse r c).1) (step parse r c).2 ∧
    IInv lo hi (step parse r c).1 := by
  cases c with
  | get x =>
    refine ⟨⟨rfl, ?_⟩, h⟩
    rcases resolve_cases parse lo hi x with ⟨a, hp, ha⟩ | hp
    · cases hg : absI r a with
      | none =>
        right
        refine ⟨fun b hb => by rw [hp] at hb; cases hb; exact hg, ?_⟩
        rw [h.abs_in ha, Option.map_eq_none_iff] at hg
        have hg' : r.tab.m.get? (calculateIndex a r.ipRange.lo) = none := by rw [h.lo_eq]; exact hg
        have hv : IdxTable.validate r.tab (calculateIndex a r.ipRange.lo) = .ok () := by
          rw [h.lo_eq]; exact h.validate ha
        simp only [step, get, validate_in h hp ha, IdxTable.get, hv, hg']
      | some d =>
        left
        refine ⟨a, d, hp, hg, ?_⟩
        rw [h.abs_in ha] at hg
        obtain ⟨e, he, rfl⟩ := Option.map_eq_some_iff.1 hg
        have hg' : r.tab.m.get? (calculateIndex a r.ipRange.lo) = some e := by
          rw [h.lo_eq]; exact he
        have hv : IdxTable.validate r.tab (calculateIndex a r.ipRange.lo) = .ok () := by
          rw [h.lo_eq]; exact h.validate ha
        simp only [step, get, validate_in h hp ha, IdxTable.get, hv, hg']
    · right
      obtain ⟨e, he⟩ := validate_out h.rng hp
      refine ⟨fun a ha => h.abs_out (hp a ha), ?_⟩
      simp only [step, get, he]
  | claim x d =>
    simp only [step]
    rcases resolve_cases parse lo hi x with ⟨a, hp, ha⟩ | hp
    · have hv : IdxTable.validate r.tab (calculateIndex a r.ipRange.lo) = .ok () := by
        rw [h.lo_eq]; exact h.validate ha
      cases hg : absI r a with
      | none =>
        have hav : AvailIP lo hi (absI r) a := ⟨ha, hg⟩
        rw [h.abs_in ha, Option.map_eq_none_iff] at hg
        have hg' : r.tab.m.get? (calculateIndex a r.ipRange.lo) = none := by rw [h.lo_eq]; exact hg
        have hc : claim parse r x d = (setTab r (idxA lo a) ⟨idxA lo a, d⟩, .ok ()) := by
          simp only [claim, validate_in h hp ha, IdxTable.isFree, isFreeB, hg', Option.isNone_none,
            Bool.not_true, Bool.false_eq_true, if_false, IdxTable.claim, add, hv, lift]
          rw [h.lo_eq]; rfl
        rw [hc]
        have := abs_set h ha d
        exact ⟨Or.inl ⟨a, hp, hav, this.1, rfl⟩, this.2⟩
      | some d' =>
        have hav : ¬ AvailIP lo hi (absI r) a := by rintro ⟨_, h2⟩; rw [hg] at h2; cases h2
        rw [h.abs_in ha] at hg
        obtain ⟨e, he, rfl⟩ := Option.map_eq_some_iff.1 hg
        have hg' : r.tab.m.get? (calculateIndex a r.ipRange.lo) = some e := by
          rw [h.lo_eq]; exact he
        have hc : claim parse r x d = (r, .error .claimed) := by
          simp [claim, validate_in h hp ha, IdxTable.isFree, isFreeB, hg']
        rw [hc]
        refine ⟨Or.inr ⟨?_, rfl, rfl⟩, h⟩
        intro b hb; rw [hp] at hb; cases hb; exact hav
    · obtain ⟨e, he⟩ := validate_out h.rng hp
      have hc : claim parse r x d = (r, .error e) := by simp only [claim, he]
      rw [hc]
      exact ⟨Or.inr ⟨fun a ha hav => hp a ha hav.1, rfl, rfl⟩, h⟩
  | release x =>
    simp only [step]
    rcases resolve_cases parse lo hi x with ⟨a, hp, ha⟩ | hp
    · have hv : IdxTable.validate r.tab (calculateIndex a r.ipRange.lo) = .ok () := by
        rw [h.lo_eq]; exact h.validate ha
      have hc : release parse r x =
          ({ r with tab := { r.tab with m := r.tab.m.del (idxA lo a) } }, .ok ()) := by
        simp only [release, validate_in h hp ha, IdxTable.release, delete, hv, lift]
        rw [h.lo_eq]; rfl
      rw [hc]
      have hinv : IInv lo hi { r with tab := { r.tab with m := r.tab.m.del (idxA lo a) } } := by
        refine ⟨h.small, h.rng, h.size, ?_⟩
        intro i e he
        simp only [GoMap.get?_del] at he
        by_cases hi : i = idxA lo a
        · rw [if_pos hi] at he; cases he
        · rw [if_neg hi] at he; exact h.ents i e he
      refine ⟨Or.inl ⟨a, hp, ha, ?_, rfl⟩, hinv⟩
      funext b
      by_cases hb : InIP lo hi b
      · rw [hinv.abs_in hb]
        simp only [GoMap.get?_del, AMap.drop]
        by_cases hab : b = a
        · subst hab; simp
        · have : idxA lo b ≠ idxA lo a := fun he => hab (idxA_inj h.small hb ha he)
          rw [if_neg this, if_neg hab, h.abs_in hb]
      · rw [hinv.abs_out hb, AMap.drop, h.abs_out hb]; simp
    · obtain ⟨e, he⟩ := validate_out h.rng hp
      have hc : release parse r x = (r, .error e) := by simp only [release, he]
      rw [hc]
      exact ⟨Or.inr ⟨hp, rfl, rfl⟩, h⟩
  | update x d =>
    simp only [step]
    rcases resolve_cases parse lo hi x with ⟨a, hp, ha⟩ | hp
    · have hv : IdxTable.validate r.tab (calculateIndex a r.ipRange.lo) = .ok () := by
        rw [h.lo_eq]; exact h.validate ha
      cases hg : absI r a with
      | none =>
        have hg0 := hg
        rw [h.abs_in ha, Option.map_eq_none_iff] at hg
        have hg' : r.tab.m.get? (calculateIndex a r.ipRange.lo) = none := by rw [h.lo_eq]; exact hg
        have hc : update parse r x d = (r, .error .notClaimed) := by
          simp [update, validate_in h hp ha, IdxTable.isFree, isFreeB, hg']
        rw [hc]
        refine ⟨Or.inr ⟨?_, rfl, rfl⟩, h⟩
        intro b hb; rw [hp] at hb; cases hb; exact hg0
      | some d' =>
        have hne : absI r a ≠ none := by rw [hg]; simp
        rw [h.abs_in ha] at hg
        obtain ⟨e, he, rfl⟩ := Option.map_eq_some_iff.1 hg
        have hg' : r.tab.m.get? (calculateIndex a r.ipRange.lo) = some e := by
          rw [h.lo_eq]; exact he
        have hc : update parse r x d = (setTab r (idxA lo a) ⟨idxA lo a, d⟩, .ok ()) := by
          simp only [update, validate_in h hp ha, IdxTable.isFree, isFreeB, hg', Option.isNone_some,
            Bool.false_eq_true, if_false, IdxTable.update, updateE, hv, lift]
          rw [h.lo_eq]; rfl
        rw [hc]
        have := abs_set h ha d
        exact ⟨Or.inl ⟨a, hp, hne, this.1, rfl⟩, this.2⟩
    · obtain ⟨e, he⟩ := validate_out h.rng hp
      have hc : update parse r x d = (r, .error e) := by simp only [update, he]
      rw [hc]
      exact ⟨Or.inr ⟨fun a ha => h.abs_out (hp a ha), rfl, rfl⟩, h⟩
  | size =>
    refine ⟨⟨rfl, _, lists_addrs h, ?_⟩, h⟩
    simp only [step, sizeOf, IdxTable.sizeOf, GoMap.len_eq_keys_length, addrsOf, List.length_map,
      (sortKeys_perm _).length_eq]
  | has x =>
    refine ⟨⟨rfl, _, ?_, rfl⟩, h⟩
    rcases resolve_cases parse lo hi x with ⟨a, hp, ha⟩ | hp
    · have : has parse r x = (r.tab.m.get? (idxA lo a)).isSome := by
        simp only [has, validate_in h hp ha, IdxTable.has, h.lo_eq]; rfl
      rw [this]
      constructor
      · intro hs
        refine ⟨a, hp, ?_⟩
        rw [h.abs_in ha]
        cases hg : r.tab.m.get? (idxA lo a) with
        | none => rw [hg] at hs; cases hs
        | some e => simp
      · rintro ⟨b, hb, hne⟩
        rw [hp] at hb; cases hb
        rw [h.abs_in ha] at hne
        cases hg : r.tab.m.get? (idxA lo a) with
        | none => rw [hg] at hne; exact absurd rfl hne
        | some e => rfl
    · obtain ⟨e, he⟩ := validate_out h.rng hp
      simp only [has, he, Bool.false_eq_true, false_iff]
      rintro ⟨a, ha, hne⟩
      exact hne (h.abs_out (hp a ha))
  | isFree x =>
    refine ⟨⟨rfl, _, ?_, rfl⟩, h⟩
    rcases resolve_cases parse lo hi x with ⟨a, hp, ha⟩ | hp
    · have : isFree parse r x = (r.tab.m.get? (idxA lo a)).isNone := by
        simp only [isFree, validate_in h hp ha, IdxTable.isFree, isFreeB, h.lo_eq]; rfl
      rw [this, Option.isNone_iff_eq_none]
      constructor
      · intro hs
        exact ⟨a, hp, ha, by rw [h.abs_in ha, hs]; rfl⟩
      · rintro ⟨b, hb, _, hne⟩
        rw [hp] at hb; cases hb
        rw [h.abs_in ha, Option.map_eq_none_iff] at hne
        exact hne
    · obtain ⟨e, he⟩ := validate_out h.rng hp
      simp only [isFree, he, Bool.false_eq_true, false_iff]
      rintro ⟨a, ha, hav⟩
      exact hp a ha hav.1
  | findFree | getAll | getByLabel _ => exact absurd hc (by simp [Explicit])

theorem step_refines (parse : String → Option Addr) (r : IPTab R) (h : IInv lo hi r)
    (hf : NotFull lo hi) (c : ICall R) :
    IStep parse lo hi (absI r) c (absI (step parse r c).1) (step parse r c).2 ∧
    IInv lo hi (step parse r c).1 := by
  cases c with
  | get _ | claim _ _ | release _ | update _ _ | has _ | isFree _ | size =>
    exact step_refines_explicit parse r h _ (by simp [Explicit])
  | findFree =>
    refine ⟨⟨rfl, ?_⟩, h⟩
    rcases findFree_spec h hf with ⟨a, hl, he⟩ | ⟨hn, e, he⟩
    · exact Or.inl ⟨a, hl, by simp only [step, he]⟩
    · exact Or.inr ⟨hn, by simp only [step, he]⟩
  | getAll =>
    exact ⟨⟨rfl, _, lists_addrs h, by simp only [step, getAll_eq' h (h.counts hf), replyRoutes]⟩, h⟩
  | getByLabel sel =>
    exact ⟨⟨rfl, _, lists_addrs h, by simp only [step, getByLabel_eq h (h.counts hf), replyRoutes]⟩, h⟩

theorem new_inv (hs : MidRange lo hi) : IInv lo hi (new lo hi : IPTab R) := by
  refine ⟨hs, rfl, ?_, ?_⟩
  · show (numIPs lo hi).toNat = _
    match lo, hi, hs with
    | .v4 f, .v4 t, hs =>
      have hs' : f.toNat ≤ t.toNat := hs
      have h3 := t.isLt
      simp only [numIPs, ipToInt_v4, num]
      rw [if_neg (by omega), BitVec.toNat_add, BitVec.toNat_ofNat]
      have : (1 : U64).toNat = 1 := rfl
      omega
    | .v6 f _, .v6 t _, hs =>
      obtain ⟨h1, h2⟩ : f.toNat ≤ t.toNat ∧ t.toNat - f.toNat + 1 ≤ 2 ^ 64 := hs
      simp only [numIPs, ipToInt_v6, num]
      rw [if_neg (by omega), BitVec.toNat_add, BitVec.toNat_ofNat]
      have : (1 : U64).toNat = 1 := rfl
      omega
  · intro i e he
    simp [new, newTable] at he

theorem run_refines (parse : String → Option Addr) (r : IPTab R) (h : IInv lo hi r)
    (hf : NotFull lo hi) (cs : List (ICall R)) :
    IRun parse lo hi (absI r) cs (run parse r cs).2 (absI (run parse r cs).1) ∧
    IInv lo hi (run parse r cs).1 := by
  induction cs generalizing r with
  | nil => exact ⟨.nil _, h⟩
  | cons c cs ih =>
    obtain ⟨h1, h2⟩ := step_refines parse r h hf c
    obtain ⟨i1, i2⟩ := ih (step parse r c).1 h2
    exact ⟨.cons h1 i1, i2⟩

end Verif.IPTable
