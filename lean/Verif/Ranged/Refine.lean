import Verif.Ranged.Api
import Verif.IdxTable.Refine

/-! The ranged tables refine a partial map on their interval. -/

namespace Verif.Ranged
open Verif.IdxTable
variable {P : Width} {L : Type}

/-- what the proofs use of the three instances -/
structure Good (P : Width) : Prop where
  le64 : P.W ≤ 64
  outLe : P.outW ≤ 64
  leOut : P.W ≤ P.outW
  check : ∀ id : U64, exceeds P id = true ↔ 2 ^ P.W ≤ id.toNat

theorem good_w16 : Good w16 := by
  refine ⟨by decide, by decide, by decide, ?_⟩
  intro id
  show decide (id > _) = true ↔ 2 ^ 16 ≤ id.toNat
  rw [decide_eq_true_iff]
  bv_omega
theorem good_w32 : Good w32 := by
  refine ⟨by decide, by decide, by decide, ?_⟩
  intro id
  show decide (id > _) = true ↔ 2 ^ 32 ≤ id.toNat
  rw [decide_eq_true_iff]
  bv_omega
theorem good_w64 : Good w64 := by
  refine ⟨by decide, by decide, by decide, ?_⟩
  intro id
  have := id.isLt
  show false = true ↔ 2 ^ 64 ≤ id.toNat
  simp only [Bool.false_eq_true, false_iff]; omega

/-- the three packages -/
def IsPkg (P : Width) : Prop := P = w16 ∨ P = w32 ∨ P = w64

theorem IsPkg.good (h : IsPkg P) : Good P := by
  rcases h with rfl | rfl | rfl
  · exact good_w16
  · exact good_w32
  · exact good_w64

/-- the listed entries have ids of 32 or 64 bits, also those of table16 -/
theorem IsPkg.outLen (h : IsPkg P) : P.outLen = max P.W 32 := by rcases h with rfl | rfl | rfl <;> rfl

theorem pow_le (hP : Good P) : 2 ^ P.W ≤ 2 ^ 64 := Nat.pow_le_pow_right (by decide) hP.le64

theorem setWidth_toNat (hP : Good P) (x : BitVec P.W) : (x.setWidth 64).toNat = x.toNat := by
  have := x.isLt
  have := pow_le hP
  rw [BitVec.toNat_setWidth, Nat.mod_eq_of_lt (by omega)]

theorem narrow_toNat (id : U64) (h : id.toNat < 2 ^ P.W) : (id.setWidth P.W).toNat = id.toNat := by
  rw [BitVec.toNat_setWidth, Nat.mod_eq_of_lt h]

theorem validateID_iff (hP : Good P) (r : RTable P L) (id : U64) :
    validateID r id = .ok () ↔ InR r.start.toNat r.stop.toNat id := by
  unfold validateID
  have hc := hP.check id
  have h1 := r.stop.isLt
  unfold InR
  by_cases hb : 2 ^ P.W ≤ id.toNat
  · rw [if_pos (hc.2 hb)]
    simp only [reduceCtorEq, false_iff]; omega
  · rw [if_neg (fun h => hb (hc.1 h))]
    have hn := narrow_toNat (P := P) id (by omega)
    by_cases h2 : id.setWidth P.W < r.start
    · rw [if_pos h2]
      rw [BitVec.lt_def, hn] at h2
      simp only [reduceCtorEq, false_iff]; omega
    · rw [if_neg h2]
      rw [BitVec.lt_def, hn] at h2
      by_cases h3 : id.setWidth P.W > r.stop
      · rw [if_pos h3]
        rw [gt_iff_lt, BitVec.lt_def, hn] at h3
        simp only [reduceCtorEq, false_iff]; omega
      · rw [if_neg h3]
        rw [gt_iff_lt, BitVec.lt_def, hn] at h3
        simp only [true_iff]; omega

theorem validateID_err (hP : Good P) (r : RTable P L) (id : U64)
    (h : ¬ InR r.start.toNat r.stop.toNat id) : ∃ e, validateID r id = .error e := by
  cases hv : validateID r id with
  | error e => exact ⟨e, rfl⟩
  | ok u => exact absurd ((validateID_iff hP r id).1 hv) h

/-- index of an external id, as an integer -/
theorem index_toNat (hP : Good P) (start stop : BitVec P.W) (id : U64)
    (h : InR start.toNat stop.toNat id) :
    (calculateIndex (id.setWidth P.W) start).toNat = id.toNat - start.toNat := by
  have h1 := stop.isLt
  have hn := narrow_toNat (P := P) id (by unfold InR at h; omega)
  unfold calculateIndex
  rw [setWidth_toNat hP, BitVec.toNat_sub_of_le (by rw [BitVec.le_def, hn]; exact h.1), hn]

/-- external id of an index, as an integer -/
theorem ext_toNat (hP : Good P) (start : BitVec P.W) (i : U64)
    (h : start.toNat + i.toNat < 2 ^ P.W) :
    ((calculateIDFromIndex start i).setWidth 64).toNat = start.toNat + i.toNat := by
  unfold calculateIDFromIndex
  rw [setWidth_toNat hP, BitVec.toNat_add, narrow_toNat (P := P) i (by omega), Nat.mod_eq_of_lt h]

/-- short form: the index of an external id -/
def idx (r : RTable P L) (id : U64) : U64 := calculateIndex (id.setWidth P.W) r.start

/-- short form: the external id of an index -/
def ext (r : RTable P L) (i : U64) : U64 := (calculateIDFromIndex r.start i).setWidth 64

/-- invariant of the states reachable from `New(start, stop)`, `start <= stop` -/
structure RInv (r : RTable P L) : Prop where
  le : r.start.toNat ≤ r.stop.toNat
  size : r.tab.size.toNat = (r.stop.toNat - r.start.toNat + 1) % 2 ^ P.W
  ents : ∀ i e, r.tab.m.get? i = some e →
    e.id = i ∧ i.toNat ≤ r.stop.toNat - r.start.toNat ∧ e.data.id = i

/-- the range is not the full integer range -/
def NotFull (r : RTable P L) : Prop := r.stop.toNat - r.start.toNat + 1 < 2 ^ P.W

theorem RInv.size_eq {r : RTable P L} (h : RInv r) (hf : NotFull r) :
    r.tab.size.toNat = r.stop.toNat - r.start.toNat + 1 := by
  rw [h.size, Nat.mod_eq_of_lt hf]

theorem RInv.inv {r : RTable P L} (h : RInv r) (hf : NotFull r) : Inv r.tab := by
  have hs := h.size_eq hf
  refine ⟨?_, ?_⟩
  · intro h0; rw [h0] at hs; simp at hs
  · intro i e he
    obtain ⟨h1, h2, _⟩ := h.ents i e he
    exact ⟨h1, by rw [BitVec.lt_def]; omega⟩

theorem idx_lt {r : RTable P L} (hP : Good P) {id : U64}
    (hi : InR r.start.toNat r.stop.toNat id) : (idx r id).toNat ≤ r.stop.toNat - r.start.toNat := by
  unfold idx; rw [index_toNat hP r.start r.stop id hi]; unfold InR at hi; omega

/-- an index of the range validates in the index table, even if the size wrapped to zero -/
theorem RInv.validate {r : RTable P L} (h : RInv r) (i : U64)
    (hi : i.toNat ≤ r.stop.toNat - r.start.toNat) : IdxTable.validate r.tab i = .ok () := by
  have h1 := r.stop.isLt
  have h2 := h.le
  have h3 := h.size
  unfold IdxTable.validate
  rw [if_neg]
  by_cases hf : NotFull r
  · rw [h.size_eq hf] at h3
    have := h.size_eq hf
    bv_omega
  · have hw : r.stop.toNat - r.start.toNat + 1 = 2 ^ P.W := by unfold NotFull at hf; omega
    rw [hw, Nat.mod_self] at h3
    have : r.tab.size = 0 := BitVec.eq_of_toNat_eq h3
    rw [this]
    bv_omega

/-- abstraction -/
def absR (r : RTable P L) : LMap L := fun id =>
  if InR r.start.toNat r.stop.toNat id then (r.tab.m.get? (idx r id)).map (fun e => e.data.labels)
  else none

theorem absR_in {r : RTable P L} {id : U64} (h : InR r.start.toNat r.stop.toNat id) :
    absR r id = (r.tab.m.get? (idx r id)).map (fun e => e.data.labels) := if_pos h

theorem absR_out {r : RTable P L} {id : U64} (h : ¬ InR r.start.toNat r.stop.toNat id) :
    absR r id = none := if_neg h

theorem idx_inj {r : RTable P L} (hP : Good P) {i j : U64} (hi : InR r.start.toNat r.stop.toNat i)
    (hj : InR r.start.toNat r.stop.toNat j) (h : idx r i = idx r j) : i = j := by
  have h1 := index_toNat hP r.start r.stop i hi
  have h2 := index_toNat hP r.start r.stop j hj
  have : (idx r i).toNat = (idx r j).toNat := by rw [h]
  unfold idx at this
  rw [h1, h2] at this
  unfold InR at hi hj
  apply BitVec.eq_of_toNat_eq; omega

theorem ext_toNat' {r : RTable P L} (hP : Good P) {i : U64}
    (hle : r.start.toNat ≤ r.stop.toNat)
    (hi : i.toNat ≤ r.stop.toNat - r.start.toNat) : (ext r i).toNat = r.start.toNat + i.toNat := by
  have := r.stop.isLt
  exact ext_toNat hP r.start i (by omega)

theorem ext_in {r : RTable P L} (hP : Good P) {i : U64} (hle : r.start.toNat ≤ r.stop.toNat)
    (hi : i.toNat ≤ r.stop.toNat - r.start.toNat) : InR r.start.toNat r.stop.toNat (ext r i) := by
  have := ext_toNat' (r := r) hP hle hi
  unfold InR; omega

theorem idx_ext {r : RTable P L} (hP : Good P) {i : U64} (hle : r.start.toNat ≤ r.stop.toNat)
    (hi : i.toNat ≤ r.stop.toNat - r.start.toNat) : idx r (ext r i) = i := by
  have h1 := ext_toNat' (r := r) hP hle hi
  have h2 := index_toNat hP r.start r.stop _ (ext_in hP hle hi)
  apply BitVec.eq_of_toNat_eq
  unfold idx
  rw [h2, h1]; omega

theorem ext_idx {r : RTable P L} (hP : Good P) {id : U64}
    (hi : InR r.start.toNat r.stop.toNat id) : ext r (idx r id) = id := by
  have h1 := index_toNat hP r.start r.stop _ hi
  have hle : r.start.toNat ≤ r.stop.toNat := by unfold InR at hi; omega
  have h2 := ext_toNat' (r := r) hP hle (idx_lt hP hi)
  apply BitVec.eq_of_toNat_eq
  rw [h2]; unfold idx; rw [h1]; unfold InR at hi; omega

/-- what `GetAll` and `GetByLabel` put into an entry is the external id -/
theorem outEntry_eq (hP : Good P) (r : RTable P L) (i : U64) (l : L) :
    outEntry r i l = ⟨ext r i, P.outLen, l⟩ := by
  unfold outEntry ext
  congr 1
  apply BitVec.eq_of_toNat_eq
  have h1 := (calculateIDFromIndex (P := P) r.start i).isLt
  have h2 : 2 ^ P.W ≤ 2 ^ P.outW := Nat.pow_le_pow_right (by decide) hP.leOut
  have h3 : 2 ^ P.outW ≤ 2 ^ 64 := Nat.pow_le_pow_right (by decide) hP.outLe
  simp only [BitVec.toNat_setWidth]
  rw [Nat.mod_eq_of_lt (show _ < 2 ^ P.outW by omega)]

theorem storedEntry_id (hP : Good P) (r : RTable P L) (i : U64)
    (hi : i.toNat ≤ r.stop.toNat - r.start.toNat) (l : L) :
    storedEntry P i l = ⟨i, P.storedLen, l⟩ := by
  have := r.stop.isLt
  unfold storedEntry
  congr 1
  apply BitVec.eq_of_toNat_eq
  rw [setWidth_toNat hP, narrow_toNat (P := P) i (by omega)]

theorem storedEntry_ext (hP : Good P) (r : RTable P L) (i : U64)
    (hle : r.start.toNat ≤ r.stop.toNat)
    (hi : i.toNat ≤ r.stop.toNat - r.start.toNat) (l : L) :
    storedEntry P (ext r i) l = ⟨ext r i, P.storedLen, l⟩ := by
  have h1 := r.stop.isLt
  have h2 := ext_toNat' (r := r) hP hle hi
  unfold storedEntry
  congr 1
  apply BitVec.eq_of_toNat_eq
  rw [setWidth_toNat hP, narrow_toNat (P := P) _ (by omega)]

/-- the state after storing an entry in the index table -/
def setTab (r : RTable P L) (i : U64) (e : Entry (TEntry L)) : RTable P L :=
  { r with tab := { r.tab with m := r.tab.m.set i e } }

theorem absR_set {r : RTable P L} (hP : Good P) {id : U64}
    (hi : InR r.start.toNat r.stop.toNat id) (e : Entry (TEntry L)) (l : L)
    (he : e.data.labels = l) :
    absR (setTab r (idx r id) e) = (absR r).put id l := by
  funext j
  by_cases hj : InR r.start.toNat r.stop.toNat j
  · have h1 : absR (setTab r (idx r id) e) j =
        ((r.tab.m.set (idx r id) e).get? (idx r j)).map (fun e => e.data.labels) := if_pos hj
    rw [h1, GoMap.get?_set, LMap.put]
    by_cases hji : j = id
    · subst hji; simp [he]
    · have : idx r j ≠ idx r id := fun h => hji (idx_inj hP hj hi h)
      rw [if_neg this, if_neg hji, absR_in hj]
  · have h1 : absR (setTab r (idx r id) e) j = none :=
      if_neg hj
    have hne : j ≠ id := by intro he; subst he; exact hj hi
    rw [h1, LMap.put, if_neg hne, absR_out hj]

theorem RInv.set {r : RTable P L} (h : RInv r) (i : U64)
    (hi : i.toNat ≤ r.stop.toNat - r.start.toNat) (d : TEntry L) (hd : d.id = i) :
    RInv (setTab r i ⟨i, d⟩) := by
  refine ⟨h.le, h.size, ?_⟩
  intro j e he
  simp only [setTab, GoMap.get?_set] at he
  by_cases hj : j = i
  · subst hj
    simp at he; subst he
    exact ⟨rfl, hi, hd⟩
  · rw [if_neg hj] at he
    exact h.ents j e he

/-! ### the calls, as equations -/

theorem claim_ok {r : RTable P L} (hP : Good P) (h : RInv r) {id : U64} (l : L)
    (ha : AvailR r.start.toNat r.stop.toNat (absR r) id) :
    claim r id l = (setTab r (idx r id) ⟨idx r id, ⟨idx r id, P.storedLen, l⟩⟩, .ok ()) := by
  obtain ⟨hin, hn⟩ := ha
  rw [absR_in hin, Option.map_eq_none_iff] at hn
  have hv := (validateID_iff hP r id).2 hin
  unfold claim
  rw [hv]
  simp only
  have hn' : r.tab.m.get? (calculateIndex (id.setWidth P.W) r.start) = none := hn
  have hval := h.validate _ (idx_lt hP hin)
  have hval' : IdxTable.validate r.tab (calculateIndex (id.setWidth P.W) r.start) = .ok () := hval
  have hse := storedEntry_id hP r _ (idx_lt hP hin) l
  simp only [IdxTable.isFree, isFreeB, hn', Option.isNone_none, Bool.not_true, Bool.false_eq_true,
    if_false, IdxTable.claim, add, hval', lift]
  unfold idx at hse
  rw [hse]
  rfl

theorem claim_err {r : RTable P L} (hP : Good P) {id : U64} (l : L)
    (ha : ¬ AvailR r.start.toNat r.stop.toNat (absR r) id) : ∃ e, claim r id l = (r, .error e) := by
  by_cases hin : InR r.start.toNat r.stop.toNat id
  · have hn : r.tab.m.get? (idx r id) ≠ none := by
      intro hn
      exact ha ⟨hin, by rw [absR_in hin, hn]; rfl⟩
    have hv := (validateID_iff hP r id).2 hin
    unfold claim
    rw [hv]
    obtain ⟨e, he⟩ := Option.ne_none_iff_exists'.1 hn
    have he' : r.tab.m.get? (calculateIndex (id.setWidth P.W) r.start) = some e := he
    simp [IdxTable.isFree, isFreeB, he']
  · obtain ⟨e, he⟩ := validateID_err hP r id hin
    exact ⟨e, by unfold claim; rw [he]⟩

theorem get_spec {r : RTable P L} (hP : Good P) (h : RInv r) (id : U64) :
    (∀ l, absR r id = some l → ∃ e, get r id = .ok e ∧ e.labels = l ∧ e.id = idx r id) ∧
    (absR r id = none → ∃ e, get r id = .error e) := by
  by_cases hin : InR r.start.toNat r.stop.toNat id
  · have hv := (validateID_iff hP r id).2 hin
    have hval : IdxTable.validate r.tab (calculateIndex (id.setWidth P.W) r.start) = .ok () :=
      h.validate _ (idx_lt hP hin)
    rw [absR_in hin]
    constructor
    · intro l hl
      obtain ⟨e, he, rfl⟩ := Option.map_eq_some_iff.1 hl
      have he' : r.tab.m.get? (calculateIndex (id.setWidth P.W) r.start) = some e := he
      refine ⟨e.data, by simp [get, hv, IdxTable.get, hval, he'], rfl, (h.ents _ _ he).2.2⟩
    · intro hl
      rw [Option.map_eq_none_iff] at hl
      have hl' : r.tab.m.get? (calculateIndex (id.setWidth P.W) r.start) = none := hl
      exact ⟨_, by simp [get, hv, IdxTable.get, hval, hl']; rfl⟩
  · rw [absR_out hin]
    refine ⟨by simp, fun _ => ?_⟩
    obtain ⟨e, he⟩ := validateID_err hP r id hin
    exact ⟨e, by simp [get, he]⟩

theorem has_spec {r : RTable P L} (hP : Good P) (id : U64) :
    has r id = true ↔ absR r id ≠ none := by
  by_cases hin : InR r.start.toNat r.stop.toNat id
  · rw [absR_in hin, has, (validateID_iff hP r id).2 hin]
    show IdxTable.has r.tab (idx r id) = true ↔ _
    unfold IdxTable.has
    cases r.tab.m.get? (idx r id) <;> simp
  · obtain ⟨e, he⟩ := validateID_err hP r id hin
    simp [has, he, absR_out hin]

theorem isFree_spec {r : RTable P L} (hP : Good P) (id : U64) :
    isFree r id = true ↔ AvailR r.start.toNat r.stop.toNat (absR r) id := by
  by_cases hin : InR r.start.toNat r.stop.toNat id
  · rw [AvailR, absR_in hin, isFree, (validateID_iff hP r id).2 hin]
    show IdxTable.isFree r.tab (idx r id) = true ↔ _
    simp only [IdxTable.isFree, isFreeB]
    cases r.tab.m.get? (idx r id) <;> simp [hin]
  · obtain ⟨e, he⟩ := validateID_err hP r id hin
    simp [isFree, he, AvailR, hin]

theorem release_in {r : RTable P L} (hP : Good P) (h : RInv r) {id : U64}
    (hin : InR r.start.toNat r.stop.toNat id) :
    release r id = ({ r with tab := { r.tab with m := r.tab.m.del (idx r id) } }, .ok ()) := by
  have hval : IdxTable.validate r.tab (calculateIndex (id.setWidth P.W) r.start) = .ok () :=
    h.validate _ (idx_lt hP hin)
  unfold release
  rw [(validateID_iff hP r id).2 hin]
  simp only [IdxTable.release, delete, hval, lift, idx]

theorem release_out {r : RTable P L} (hP : Good P) {id : U64}
    (hin : ¬ InR r.start.toNat r.stop.toNat id) : ∃ e, release r id = (r, .error e) := by
  obtain ⟨e, he⟩ := validateID_err hP r id hin
  exact ⟨e, by unfold release; rw [he]⟩

theorem update_ok {r : RTable P L} (hP : Good P) (h : RInv r) {id : U64} (l : L)
    (hs : absR r id ≠ none) :
    InR r.start.toNat r.stop.toNat id ∧
    update r id l = (setTab r (idx r id) ⟨idx r id, ⟨idx r id, P.storedLen, l⟩⟩, .ok ()) := by
  have hin : InR r.start.toNat r.stop.toNat id := by
    apply Classical.byContradiction
    intro hin; exact hs (absR_out hin)
  refine ⟨hin, ?_⟩
  rw [absR_in hin, ne_eq, Option.map_eq_none_iff] at hs
  obtain ⟨e, he⟩ := Option.ne_none_iff_exists'.1 hs
  have he' : r.tab.m.get? (calculateIndex (id.setWidth P.W) r.start) = some e := he
  have hval : IdxTable.validate r.tab (calculateIndex (id.setWidth P.W) r.start) = .ok () :=
    h.validate _ (idx_lt hP hin)
  have hse := storedEntry_id hP r _ (idx_lt hP hin) l
  unfold update
  rw [(validateID_iff hP r id).2 hin]
  simp only [IdxTable.update, updateE, hval, isFreeB, he', Option.isNone_some, Bool.false_eq_true,
    if_false, lift]
  unfold idx at hse
  rw [hse]
  rfl

theorem update_err {r : RTable P L} (hP : Good P) (h : RInv r) {id : U64} (l : L)
    (hs : absR r id = none) : ∃ e, update r id l = (r, .error e) := by
  by_cases hin : InR r.start.toNat r.stop.toNat id
  · rw [absR_in hin, Option.map_eq_none_iff] at hs
    have he' : r.tab.m.get? (calculateIndex (id.setWidth P.W) r.start) = none := hs
    have hval : IdxTable.validate r.tab (calculateIndex (id.setWidth P.W) r.start) = .ok () :=
      h.validate _ (idx_lt hP hin)
    unfold update
    rw [(validateID_iff hP r id).2 hin]
    simp [IdxTable.update, updateE, hval, isFreeB, he', lift]
  · obtain ⟨e, he⟩ := validateID_err hP r id hin
    exact ⟨e, by unfold update; rw [he]⟩

theorem avail_ext {r : RTable P L} (hP : Good P) (h : RInv r) (hf : NotFull r) (id : U64) :
    AvailR r.start.toNat r.stop.toNat (absR r) id ↔
      ∃ i, i ∈ freeKeys r.tab ∧ id = ext r i := by
  have hsz := h.size_eq hf
  constructor
  · rintro ⟨hin, hn⟩
    rw [absR_in hin, Option.map_eq_none_iff] at hn
    refine ⟨idx r id, ?_, (ext_idx hP hin).symm⟩
    rw [mem_freeKeys, BitVec.lt_def]
    have := idx_lt hP hin
    exact ⟨by omega, hn⟩
  · rintro ⟨i, hi, rfl⟩
    rw [mem_freeKeys, BitVec.lt_def] at hi
    have hle : i.toNat ≤ r.stop.toNat - r.start.toNat := by omega
    have hin := ext_in (r := r) hP h.le hle
    refine ⟨hin, ?_⟩
    rw [absR_in hin, idx_ext hP h.le hle, hi.2]; rfl

theorem findFree_spec {r : RTable P L} (hP : Good P) (h : RInv r) (hf : NotFull r) :
    (∃ i, LeastR r.start.toNat r.stop.toNat (absR r) i ∧ findFree r = .ok i) ∨
    ((∀ i, ¬ AvailR r.start.toNat r.stop.toNat (absR r) i) ∧ ∃ e, findFree r = .error e) := by
  have hsz := h.size_eq hf
  have hfe := IdxTable.findFree_eq r.tab
  cases hk : freeKeys r.tab with
  | nil =>
    right
    rw [hk] at hfe
    refine ⟨?_, ⟨.idx .noFree, by simp only [findFree, hfe]⟩⟩
    intro i
    rw [avail_ext hP h hf, hk]; simp
  | cons x xs =>
    left
    rw [hk] at hfe
    refine ⟨ext r x, ⟨?_, ?_⟩, by simp only [findFree, hfe, ext]⟩
    · rw [avail_ext hP h hf, hk]; exact ⟨x, by simp, rfl⟩
    · intro j hj
      rw [avail_ext hP h hf] at hj
      obtain ⟨y, hy, rfl⟩ := hj
      have hx : x ∈ freeKeys r.tab := by rw [hk]; simp
      have hs := freeKeys_sorted r.tab
      rw [hk, List.pairwise_cons] at hs
      have hxy : x.toNat ≤ y.toNat := by
        rw [hk] at hy
        rcases List.mem_cons.1 hy with rfl | hy
        · exact Nat.le_refl _
        · have := hs.1 y hy; rw [BitVec.lt_def] at this; omega
      rw [mem_freeKeys, BitVec.lt_def] at hx hy
      rw [BitVec.le_def, ext_toNat' hP h.le (by omega), ext_toNat' hP h.le (by omega)]
      omega

theorem getAllLoop_some (r : RTable P L) (es : List (Entry (TEntry L))) :
    getAllLoop r (es.map some) = some (es.map (fun e => outEntry r e.id e.data.labels)) := by
  induction es with
  | nil => rfl
  | cons e es ih => simp [getAllLoop, ih]

theorem getByLabelLoop_some (r : RTable P L) (sel : L → Bool) (es : List (Entry (TEntry L))) :
    getByLabelLoop r sel (es.map some) = some ((es.filter (fun e => sel e.data.labels)).map
      (fun e => outEntry r e.data.id e.data.labels)) := by
  induction es with
  | nil => rfl
  | cons e es ih =>
    simp only [List.map_cons, getByLabelLoop, ih]
    by_cases h : sel e.data.labels = true <;> simp [h]

/-- the entries `GetAll` goes through -/
def entsOf (r : RTable P L) : List (Entry (TEntry L)) :=
  (sortKeys r.tab.m.keys).filterMap r.tab.m.get?

theorem mem_entsOf {r : RTable P L} (h : RInv r) (e : Entry (TEntry L)) :
    e ∈ entsOf r ↔ r.tab.m.get? e.id = some e := by
  unfold entsOf
  rw [List.mem_filterMap]
  constructor
  · rintro ⟨k, _, he⟩
    rw [(h.ents k e he).1]; exact he
  · intro he
    refine ⟨e.id, ?_, he⟩
    rw [(sortKeys_perm _).mem_iff, ← GoMap.get?_isSome_iff, he]; rfl

/-- The number of entries does not overflow, as `Iterate` counts them in a `uint64`. -/
def Counts (r : RTable P L) : Prop := r.tab.m.keys.length < 2 ^ 64

theorem RInv.counts {r : RTable P L} (h : RInv r) (hf : NotFull r) : Counts r := (h.inv hf).keys_length_lt

/-- there are not more entries than ids -/
theorem RInv.length_le {r : RTable P L} (h : RInv r) : r.tab.m.keys.length ≤ 2 ^ P.W := by
  have h1 : (r.tab.m.keys.map BitVec.toNat).Nodup :=
    List.Pairwise.map _ (fun a b hab hb => hab (BitVec.eq_of_toNat_eq hb)) r.tab.m.keys_nodup
  have h2 : (r.tab.m.keys.map BitVec.toNat) ⊆ List.range (2 ^ P.W) := by
    intro n hn
    obtain ⟨k, hk, rfl⟩ := List.mem_map.1 hn
    rw [← GoMap.get?_isSome_iff, Option.isSome_iff_exists] at hk
    obtain ⟨e, he⟩ := hk
    have := (h.ents k e he).2.1
    have := r.stop.isLt
    exact List.mem_range.2 (by omega)
  have := (List.subperm_of_subset h1 h2).length_le
  simpa using this

theorem RInv.counts_of_lt {r : RTable P L} (h : RInv r) (hW : P.W < 64) : Counts r :=
  Nat.lt_of_le_of_lt h.length_le (Nat.pow_lt_pow_right (by decide) hW)

theorem getByLabel_eq {r : RTable P L} (hP : Good P) (h : RInv r) (hf : Counts r)
    (sel : L → Bool) :
    getByLabel r sel = some (((entsOf r).filter (fun e => sel e.data.labels)).map
      (fun e => ⟨ext r e.id, P.outLen, e.data.labels⟩)) := by
  unfold getByLabel
  rw [getAll_eq_of_len hf, getByLabelLoop_some]
  congr 1
  apply List.map_congr_left
  intro e he
  rw [List.mem_filter] at he
  have h1 := (mem_entsOf h e).1 he.1
  rw [(h.ents _ _ h1).2.2, outEntry_eq hP]

theorem getAll_eq' {r : RTable P L} (hP : Good P) (hf : Counts r) :
    getAll r = some ((entsOf r).map (fun e => ⟨ext r e.id, P.outLen, e.data.labels⟩)) := by
  unfold getAll
  rw [getAll_eq_of_len hf, getAllLoop_some]
  congr 1
  apply List.map_congr_left
  intro e he
  rw [outEntry_eq hP]

theorem lists_ents {r : RTable P L} (hP : Good P) (h : RInv r) (sel : L → Bool) :
    Lists P.outLen (absR r) sel (((entsOf r).filter (fun e => sel e.data.labels)).map
      (fun e => ⟨ext r e.id, P.outLen, e.data.labels⟩)) := by
  have hk : ∀ k ∈ sortKeys r.tab.m.keys, k ∈ r.tab.m.keys := by
    intro k hk; rwa [(sortKeys_perm _).mem_iff] at hk
  have hids : (entsOf r).map Entry.id = sortKeys r.tab.m.keys := filterMap_ids_of (fun k e he => (h.ents k e he).1) _ hk
  constructor
  · have hasc : (entsOf r).Pairwise (fun a b => a.id < b.id) := by
      rw [← List.pairwise_map, hids]; exact sortKeys_pairwise_lt _ r.tab.m.keys_nodup
    unfold Ascending
    rw [List.map_map, List.pairwise_map]
    simp only [Function.comp_apply]
    refine (hasc.filter _).imp_of_mem ?_
    intro a b ha hb hab
    have h1 := (mem_entsOf h a).1 (List.mem_filter.1 ha).1
    have h2 := (mem_entsOf h b).1 (List.mem_filter.1 hb).1
    rw [BitVec.lt_def] at hab ⊢
    rw [ext_toNat' hP h.le (h.ents _ _ h1).2.1, ext_toNat' hP h.le (h.ents _ _ h2).2.1]
    omega
  · intro e
    rw [List.mem_map]
    constructor
    · rintro ⟨a, ha, rfl⟩
      rw [List.mem_filter] at ha
      have h1 := (mem_entsOf h a).1 ha.1
      have hle := (h.ents _ _ h1).2.1
      refine ⟨?_, rfl, ha.2⟩
      rw [absR_in (ext_in hP h.le hle), idx_ext hP h.le hle, h1]; rfl
    · rintro ⟨h1, h2, h3⟩
      have hin : InR r.start.toNat r.stop.toNat e.id := by
        apply Classical.byContradiction
        intro hin; rw [absR_out hin] at h1; cases h1
      rw [absR_in hin] at h1
      obtain ⟨a, ha, hl⟩ := Option.map_eq_some_iff.1 h1
      have hid := (h.ents _ _ ha).1
      refine ⟨a, ?_, ?_⟩
      · rw [List.mem_filter, mem_entsOf h, hid]
        exact ⟨ha, by rw [hl]; exact h3⟩
      · rw [hid, ext_idx hP hin, hl, ← h2]

/-! ### one step -/

/-- the calls that name the id they are about -/
def Explicit : RCall L → Prop
  | .get _ | .claim _ _ | .release _ | .update _ _ | .has _ | .isFree _ => True
  | _ => False

theorem step_refines_explicit (hP : Good P) (r : RTable P L) (h : RInv r) (c : RCall L)
    (hc : Explicit c) :
    RStep r.start.toNat r.stop.toNat P.storedLen P.outLen (absR r) c (absR (step r c).1) (step r c).2
    ∧ RInv (step r c).1 ∧ (step r c).1.start = r.start ∧ (step r c).1.stop = r.stop := by
  cases c with
  | get id =>
    refine ⟨⟨rfl, ?_, ?_⟩, h, rfl, rfl⟩
    · intro l hl
      obtain ⟨e, he, hl', _⟩ := (get_spec hP h id).1 l hl
      simp only [step, he, hl']
    · intro hl
      obtain ⟨e, he⟩ := (get_spec hP h id).2 hl
      simp only [step, he]
  | claim id l =>
    simp only [step]
    by_cases ha : AvailR r.start.toNat r.stop.toNat (absR r) id
    · rw [claim_ok hP h l ha]
      exact ⟨Or.inl ⟨ha, absR_set hP ha.1 _ l rfl, rfl⟩, h.set _ (idx_lt hP ha.1) _ rfl, rfl, rfl⟩
    · obtain ⟨e, he⟩ := claim_err hP l ha
      rw [he]
      exact ⟨Or.inr ⟨ha, rfl, rfl⟩, h, rfl, rfl⟩
  | release id =>
    simp only [step]
    by_cases hin : InR r.start.toNat r.stop.toNat id
    · rw [release_in hP h hin]
      refine ⟨Or.inl ⟨hin, ?_, rfl⟩, ⟨h.le, h.size, ?_⟩, rfl, rfl⟩
      · funext j
        by_cases hj : InR r.start.toNat r.stop.toNat j
        · have h1 : absR { r with tab := { r.tab with m := r.tab.m.del (idx r id) } } j =
              ((r.tab.m.del (idx r id)).get? (idx r j)).map (fun e => e.data.labels) := if_pos hj
          rw [h1, GoMap.get?_del, LMap.drop]
          by_cases hji : j = id
          · subst hji; simp
          · have : idx r j ≠ idx r id := fun h => hji (idx_inj hP hj hin h)
            rw [if_neg this, if_neg hji, absR_in hj]
        · have h1 : absR { r with tab := { r.tab with m := r.tab.m.del (idx r id) } } j = none :=
            if_neg hj
          rw [h1, LMap.drop, absR_out hj]; simp
      · intro i e he
        simp only [GoMap.get?_del] at he
        by_cases hi : i = idx r id
        · rw [if_pos hi] at he; cases he
        · rw [if_neg hi] at he; exact h.ents i e he
    · obtain ⟨e, he⟩ := release_out hP hin
      rw [he]
      exact ⟨Or.inr ⟨hin, rfl, rfl⟩, h, rfl, rfl⟩
  | update id l =>
    simp only [step]
    by_cases hs : absR r id = none
    · obtain ⟨e, he⟩ := update_err hP h l hs
      rw [he]
      exact ⟨Or.inr ⟨hs, rfl, rfl⟩, h, rfl, rfl⟩
    · obtain ⟨hin, he⟩ := update_ok hP h l hs
      rw [he]
      exact ⟨Or.inl ⟨hs, absR_set hP hin _ l rfl, rfl⟩, h.set _ (idx_lt hP hin) _ rfl, rfl, rfl⟩
  | has id => exact ⟨⟨rfl, _, has_spec hP id, rfl⟩, h, rfl, rfl⟩
  | isFree id => exact ⟨⟨rfl, _, isFree_spec hP id, rfl⟩, h, rfl, rfl⟩
  | claimFree _ | size | findFree | getAll | getByLabel _ => exact absurd hc (by simp [Explicit])

/-- the calls that list or count -/
def Listing : RCall L → Prop
  | .size | .getAll | .getByLabel _ => True
  | _ => False

theorem step_refines_listing (hP : Good P) (r : RTable P L) (h : RInv r) (hf : Counts r) (c : RCall L)
    (hc : Listing c) :
    RStep r.start.toNat r.stop.toNat P.storedLen P.outLen (absR r) c (absR (step r c).1) (step r c).2
    ∧ RInv (step r c).1 ∧ (step r c).1.start = r.start ∧ (step r c).1.stop = r.stop := by
  cases c with
  | size =>
    refine ⟨⟨rfl, (entsOf r).map (fun e => ext r e.id), ?_, ?_, ?_⟩, h, rfl, rfl⟩
    · have := (lists_ents hP h (fun _ => true)).1
      rw [List.map_map, List.filter_true] at this
      exact this
    · intro i
      have hl := (lists_ents hP h (fun _ => true)).2
      rw [List.filter_true] at hl
      constructor
      · intro hi
        obtain ⟨e, he, rfl⟩ := List.mem_map.1 hi
        have := (hl ⟨ext r e.id, P.outLen, e.data.labels⟩).1 (List.mem_map.2 ⟨e, he, rfl⟩)
        rw [this.1]; simp
      · intro hi
        obtain ⟨l, hl'⟩ := Option.ne_none_iff_exists'.1 hi
        have := (hl ⟨i, P.outLen, l⟩).2 ⟨hl', rfl, rfl⟩
        obtain ⟨e, he, heq⟩ := List.mem_map.1 this
        injection heq with h1
        exact List.mem_map.2 ⟨e, he, h1⟩
    · have hk : ∀ k ∈ sortKeys r.tab.m.keys, k ∈ r.tab.m.keys := by
        intro k hk; rwa [(sortKeys_perm _).mem_iff] at hk
      have hids : (entsOf r).map Entry.id = sortKeys r.tab.m.keys := filterMap_ids_of (fun k e he => (h.ents k e he).1) _ hk
      have : (entsOf r).length = r.tab.m.keys.length := by
        rw [← (sortKeys_perm r.tab.m.keys).length_eq, ← hids, List.length_map]
      simp only [step, sizeOf, IdxTable.sizeOf, GoMap.len_eq_keys_length, List.length_map, this]
  | getAll =>
    refine ⟨⟨rfl, _, lists_ents hP h _, ?_⟩, h, rfl, rfl⟩
    simp only [step, getAll_eq' hP hf, replyEntries, List.filter_true]
  | getByLabel sel =>
    refine ⟨⟨rfl, _, lists_ents hP h sel, ?_⟩, h, rfl, rfl⟩
    simp only [step, getByLabel_eq hP h hf, replyEntries]
  | get _ | claim _ _ | release _ | update _ _ | has _ | isFree _ | findFree | claimFree _ =>
    exact absurd hc (by simp [Listing])

theorem step_refines (hP : Good P) (r : RTable P L) (h : RInv r) (hf : NotFull r) (c : RCall L) :
    RStep r.start.toNat r.stop.toNat P.storedLen P.outLen (absR r) c (absR (step r c).1) (step r c).2
    ∧ RInv (step r c).1 ∧ (step r c).1.start = r.start ∧ (step r c).1.stop = r.stop := by
  cases c with
  | claimFree l =>
    simp only [step, claimFree]
    rcases findFree_spec hP h hf with ⟨i, hl, he⟩ | ⟨hn, e, he⟩
    · rw [he]
      simp only
      rw [claim_ok hP h l hl.1]
      have hse : storedEntry P i l = ⟨i, P.storedLen, l⟩ := by
        have := storedEntry_ext hP r _ h.le (idx_lt hP hl.1.1) l
        rwa [ext_idx hP hl.1.1] at this
      refine ⟨Or.inl ⟨i, hl, absR_set hP hl.1.1 _ l rfl, by rw [hse]⟩,
        h.set _ (idx_lt hP hl.1.1) _ rfl, rfl, rfl⟩
    · rw [he]
      exact ⟨Or.inr ⟨hn, rfl, rfl⟩, h, rfl, rfl⟩
  | findFree =>
    refine ⟨⟨rfl, ?_⟩, h, rfl, rfl⟩
    rcases findFree_spec hP h hf with ⟨i, hl, he⟩ | ⟨hn, e, he⟩
    · exact Or.inl ⟨i, hl, by simp only [step, he]⟩
    · exact Or.inr ⟨hn, by simp only [step, he]⟩
  | size | getAll | getByLabel _ => exact step_refines_listing hP r h (h.counts hf) _ (by simp [Listing])
  | get _ | claim _ _ | release _ | update _ _ | has _ | isFree _ =>
    exact step_refines_explicit hP r h _ (by simp [Explicit])

theorem new_inv (hP : Good P) (start stop : BitVec P.W) (hle : start ≤ stop) :
    RInv (new start stop : RTable P L) := by
  rw [BitVec.le_def] at hle
  refine ⟨hle, ?_, ?_⟩
  · show ((stop - start + 1).setWidth 64).toNat = (stop.toNat - start.toNat + 1) % 2 ^ P.W
    rw [setWidth_toNat hP, BitVec.toNat_add, BitVec.toNat_sub_of_le hle]
    simp
  · intro i e he
    simp [new, newTable] at he

theorem run_refines (hP : Good P) (r : RTable P L) (h : RInv r) (hf : NotFull r)
    (cs : List (RCall L)) :
    RRun r.start.toNat r.stop.toNat P.storedLen P.outLen (absR r) cs (run r cs).2 (absR (run r cs).1)
    ∧ RInv (run r cs).1 ∧ (run r cs).1.start = r.start ∧ (run r cs).1.stop = r.stop := by
  induction cs generalizing r with
  | nil => exact ⟨.nil _, h, rfl, rfl⟩
  | cons c cs ih =>
    obtain ⟨h1, h2, h3, h4⟩ := step_refines hP r h hf c
    have hf' : NotFull (step r c).1 := by unfold NotFull; rw [h3, h4]; exact hf
    obtain ⟨i1, i2, i3, i4⟩ := ih (step r c).1 h2 hf'
    rw [h3, h4] at i1
    exact ⟨.cons h1 i1, i2, i3.trans h3, i4.trans h4⟩

end Verif.Ranged
