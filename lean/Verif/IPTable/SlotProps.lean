import Verif.IdxTable.ZeroProps
import Verif.IPTable.HistProps

/-!
C22, C65: exactly what a table of IPv6 addresses does, however many these are.
-/

namespace Verif.IPTable
open Verif.IdxTable (U64 PMap Enumerates absMap AnyInv AnyStep)
variable {R : Type} {parse : String → Option Addr} {f t : BitVec 128} {z z' : String}

/-- invariant -/
structure SInv (f t : BitVec 128) (r : IPTab R) : Prop where
  le : f.toNat ≤ t.toNat
  rng : r.ipRange = ⟨.v6 f "", .v6 t ""⟩
  size : r.tab.size.toNat = capNat f t
  tab : AnyInv r.tab

theorem new_sinv (hle : f.toNat ≤ t.toNat) : SInv f t (new (.v6 f z) (.v6 t z') : IPTab R) := by
  refine ⟨hle, rfl, ?_, IdxTable.any_new _⟩
  show (numIPs (.v6 f z) (.v6 t z')).toNat = _
  unfold numIPs capNat
  simp only [ipToInt_v6]
  rw [if_neg (by omega), BitVec.toNat_add, BitVec.toNat_ofNat]
  have : (1 : U64).toNat = 1 := rfl
  omega

theorem slot_iff {r : IPTab R} (h : SInv f t r) (x : String) (i : U64) :
    SlotOf parse f t x i ↔ ∃ ip, validateIP parse r x = .ok ip ∧ calculateIndex ip r.ipRange.lo = i := by
  have hr : r.ipRange = ipRangeFrom (.v6 f "") (.v6 t "") := h.rng
  have hidx : ∀ a : BitVec 128, f.toNat ≤ a.toNat →
      (calculateIndex (.v6 a "") r.ipRange.lo).toNat = (a.toNat - f.toNat) % 2 ^ 64 := by
    intro a ha
    rw [h.rng]
    unfold calculateIndex
    rw [BitVec.toNat_ofNat, ipToInt_v6, ipToInt_v6]
    congr 1
    omega
  constructor
  · rintro ⟨a, h1, h2, h3, h4⟩
    refine ⟨.v6 a "", ?_, BitVec.eq_of_toNat_eq (by rw [hidx a h2, h4])⟩
    unfold validateIP
    rw [h1, hr]
    exact if_pos ((contains_iff (.v6 f "") (.v6 t "") (.v6 a "")).2 ⟨h2, h3, rfl⟩)
  · rintro ⟨ip, h1, h2⟩
    unfold validateIP at h1
    split at h1
    · cases h1
    · rename_i b hp
      split at h1
      · rename_i hc
        cases h1
        rw [hr, contains_iff] at hc
        match ip, hc with
        | .v6 a z, hc =>
          obtain ⟨h3, h4, rfl⟩ : f.toNat ≤ a.toNat ∧ a.toNat ≤ t.toNat ∧ z = "" := hc
          exact ⟨a, hp, h3, h4, by rw [← h2, hidx a h3]⟩
      · cases h1

theorem open_iff {r : IPTab R} (h : SInv f t r) (i : U64) : Open f t i ↔ r.tab.size = 0 ∨ i < r.tab.size := by
  unfold Open
  rw [← h.size, BitVec.lt_def]
  constructor
  · rintro (h0 | h0)
    · exact .inl (BitVec.eq_of_toNat_eq h0)
    · exact .inr h0
  · rintro (h0 | h0)
    · rw [h0]; exact .inl rfl
    · exact .inr h0

/-- one of the calls that name an address: it is about at most one slot -/
theorem about_cases {r : IPTab R} (h : SInv f t r) {c : ICall R} {x : String} (hc : c.about = some x) :
    ((∀ i, ¬ SlotOf parse f t x i) ∧ step parse r c = (r, c.refused)) ∨
    ∃ k, SlotOf parse f t x k ∧ (∀ i, SlotOf parse f t x i → i = k) ∧
      (step parse r c).2 = fromIdx (IdxTable.step r.tab (c.idx k)).2 ∧
      (step parse r c).1 = { r with tab := (IdxTable.step r.tab (c.idx k)).1 } := by
  cases hv : validateIP parse r x with
  | error e =>
    left
    refine ⟨fun i hi => ?_, about_out hc r (by intro ip hi; rw [hv] at hi; cases hi)⟩
    obtain ⟨ip, h1, _⟩ := (slot_iff h x i).1 hi
    rw [hv] at h1; cases h1
  | ok ip =>
    right
    obtain ⟨_, h1, h2⟩ := about_in hc r hv
    refine ⟨_, (slot_iff h x _).2 ⟨ip, hv, rfl⟩, fun i hi => ?_, h1, h2⟩
    obtain ⟨ip', h3, h4⟩ := (slot_iff h x i).1 hi
    rw [hv] at h3; cases h3
    exact h4.symm

theorem SInv.with {r : IPTab R} (h : SInv f t r) (c : IdxTable.Call R) (hc : ¬ (c = .iterate ∨ c = .getAll)) :
    SInv f t { r with tab := (IdxTable.step r.tab c).1 } := by
  obtain ⟨_, h2, h3⟩ := IdxTable.any_step h.tab c (fun h => absurd h hc)
  exact ⟨h.le, h.rng, by show (IdxTable.step r.tab c).1.size.toNat = _; rw [h3]; exact h.size, h2⟩

/-- the entries in the order of the slots -/
theorem slot_entries {r : IPTab R} (hn : r.tab.m.keys.length < 2 ^ 64) :
    ∃ (ids : List U64) (es : List (IdxTable.Entry R)), Enumerates ids (fun i => absMap r.tab i ≠ none) ∧ IdxTable.getAll r.tab = es.map some ∧
      es.map IdxTable.Entry.data = ids.filterMap (absMap r.tab) := by
  refine ⟨_, _, IdxTable.enumerates_sortKeys_keys r.tab, IdxTable.getAll_eq_of_len hn, ?_⟩
  rw [List.map_filterMap]
  rfl

/-- the calls that list the entries -/
def Lists : ICall R → Prop
  | .getAll | .getByLabel _ => True
  | _ => False

theorem slot_step {r : IPTab R} (h : SInv f t r) (c : ICall R) (hn : Lists c → r.tab.m.keys.length < 2 ^ 64) :
    SlotStep parse f t (absMap r.tab) c (absMap (step parse r c).1.tab) (step parse r c).2 ∧ SInv f t (step parse r c).1 := by
  cases c with
  | get x =>
    rcases about_cases (parse := parse) h (c := .get x) rfl with ⟨h1, h2⟩ | ⟨k, h1, h2, h3, h4⟩
    · rw [h2]; exact ⟨⟨rfl, .inr ⟨fun i hi => absurd hi (h1 i), rfl⟩⟩, h⟩
    · rw [h3, h4]
      refine ⟨⟨rfl, ?_⟩, h.with _ (by simp [ICall.idx])⟩
      have hs := (IdxTable.any_step h.tab (.get k) (by simp)).1
      have hs' : (∀ d, absMap r.tab k = some d → (IdxTable.step r.tab (.get k)).2 = .entry ⟨k, d⟩) ∧
          (absMap r.tab k = none → (IdxTable.step r.tab (.get k)).2 = .err) := by
        rcases hs with ⟨_, _, hs⟩ | ⟨_, _, hs⟩ <;> exact hs
      cases hk : absMap r.tab k with
      | none =>
        exact .inr ⟨fun i hi => by rw [h2 i hi]; exact hk, by simp only [ICall.idx]; rw [hs'.2 hk]; rfl⟩
      | some d => exact .inl ⟨k, d, h1, hk, by simp only [ICall.idx]; rw [hs'.1 d hk]; rfl⟩
  | claim x d =>
    rcases about_cases (parse := parse) h (c := .claim x d) rfl with ⟨h1, h2⟩ | ⟨k, h1, h2, h3, h4⟩
    · rw [h2]; exact ⟨.inr ⟨fun i hi => absurd hi (h1 i), rfl, rfl⟩, h⟩
    · rw [h3, h4]
      refine ⟨?_, h.with _ (by simp [ICall.idx])⟩
      show SlotStep parse f t (absMap r.tab) (.claim x d) (absMap (IdxTable.step r.tab (.claim k d)).1)
        (fromIdx (IdxTable.step r.tab (.claim k d)).2)
      have ho := open_iff h k
      rcases (IdxTable.any_step h.tab (.claim k d) (by simp)).1 with ⟨h0, hs⟩ | ⟨h0, hs⟩
      · rcases hs with ⟨ha, h5, h6⟩ | ⟨ha, h5, h6⟩
        · rw [h5, h6]; exact .inl ⟨k, h1, ⟨ho.2 (.inr ha.1), ha.2⟩, rfl, rfl⟩
        · rw [h5, h6]
          refine .inr ⟨fun i hi => ?_, rfl, rfl⟩
          rw [h2 i hi]
          rintro ⟨h7, h8⟩
          exact ha ⟨(ho.1 h7).resolve_left h0, h8⟩
      · rcases hs with ⟨ha, h5, h6⟩ | ⟨ha, h5, h6⟩
        · rw [h5, h6]; exact .inl ⟨k, h1, ⟨ho.2 (.inl h0), ha⟩, rfl, rfl⟩
        · rw [h5, h6]
          refine .inr ⟨fun i hi => ?_, rfl, rfl⟩
          rw [h2 i hi]
          exact fun h7 => ha h7.2
  | release x =>
    rcases about_cases (parse := parse) h (c := .release x) rfl with ⟨h1, h2⟩ | ⟨k, h1, h2, h3, h4⟩
    · rw [h2]; exact ⟨.inr ⟨fun i hi => absurd hi (h1 i), rfl, rfl⟩, h⟩
    · rw [h3, h4]
      refine ⟨?_, h.with _ (by simp [ICall.idx])⟩
      show SlotStep parse f t (absMap r.tab) (.release x) (absMap (IdxTable.step r.tab (.release k)).1)
        (fromIdx (IdxTable.step r.tab (.release k)).2)
      have ho := open_iff h k
      rcases (IdxTable.any_step h.tab (.release k) (by simp)).1 with ⟨h0, hs⟩ | ⟨h0, h5, h6⟩
      · rcases hs with ⟨ha, h5, h6⟩ | ⟨ha, h5, h6⟩
        · rw [h5, h6]; exact .inl ⟨k, h1, ho.2 (.inr ha), rfl, rfl⟩
        · rw [h5, h6]
          refine .inr ⟨fun i hi => ?_, rfl, rfl⟩
          rw [h2 i hi]
          exact fun h7 => ha ((ho.1 h7).resolve_left h0)
      · rw [h5, h6]; exact .inl ⟨k, h1, ho.2 (.inl h0), rfl, rfl⟩
  | update x d =>
    rcases about_cases (parse := parse) h (c := .update x d) rfl with ⟨h1, h2⟩ | ⟨k, h1, h2, h3, h4⟩
    · rw [h2]; exact ⟨.inr ⟨fun i hi => absurd hi (h1 i), rfl, rfl⟩, h⟩
    · rw [h3, h4]
      refine ⟨?_, h.with _ (by simp [ICall.idx])⟩
      show SlotStep parse f t (absMap r.tab) (.update x d) (absMap (IdxTable.step r.tab (.update k d)).1)
        (fromIdx (IdxTable.step r.tab (.update k d)).2)
      have hs : (absMap r.tab k ≠ none ∧ absMap (IdxTable.step r.tab (.update k d)).1 = (absMap r.tab).put [k] d ∧
            (IdxTable.step r.tab (.update k d)).2 = .ok) ∨
          (absMap r.tab k = none ∧ absMap (IdxTable.step r.tab (.update k d)).1 = absMap r.tab ∧
            (IdxTable.step r.tab (.update k d)).2 = .err) := by
        rcases (IdxTable.any_step h.tab (.update k d) (by simp)).1 with ⟨_, hs⟩ | ⟨_, hs⟩ <;> exact hs
      rcases hs with ⟨ha, h5, h6⟩ | ⟨ha, h5, h6⟩
      · rw [h5, h6]; exact .inl ⟨k, h1, ha, rfl, rfl⟩
      · rw [h5, h6]; exact .inr ⟨fun i hi => by rw [h2 i hi]; exact ha, rfl, rfl⟩
  | has x =>
    rcases about_cases (parse := parse) h (c := .has x) rfl with ⟨h1, h2⟩ | ⟨k, h1, h2, h3, h4⟩
    · rw [h2]
      exact ⟨⟨rfl, false, by simp only [Bool.false_eq_true, false_iff]; rintro ⟨i, hi, _⟩; exact h1 i hi, rfl⟩, h⟩
    · rw [h3, h4]
      refine ⟨⟨rfl, IdxTable.has r.tab k, ?_, rfl⟩, h.with _ (by simp [ICall.idx])⟩
      have : IdxTable.has r.tab k = true ↔ absMap r.tab k ≠ none := by
        rw [ne_eq, IdxTable.absMap_eq_none, IdxTable.has]
        cases r.tab.m.get? k <;> simp
      rw [this]
      exact ⟨fun h5 => ⟨k, h1, h5⟩, by rintro ⟨i, hi, h5⟩; rw [h2 i hi] at h5; exact h5⟩
  | isFree x =>
    rcases about_cases (parse := parse) h (c := .isFree x) rfl with ⟨h1, h2⟩ | ⟨k, h1, h2, h3, h4⟩
    · rw [h2]
      exact ⟨⟨rfl, false, by simp only [Bool.false_eq_true, false_iff]; rintro ⟨i, hi, _⟩; exact h1 i hi, rfl⟩, h⟩
    · rw [h3, h4]
      refine ⟨⟨rfl, IdxTable.isFree r.tab k, ?_, rfl⟩, h.with _ (by simp [ICall.idx])⟩
      have : IdxTable.isFree r.tab k = true ↔ absMap r.tab k = none := by
        rw [IdxTable.absMap_eq_none, IdxTable.isFree, IdxTable.isFreeB]
        cases r.tab.m.get? k <;> simp
      rw [this]
      exact ⟨fun h5 => ⟨k, h1, h5⟩, by rintro ⟨i, hi, h5⟩; rw [h2 i hi] at h5; exact h5⟩
  | size =>
    refine ⟨⟨rfl, _, IdxTable.enumerates_sortKeys_keys r.tab, ?_⟩, h⟩
    simp only [step, sizeOf, IdxTable.sizeOf, GoMap.len_eq_keys_length, (IdxTable.sortKeys_perm _).length_eq]
  | findFree =>
    refine ⟨⟨rfl, ?_⟩, h⟩
    have hfe := IdxTable.findFree_eq r.tab
    cases hk : IdxTable.freeKeys r.tab with
    | nil =>
      rw [hk] at hfe
      refine .inr ⟨fun i hi hi' => ?_, by simp only [step, findFree, hfe]⟩
      rw [← h.size] at hi
      have : i ∈ IdxTable.freeKeys r.tab :=
        (IdxTable.mem_freeKeys r.tab i).2 ⟨hi, (IdxTable.absMap_eq_none _ _).1 hi'⟩
      rw [hk] at this; cases this
    | cons i ks =>
      rw [hk] at hfe
      have hm : i ∈ IdxTable.freeKeys r.tab := by rw [hk]; exact List.mem_cons_self ..
      rw [IdxTable.mem_freeKeys, BitVec.lt_def, h.size] at hm
      refine .inl ⟨i, hm.1, (IdxTable.absMap_eq_none _ _).2 hm.2, fun j hj hj' => ?_, ?_⟩
      · have hjm : j ∈ IdxTable.freeKeys r.tab := by
          rw [IdxTable.mem_freeKeys, BitVec.lt_def, h.size]
          rw [BitVec.lt_def] at hj
          exact ⟨by omega, (IdxTable.absMap_eq_none _ _).1 hj'⟩
        have hs := IdxTable.freeKeys_sorted r.tab
        rw [hk, List.pairwise_cons] at hs
        rw [hk] at hjm
        rcases List.mem_cons.1 hjm with rfl | hjm
        · exact absurd hj (by rw [BitVec.lt_def]; omega)
        · have := hs.1 j hjm
          rw [BitVec.lt_def] at this hj; omega
      · have hcap : capNat f t ≤ t.toNat - f.toNat + 1 := Nat.mod_le _ _
        have ht := t.isLt
        have hle := h.le
        have hsum : f.toNat + i.toNat < 2 ^ 128 := by omega
        have he : calculateIPFromIndex r.ipRange.lo i = some (.v6 (f + i.setWidth 128) "") := by
          rw [h.rng]
          unfold calculateIPFromIndex
          simp only [ipToInt_v6, if_pos hsum]
          rw [if_neg (by simp [Addr.is4])]
          congr 2
        simp only [step, findFree, hfe, he]
  | getAll =>
    obtain ⟨ids, es, h1, h2, h3⟩ := slot_entries (hn trivial)
    refine ⟨⟨rfl, ids, h1, ?_⟩, h⟩
    simp only [step, getAll, h2, getAllLoop_some, replyRoutes, h3]
  | getByLabel sel =>
    obtain ⟨ids, es, h1, h2, h3⟩ := slot_entries (hn trivial)
    refine ⟨⟨rfl, ids, h1, ?_⟩, h⟩
    simp only [step, getByLabel, h2, getByLabelLoop_some, replyRoutes, h3]

/-- a call adds at most one entry -/
theorem slot_length {r : IPTab R} (h : SInv f t r) (hz : r.tab.size = 0) (c : ICall R) :
    (step parse r c).1.tab.m.keys.length ≤ r.tab.m.keys.length + 1 := by
  have hz' : IdxTable.ZInv r.tab := by
    rcases h.tab with ⟨h0, _⟩ | h0
    · exact absurd hz h0
    · exact h0
  have key : ∀ {c : ICall R} {x}, c.about = some x → (step parse r c).1.tab.m.keys.length ≤ r.tab.m.keys.length + 1 := by
    intro c x hc
    rcases about_cases (parse := parse) h hc with ⟨_, h2⟩ | ⟨k, _, _, _, h4⟩
    · rw [h2]; exact Nat.le_succ _
    · rw [h4]; exact (IdxTable.zero_step hz' _ (by cases c <;> simp [ICall.idx, ICall.about] at hc ⊢)).2.2
  cases c with
  | size | findFree | getAll | getByLabel _ => exact Nat.le_succ _
  | get x => exact key (x := x) rfl
  | claim x d => exact key (x := x) rfl
  | release x => exact key (x := x) rfl
  | update x d => exact key (x := x) rfl
  | has x => exact key (x := x) rfl
  | isFree x => exact key (x := x) rfl

theorem slot_run (cs : List (ICall R)) : ∀ {r : IPTab R}, SInv f t r →
    (capNat f t = 0 → r.tab.m.keys.length + cs.length ≤ 2 ^ 64) →
    SlotRun parse f t (absMap r.tab) cs (run parse r cs).2 (absMap (run parse r cs).1.tab) := by
  induction cs with
  | nil => intro r _ _; exact .nil _
  | cons c cs ih =>
    intro r h hn
    have hz : r.tab.size = 0 → capNat f t = 0 := by
      intro h0
      rw [← h.size, h0]; rfl
    have hlen : r.tab.m.keys.length < 2 ^ 64 := h.tab.len fun h0 => by
      have := hn (hz h0)
      rw [List.length_cons] at this
      omega
    obtain ⟨h1, h2⟩ := slot_step (parse := parse) h c (fun _ => hlen)
    refine .cons h1 (ih h2 fun h0 => ?_)
    have h3 : r.tab.size = 0 := BitVec.eq_of_toNat_eq (by rw [h.size, h0]; rfl)
    have := slot_length (parse := parse) h h3 c
    have := hn h0
    rw [List.length_cons] at this
    omega

/-- C22 and C65, exactly what happens, for every IPv6 range: the table is a partial map on slots, the slot of an address
being its offset modulo `2^64`; addresses whose slot is not below the number of addresses modulo `2^64` cannot be
claimed, unless that number is zero; `FindFree` returns the lowest free slot below that number. (If the number is zero:
for histories of at most `2^64` calls.) Missing: nothing of the behaviour; C22 and C65 are violated where slots are
shared or the number wraps. -/
theorem C22_slots_exact_partial (hle : f.toNat ≤ t.toNat) (cs : List (ICall R))
    (hn : capNat f t = 0 → cs.length ≤ 2 ^ 64) :
    ∃ s, SlotRun parse f t (fun _ => none) cs (run parse (new (.v6 f z) (.v6 t z') : IPTab R) cs).2 s := by
  refine ⟨_, slot_run (parse := parse) cs (new_sinv (z := z) (z' := z') hle) fun h0 => ?_⟩
  have := hn h0
  simpa [new, IdxTable.newTable] using this

/-- In the range `::` to `::1:0:0:0:4` there are `2^64 + 5` addresses, so that 5 slots are open: the address with offset
7 is free, but cannot be claimed; the one with offset `2^64 + 2` has slot 2, like `::2`. -/
example :
    let parse : String → Option Addr := fun s =>
      if s = "::7" then some (.v6 7 "") else if s = "::2" then some (.v6 2 "")
      else if s = "::1:0:0:0:2" then some (.v6 0x10000000000000002#128 "") else none
    capNat 0 0x10000000000000004#128 = 5 ∧
    (run parse (new (.v6 0 "") (.v6 0x10000000000000004#128 "") : IPTab String)
      [.isFree "::7", .claim "::7" "a", .claim "::1:0:0:0:2" "b", .get "::2", .claim "::2" "c"]).2 =
      [.bool true, .err, .ok, .route "b", .err] := ⟨by decide, rfl⟩

/-- C97 for the IP table of the IPv6 addresses `f` to `t`, of any number, partial: calls about two texts that do not denote
addresses of the same slot have the same replies in either order, and no later call tells the difference. Missing: addresses of
the same slot, for which it is false (`C97_ip_commute_violated`). -/
theorem C97_ip_slots_partial (hle : f.toNat ≤ t.toNat) (r : IPTab R) (hr : r.ipRange = ipRangeFrom (.v6 f z) (.v6 t z'))
    {c₁ c₂ : ICall R} {x y : String} (h₁ : c₁.about = some x) (h₂ : c₂.about = some y)
    (hne : ∀ i, ¬ (SlotOf parse f t x i ∧ SlotOf parse f t y i)) :
    (step parse (step parse r c₁).1 c₂).2 = (step parse r c₂).2 ∧ (step parse (step parse r c₂).1 c₁).2 = (step parse r c₁).2 ∧
    Alike parse (step parse (step parse r c₁).1 c₂).1 (step parse (step parse r c₂).1 c₁).1 := by
  have hn := new_sinv (R := R) (z := z) (z' := z') hle
  have hv : ∀ x, validateIP parse r x = validateIP parse (new (.v6 f z) (.v6 t z') : IPTab R) x := by
    intro x; unfold validateIP; rw [hr]; rfl
  have hlo : r.ipRange.lo = (new (.v6 f z) (.v6 t z') : IPTab R).ipRange.lo := by rw [hr]; rfl
  refine commute_idx parse r h₁ h₂ fun ip jp hi hj h => ?_
  rw [hv] at hi hj
  rw [hlo] at h
  exact hne _ ⟨(slot_iff hn x _).2 ⟨ip, hi, h⟩, (slot_iff hn y _).2 ⟨jp, hj, rfl⟩⟩

-- the hypotheses: `::` and the address `2^64 + 1` higher
example : let parse : String → Option Addr := fun s =>
      if s = "::" then some (.v6 0 "") else if s = "::1:0:0:0:1" then some (.v6 0x10000000000000001#128 "") else none
    ∀ i, ¬ (SlotOf parse 0 0x20000000000000000#128 "::" i ∧ SlotOf parse 0 0x20000000000000000#128 "::1:0:0:0:1" i) := by
  rintro parse i ⟨⟨a, ha, _, _, h1⟩, ⟨b, hb, _, _, h2⟩⟩
  have ha : some (Addr.v6 0 "") = some (.v6 a "") := ha
  have hb : some (Addr.v6 0x10000000000000001#128 "") = some (.v6 b "") := hb
  injection ha with ha; injection ha with ha
  injection hb with hb; injection hb with hb
  subst ha hb
  rw [h1] at h2
  revert h2
  decide

end Verif.IPTable
