import Verif.Id.Props

/-! Theorems C36-C41, C66 and C67 about id sets and their builder. -/

namespace Verif.Id
variable {P : Pkg}

/-! ### hypotheses -/

theorem subOk_good (G : Good P) (x : BitVec P.W) : SubOk P x := G.subOne x

theorem Op.Fits.allowed (G : Good P) {op : Op P} (h : op.Fits) : op.Allowed := by
  cases op with
  | addRange r => trivial
  | removeRange r => exact subOk_good G _
  | addId p => exact prefOk_good G h
  | removeId p => exact ⟨prefOk_good G h, subOk_good G _⟩
  | addSet rr => exact h.1
  | ipSet => trivial

theorem blockMax {p : MyId P} {r : Rng P} (h : PrefOk p) (hr : rangeOfID p = some r) :
    r.hi.id = maxV P → Covers p (maxV P) := by
  intro he
  obtain ⟨r', h0, h1, h2, h3, h4⟩ := rangeOfID_spec h
  rw [hr, Option.some.injEq] at h0
  subst h0
  have := (rangeOfID_has h hr ⟨r.hi.id, P.W⟩).1 ⟨h1.symm, (rangeOfID_valid h hr).2, BitVec.le_refl _⟩
  rw [he] at this
  exact this.2

theorem blockLow {p : MyId P} {r : Rng P} (hp : 1 < P.W) (h : PrefOk p) (hr : rangeOfID p = some r) :
    (r.lo.id = 1 → p.len = P.W ∧ p.id = 1) ∧ (r.hi.id = 0 → p.len = P.W ∧ p.id = 0) := by
  obtain ⟨r', h0, h1, h2, h3, h4⟩ := rangeOfID_spec h
  rw [hr, Option.some.injEq] at h0
  subst h0
  have hl := h.2.2.1
  constructor
  · intro he
    rw [he, toNat_one hp] at h3
    have hd : 2 ^ (P.W - p.len) ∣ 1 := ⟨_, h3.trans (Nat.mul_comm _ _)⟩
    have h5 : 2 ^ (P.W - p.len) = 1 := Nat.dvd_one.1 hd
    have h6 : P.W - p.len = 0 := by
      rcases Nat.eq_zero_or_pos (P.W - p.len) with h | h
      · exact h
      · exact absurd h5 (Nat.ne_of_gt (Nat.one_lt_two_pow (by omega)))
    refine ⟨by omega, BitVec.eq_of_toNat_eq ?_⟩
    rw [h6] at h3
    rw [toNat_one hp]
    simpa using h3.symm
  · intro he
    rw [he] at h4
    have hz : (0 : BitVec P.W).toNat = 0 := by simp
    rw [hz] at h4
    have hpos := Nat.two_pow_pos (P.W - p.len)
    have h5 : 2 ^ (P.W - p.len) = 1 := by omega
    have h6 : P.W - p.len = 0 := by
      rcases Nat.eq_zero_or_pos (P.W - p.len) with h | h
      · exact h
      · exact absurd h5 (Nat.ne_of_gt (Nat.one_lt_two_pow (by omega)))
    refine ⟨by omega, BitVec.eq_of_toNat_eq ?_⟩
    rw [h6] at h4
    simp at h4 ⊢
    omega

theorem belowMax_ranges {op : Op P} (ha : op.Allowed) (h : op.BelowMax) :
    ∀ r ∈ op.ranges, r.Valid → if op.isRemove then r.hi.id ≠ maxV P else r.hi.id ≠ maxV P := by
  have key : ∀ r ∈ op.ranges, r.hi.id ≠ maxV P := by
    intro r hr
    cases op with
    | addRange q => rw [List.mem_singleton.1 hr]; exact h
    | removeRange q => rw [List.mem_singleton.1 hr]; exact h
    | addId p => exact fun he => h (blockMax ha (by simpa [Op.ranges] using hr) he)
    | removeId p => exact fun he => h (blockMax ha.1 (by simpa [Op.ranges] using hr) he)
    | addSet rr => exact h r hr
    | ipSet => simp [Op.ranges] at hr
  intro r hr _
  split
  · exact key r hr
  · exact key r hr

theorem notOne_ranges (hp : 1 < P.W) {op : Op P} (ha : op.Allowed) (h : op.NotOne) :
    ∀ r ∈ op.ranges, r.Valid →
      if op.isRemove then r.lo.id ≠ 1 ∧ r.hi.id ≠ 0 else r.lo.id ≠ 1 := by
  intro r hr _
  cases op with
  | addRange q => rw [List.mem_singleton.1 hr]; exact h
  | removeRange q => rw [List.mem_singleton.1 hr]; exact h
  | addId p =>
    exact fun he => h ((blockLow hp ha (by simpa [Op.ranges] using hr)).1 he)
  | removeId p =>
    have := blockLow hp ha.1 (by simpa [Op.ranges] using hr)
    refine ⟨fun he => h ?_, fun he => h ?_⟩
    · obtain ⟨a, b⟩ := this.1 he; exact ⟨a, .inr b⟩
    · obtain ⟨a, b⟩ := this.2 he; exact ⟨a, .inl b⟩
  | addSet rr => exact h r hr
  | ipSet => simp [Op.ranges] at hr

/-! ### the general form -/

theorem ipSet_spec (A : Arith P) {s : Builder P} (h : Inv s) :
    ∃ m, s.ipSet = .ok ({ s with ins := m, outs := [], errs := false }, ⟨m⟩, s.errs) ∧
      Canonical m ∧ (Clean s → ∀ i, HasAny m i ↔ s.Mem i) := by
  obtain ⟨m, h1, h2, _, h4⟩ := normalize_mem A h
  refine ⟨m, ?_, h2, h4⟩
  unfold Builder.ipSet
  simp only [h1]

theorem algebra (A : Arith P) (ops : List (Op P)) (ha : ∀ op ∈ ops, op.Allowed)
    (hw : (∀ op ∈ ops, op.BelowMax) ∨ (∀ op ∈ ops, op.NotOne)) :
    ∃ s s' set err, Builder.empty.run ops = .ok s ∧ s.ipSet = .ok (s', set, err) ∧
      ∀ i, HasAny set.rr i ↔ denote ops i := by
  have hmem0 : (Builder.empty : Builder P).Mem = fun _ => False := by
    funext i
    unfold Builder.Mem Builder.empty
    rw [hasAny_nil]
    simp
  have fin : ∀ {I O : Rng P → Prop} (_ : Excl P I O),
      (∀ op ∈ ops, ∀ r ∈ op.ranges, r.Valid → if op.isRemove then O r else I r) →
      ∃ s s' set err, Builder.empty.run ops = .ok s ∧ s.ipSet = .ok (s', set, err) ∧
        ∀ i, HasAny set.rr i ↔ denote ops i := by
    intro I O E hc
    obtain ⟨s, h1, h2, _, h4⟩ := run_spec A E ops inv_empty ha
    obtain ⟨f1, f2, f3⟩ := h4 (by simp [Builder.empty]) (by simp [Builder.empty]) hc
    obtain ⟨m, g1, g2, g3⟩ := ipSet_spec A h2
    refine ⟨s, _, _, _, h1, g1, fun i => ?_⟩
    rw [g3 ⟨E.noWrapI _ f1, E.noWrapO _ f2⟩ i, f3 i, hmem0]
    rfl
  rcases hw with hw | hw
  · exact fin (excl_max A.pos) (fun op ho => belowMax_ranges (ha op ho) (hw op ho))
  · exact fin (excl_one A) (fun op ho => notOne_ranges A.pos (ha op ho) (hw op ho))

/-! ### C36 -/

theorem pair_sorted {a b : Rng P} (h : sortLe a b) : sortRanges [a, b] = [a, b] := by
  unfold sortRanges
  apply List.mergeSort_of_pairwise
  rw [List.pairwise_cons]
  refine ⟨?_, List.pairwise_singleton _ _⟩
  intro c hc
  rw [List.mem_singleton.1 hc]
  exact notLess_iff.2 h

/-- **C36, violated** (all packages) After adding the range of all values and then the range 1-5,
the set is 0-5: `mergeRanges` takes 1 for the successor of the largest value. -/
theorem C36_full_range_violated (hP : P = id16 ∨ P = id32 ∨ P = id64) :
    ∃ s s' set, (Builder.empty : Builder P).run
        [.addRange (rangeFrom 0 (BitVec.allOnes P.W)), .addRange (rangeFrom 1 5)] = .ok s ∧
      s.ipSet = .ok (s', set, false) ∧ set.rr = [rangeFrom 0 5] ∧
      denote [.addRange (rangeFrom 0 (BitVec.allOnes P.W)), .addRange (rangeFrom 1 5)]
        (⟨6, P.W⟩ : MyId P) ∧
      ¬ HasAny set.rr (⟨6, P.W⟩ : MyId P) := by
  have hs : sortLe (rangeFrom 0 (BitVec.allOnes P.W) : Rng P) (rangeFrom 1 5) := by
    left
    rw [key_lt_iff]
    right
    rcases hP with rfl | rfl | rfl <;> exact ⟨rfl, by decide⟩
  have hmerge : mergeRanges [(rangeFrom 0 (BitVec.allOnes P.W) : Rng P), rangeFrom 1 5] =
      some [rangeFrom 0 5] := by
    unfold mergeRanges
    simp only [pair_sorted hs]
    rcases hP with rfl | rfl | rfl <;> decide
  refine ⟨⟨[rangeFrom 0 (BitVec.allOnes P.W), rangeFrom 1 5], [], false⟩, ⟨[rangeFrom 0 5], [], false⟩,
    ⟨[rangeFrom 0 5]⟩, ?_, ?_, rfl, ?_, ?_⟩
  · rcases hP with rfl | rfl | rfl <;> rfl
  · unfold Builder.ipSet Builder.normalize
    simp only [hmerge]
    simp only [mergeRanges, normLoop]
    rfl
  · left
    right
    rcases hP with rfl | rfl | rfl <;>
      exact ⟨⟨rfl, by decide⟩, rfl, by decide, by decide⟩
  · rintro ⟨r, hr, h⟩
    rw [List.mem_singleton.1 hr] at h
    rcases hP with rfl | rfl | rfl <;> exact absurd h.2.2 (by decide)

/-- **C36, violated** id64: after adding `0..2^40` and removing `2^33..2^34`, `2^32` is missing. -/
theorem C36_remove64_violated :
    ∃ s s' set, (Builder.empty : Builder id64).run
        [.addRange (rangeFrom 0 0x10000000000), .removeRange (rangeFrom 0x200000000 0x400000000)]
          = .ok s ∧
      s.ipSet = .ok (s', set, false) ∧
      denote [.addRange (rangeFrom 0 0x10000000000), .removeRange (rangeFrom 0x200000000 0x400000000)]
        (⟨0x100000000, 64⟩ : MyId id64) ∧
      ¬ HasAny set.rr (⟨0x100000000, 64⟩ : MyId id64) := by
  have hn : normLoop [] [(rangeFrom 0 0x10000000000 : Rng id64)] [rangeFrom 0x200000000 0x400000000] =
      .ok [rangeFrom 0 0xfffffffe, rangeFrom 0x400000001 0x10000000000] := by
    simp [normLoop, rangeFrom, Rng.isValid, Rng.entirelyBefore, Rng.coveredBy, Rng.inMiddleOf,
      MyId.less, MyId.compare, lessOrEq, Rng.setFrom, MyId.prev, MyId.next, id64, subOne64, addOne64,
      sub32, add64]
  refine ⟨⟨[rangeFrom 0 0x10000000000], [rangeFrom 0x200000000 0x400000000], false⟩,
    ⟨[rangeFrom 0 0xfffffffe, rangeFrom 0x400000001 0x10000000000], [], false⟩,
    ⟨[rangeFrom 0 0xfffffffe, rangeFrom 0x400000001 0x10000000000]⟩, rfl, ?_, ?_, ?_⟩
  · unfold Builder.ipSet Builder.normalize
    simp only [mergeRanges, hn]
  · refine ⟨.inr ⟨⟨rfl, by decide⟩, rfl, by decide, by decide⟩, ?_⟩
    rintro ⟨_, h⟩
    exact absurd h.2.1 (by decide)
  · rintro ⟨r, hr, h⟩
    rcases List.mem_cons.1 hr with rfl | hr
    · exact absurd h.2.2 (by decide)
    · rw [List.mem_singleton.1 hr] at h
      exact absurd h.2.1 (by decide)

/-- **C36, partial** (id16, id32) After any sequence of calls `IPSet` returns the set obtained by
performing the unions and differences in order, provided that no call touches the largest value,
or that no call adds a range starting at 1 or removes one starting at 1 or ending at 0. Missing:
sequences that do both, where the code can lose ids (`C36_full_range_violated`). -/
theorem C36_set_algebra_partial (hP : P = id16 ∨ P = id32) (ops : List (Op P))
    (hf : ∀ op ∈ ops, op.Fits)
    (hw : (∀ op ∈ ops, op.BelowMax) ∨ (∀ op ∈ ops, op.NotOne)) :
    ∃ s s' set err, Builder.empty.run ops = .ok s ∧ s.ipSet = .ok (s', set, err) ∧
      ∀ i, HasAny set.rr i ↔ denote ops i :=
  algebra (by rcases hP with rfl | rfl; exact Arith16; exact Arith32) ops
    (fun op ho => (hf op ho).allowed (good_of hP)) hw

/-- in id64 the arguments handled: removed ranges start below `2^32`, added prefixes have lengths
1 to 32, removed ones moreover start at 0 -/
def Op.Fits64 : Op id64 → Prop
  | .removeRange r => r.lo.id.toNat < 2 ^ 32
  | .addId p => 1 ≤ p.len ∧ p.len ≤ 32
  | .removeId p => 1 ≤ p.len ∧ p.len ≤ 32 ∧ p.id.toNat < 2 ^ (64 - p.len)
  | .addSet rr => Canonical rr
  | _ => True

theorem Op.Fits64.allowed {op : Op id64} (h : op.Fits64) : op.Allowed := by
  cases op with
  | addRange r => trivial
  | removeRange r => exact fun h0 => subOne64_eq _ h0 h
  | addId p => exact prefOk64 h.1 h.2
  | removeId p =>
    refine ⟨prefOk64 h.1 h.2.1, fun h0 => absurd ?_ h0⟩
    unfold blockStart
    rw [Nat.div_eq_of_lt (show p.id.toNat < 2 ^ (id64.W - p.len) from h.2.2)]
    simp
  | addSet rr => exact h.1
  | ipSet => trivial

/-- **C36, partial** id64, for the arguments of `Fits64`. -/
theorem C36_set_algebra64_partial (ops : List (Op id64)) (hf : ∀ op ∈ ops, op.Fits64)
    (hw : (∀ op ∈ ops, op.BelowMax) ∨ (∀ op ∈ ops, op.NotOne)) :
    ∃ s s' set err, Builder.empty.run ops = .ok s ∧ s.ipSet = .ok (s', set, err) ∧
      ∀ i, HasAny set.rr i ↔ denote ops i :=
  algebra Arith64 ops (fun op ho => (hf op ho).allowed) hw

-- the hypotheses allow full ranges, single ids and removal in the middle
example : ∀ op ∈ [Op.addRange (rangeFrom 0 65535 : Rng id16), .removeRange (rangeFrom 10 20),
    .addId ⟨12, 16⟩, .ipSet, .removeId ⟨0xff00, 8⟩], op.Fits ∧ op.NotOne := by
  intro op h
  simp only [List.mem_cons, List.mem_nil_iff, or_false] at h
  rcases h with rfl | rfl | rfl | rfl | rfl <;> simp only [Op.Fits, Op.NotOne] <;> decide

/-! ### C37 -/

/-- **C37** (id16, id32) Whatever the calls, the ranges of the set returned by `IPSet` are valid,
strictly ascending, pairwise disjoint and not adjacent. -/
theorem C37_canonical (hP : P = id16 ∨ P = id32) (ops : List (Op P)) (hf : ∀ op ∈ ops, op.Fits) :
    ∃ s s' set err, Builder.empty.run ops = .ok s ∧ s.ipSet = .ok (s', set, err) ∧
      Canonical set.rr := by
  have A := arith_of (hP.imp id Or.inl)
  obtain ⟨s, h1, h2, _⟩ := run_spec A excl_false ops inv_empty
    (fun op ho => (hf op ho).allowed (good_of hP))
  obtain ⟨m, g1, g2, _⟩ := ipSet_spec A h2
  exact ⟨s, _, _, _, h1, g1, g2⟩

-- overlapping and touching ranges, a removal in the middle
example : ∀ op ∈ [Op.addRange (rangeFrom 5 9 : Rng id16), .addRange (rangeFrom 10 20), .addRange (rangeFrom 7 30), .removeRange (rangeFrom 12 12)],
    op.Fits := by
  intro op h
  simp only [List.mem_cons, List.mem_nil_iff, or_false] at h
  rcases h with rfl | rfl | rfl | rfl <;> simp only [Op.Fits] <;> decide

/-- **C37** Canonical lists with the same members are equal. -/
theorem C37_unique {l m : List (Rng P)} (hl : Canonical l) (hm : Canonical m)
    (h : ∀ i, HasAny l i ↔ HasAny m i) : l = m := canonical_unique hl hm h

/-- **C37** Two call sequences that describe the same set return equal range lists, whatever the
order (for the arguments of `C36_set_algebra_partial`). -/
theorem C37_order_irrelevant (hP : P = id16 ∨ P = id32) (ops ops' : List (Op P))
    (hf : ∀ op ∈ ops, op.Fits) (hf' : ∀ op ∈ ops', op.Fits)
    (hw : (∀ op ∈ ops, op.BelowMax) ∨ (∀ op ∈ ops, op.NotOne))
    (hw' : (∀ op ∈ ops', op.BelowMax) ∨ (∀ op ∈ ops', op.NotOne))
    (h : ∀ i, denote ops i ↔ denote ops' i) :
    ∃ s t s' t' set set' err err', Builder.empty.run ops = .ok s ∧ s.ipSet = .ok (s', set, err) ∧
      Builder.empty.run ops' = .ok t ∧ t.ipSet = .ok (t', set', err') ∧ set.rr = set'.rr := by
  obtain ⟨s, s', set, err, a1, a2, a3⟩ := C36_set_algebra_partial hP ops hf hw
  obtain ⟨t, t', set', err', b1, b2, b3⟩ := C36_set_algebra_partial hP ops' hf' hw'
  refine ⟨s, t, s', t', set, set', err, err', a1, a2, b1, b2, ?_⟩
  obtain ⟨_, _, _, _, c1, c2, c3⟩ := C37_canonical hP ops hf
  obtain ⟨_, _, _, _, d1, d2, d3⟩ := C37_canonical hP ops' hf'
  rw [a1] at c1; cases c1
  rw [a2] at c2; cases c2
  rw [b1] at d1; cases d1
  rw [b2] at d2; cases d2
  exact canonical_unique c3 d3 (fun i => by rw [a3, b3, h])

-- the same ids added as one range and as two ranges in the other order
example : (∀ op ∈ [Op.addRange (rangeFrom 5 20 : Rng id16)], op.Fits ∧ op.BelowMax) ∧
    (∀ op ∈ [Op.addRange (rangeFrom 10 20 : Rng id16), .addRange (rangeFrom 5 9)], op.Fits ∧ op.BelowMax) := by
  constructor <;> intro op h <;> simp only [List.mem_cons, List.mem_nil_iff, or_false] at h
  · subst h; simp only [Op.Fits, Op.BelowMax]; decide
  · rcases h with rfl | rfl <;> simp only [Op.Fits, Op.BelowMax] <;> decide

/-- **C37, violated** id64: after adding `2^33..2^35` and removing `2^34..2^34+5`, the first range
of the set ends before it starts. -/
theorem C37_canonical64_violated :
    ∃ s s' set, (Builder.empty : Builder id64).run
        [.addRange (rangeFrom 0x200000000 0x800000000),
         .removeRange (rangeFrom 0x400000000 0x400000005)] = .ok s ∧
      s.ipSet = .ok (s', set, false) ∧
      set.rr = [rangeFrom 0x200000000 0xfffffffe, rangeFrom 0x400000006 0x800000000] ∧
      s' = ⟨set.rr, [], false⟩ ∧ ¬ Canonical set.rr := by
  have hn : normLoop [] [(rangeFrom 0x200000000 0x800000000 : Rng id64)]
      [rangeFrom 0x400000000 0x400000005] =
      .ok [rangeFrom 0x200000000 0xfffffffe, rangeFrom 0x400000006 0x800000000] := by
    simp [normLoop, rangeFrom, Rng.isValid, Rng.entirelyBefore, Rng.coveredBy, Rng.inMiddleOf,
      MyId.less, MyId.compare, lessOrEq, Rng.setFrom, MyId.prev, MyId.next, id64, subOne64, addOne64,
      sub32, add64]
  refine ⟨⟨[rangeFrom 0x200000000 0x800000000], [rangeFrom 0x400000000 0x400000005], false⟩,
    ⟨[rangeFrom 0x200000000 0xfffffffe, rangeFrom 0x400000006 0x800000000], [], false⟩,
    ⟨[rangeFrom 0x200000000 0xfffffffe, rangeFrom 0x400000006 0x800000000]⟩, rfl, ?_, rfl, rfl, ?_⟩
  · unfold Builder.ipSet Builder.normalize
    simp only [mergeRanges, hn]
  · intro h
    have := (h.1 _ List.mem_cons_self).2
    exact absurd this (by decide)

/-- **C37, partial** id64, for the arguments of `Fits64`. -/
theorem C37_canonical64_partial (ops : List (Op id64)) (hf : ∀ op ∈ ops, op.Fits64) :
    ∃ s s' set err, Builder.empty.run ops = .ok s ∧ s.ipSet = .ok (s', set, err) ∧
      Canonical set.rr := by
  obtain ⟨s, h1, h2, _⟩ := run_spec Arith64 excl_false ops inv_empty (fun op ho => (hf op ho).allowed)
  obtain ⟨m, g1, g2, _⟩ := ipSet_spec Arith64 h2
  exact ⟨s, _, _, _, h1, g1, g2⟩

/-! ### C38 -/

/-- sets passed to `AddSet` are canonical; prefix lengths are arbitrary -/
def Op.SetOk : Op P → Prop
  | .addSet rr => Canonical rr
  | _ => True

/-- **C38** (id16, id32) No sequence of calls, with any ranges and any prefix lengths, reaches the
panics `invalid IPRanges` and `unexpected additional overlap scenario`, not even in a final
`IPSet`. -/
theorem C38_no_panic (hP : P = id16 ∨ P = id32) (ops : List (Op P)) (hf : ∀ op ∈ ops, op.SetOk) :
    Builder.empty.run ops ≠ .panicInvalid ∧ Builder.empty.run ops ≠ .panicOverlap ∧
    ∀ s, Builder.empty.run ops = .ok s → ∃ r, s.ipSet = .ok r := by
  have A := arith_of (hP.imp id Or.inl)
  have G := good_of hP
  have key : ∀ (ops : List (Op P)), (∀ op ∈ ops, op.SetOk) → ∀ s : Builder P, Inv s →
      (s.run ops = .panicNil ∨ ∃ s', s.run ops = .ok s' ∧ Inv s') := by
    intro ops
    induction ops with
    | nil => intro _ s h; exact .inr ⟨s, rfl, h⟩
    | cons op ops ih =>
      intro hf s h
      by_cases hfit : op.Fits
      · obtain ⟨s1, h1, h2, _⟩ := step_spec A excl_false h op (hfit.allowed G)
        rcases ih (fun o ho => hf o (by simp [ho])) s1 h2 with h3 | h3
        · left; unfold Builder.run; rw [h1]; exact h3
        · right; unfold Builder.run; rw [h1]; exact h3
      · left
        have hnone : ∀ p : MyId P, ¬ p.len ≤ P.W → rangeOfID p = none := by
          intro p hp
          unfold rangeOfID
          rw [(C30_mask hP p p.len).1 (by omega)]
        unfold Builder.run
        cases op with
        | addRange r => exact absurd trivial hfit
        | removeRange r => exact absurd trivial hfit
        | addId p =>
          simp only [Builder.step, Builder.addId, hnone p hfit]
        | removeId p =>
          simp only [Builder.step, Builder.removeId, hnone p hfit]
        | addSet rr => exact absurd (hf _ List.mem_cons_self) hfit
        | ipSet => exact absurd trivial hfit
  rcases key ops hf _ inv_empty with h | ⟨s, h, hi⟩
  · rw [h]
    refine ⟨by simp, by simp, by simp⟩
  · rw [h]
    refine ⟨by simp, by simp, ?_⟩
    intro s' hs
    cases hs
    obtain ⟨m, g1, _⟩ := ipSet_spec A hi
    exact ⟨_, g1⟩

/-- **C38, violated** id64: add `2^33..2^35`, remove `2^34..2^34+5`, `IPSet`, remove `1..2`,
`IPSet` panics with `invalid IPRanges`. -/
theorem C38_panic64_violated :
    (Builder.empty : Builder id64).run
      [.addRange (rangeFrom 0x200000000 0x800000000),
       .removeRange (rangeFrom 0x400000000 0x400000005), .ipSet,
       .removeRange (rangeFrom 1 2), .ipSet] = .panicInvalid := by
  obtain ⟨s, s', set, h1, h2, h3, hins, _⟩ := C37_canonical64_violated
  rw [h3] at hins
  have hs : sortLe (rangeFrom 0x200000000 0xfffffffe : Rng id64) (rangeFrom 0x400000006 0x800000000) := by
    left
    rw [key_lt_iff]
    exact .inr ⟨rfl, by decide⟩
  have hmerge : mergeRanges [(rangeFrom 0x200000000 0xfffffffe : Rng id64), rangeFrom 0x400000006 0x800000000] =
      some [rangeFrom 0x200000000 0xfffffffe, rangeFrom 0x400000006 0x800000000] := by
    unfold mergeRanges
    simp only [pair_sorted hs]
    decide
  have hnorm : (⟨[rangeFrom 0x200000000 0xfffffffe, rangeFrom 0x400000006 0x800000000],
      [rangeFrom 1 2], false⟩ : Builder id64).normalize = .panicInvalid := by
    unfold Builder.normalize
    simp only [hmerge]
    simp [mergeRanges, normLoop, rangeFrom, Rng.isValid, id64]
  rw [show ([.addRange (rangeFrom 0x200000000 0x800000000),
       .removeRange (rangeFrom 0x400000000 0x400000005), .ipSet,
       .removeRange (rangeFrom 1 2), .ipSet] : List (Op id64)) =
       [.addRange (rangeFrom 0x200000000 0x800000000),
       .removeRange (rangeFrom 0x400000000 0x400000005)] ++ [.ipSet,
       .removeRange (rangeFrom 1 2), .ipSet] from rfl, run_append, h1]
  simp only [Builder.run, Builder.step, h2, hins]
  simp only [Builder.removeRange, show (rangeFrom 1 2 : Rng id64).isValid = true by decide, if_true,
    List.nil_append, Builder.ipSet, hnorm]

/-- **C38, partial** id64, for the arguments of `Fits64`. -/
theorem C38_no_panic64_partial (ops : List (Op id64)) (hf : ∀ op ∈ ops, op.Fits64) :
    ∃ s r, Builder.empty.run ops = .ok s ∧ s.ipSet = .ok r := by
  obtain ⟨s, s', set, err, h1, h2, _⟩ := C37_canonical64_partial ops hf
  exact ⟨s, _, h1, h2⟩

-- removals that start below 2^32
example : ∀ op ∈ [Op.addRange (rangeFrom 5 0xffffffff00000000 : Rng id64), .removeRange (rangeFrom 7 0x100000000), .addId ⟨3, 32⟩], op.Fits64 := by
  intro op h
  simp only [List.mem_cons, List.mem_nil_iff, or_false] at h
  rcases h with rfl | rfl | rfl <;> simp only [Op.Fits64] <;> decide

/-! ### C39 -/

theorem flag_iff (ops : List (Op P)) : ∀ b, ops.foldl (fun b op => op.flag b) b = true ↔
    (b = true ∧ Op.ipSet ∉ ops) ∨ BadSince ops := by
  induction ops with
  | nil => intro b; simp [BadSince]
  | cons op ops ih =>
    intro b
    rw [List.foldl_cons, ih]
    have hbs : BadSince (op :: ops) ↔ (op.Bad ∧ Op.ipSet ∉ ops) ∨ BadSince ops := by
      unfold BadSince
      constructor
      · rintro ⟨a, o, c, he, h1, h2⟩
        cases a with
        | nil => simp at he; obtain ⟨rfl, rfl⟩ := he; exact .inl ⟨h1, h2⟩
        | cons x a => simp at he; exact .inr ⟨a, o, c, he.2, h1, h2⟩
      · rintro (⟨h1, h2⟩ | ⟨a, o, c, he, h1, h2⟩)
        · exact ⟨[], op, ops, rfl, h1, h2⟩
        · exact ⟨op :: a, o, c, by rw [he]; rfl, h1, h2⟩
    rw [hbs, List.mem_cons, not_or]
    have hv : ∀ r : Rng P, (!r.isValid) = true ↔ ¬ r.Valid := by
      intro r
      rw [Bool.not_eq_true', ← Bool.not_eq_true, isValid_iff]
    cases op with
    | addRange r =>
      simp only [Op.flag, Bool.or_eq_true, hv, Op.Bad]
      by_cases hi : Op.ipSet ∈ ops <;> simp [hi, or_assoc]
    | removeRange r =>
      simp only [Op.flag, Bool.or_eq_true, hv, Op.Bad]
      by_cases hi : Op.ipSet ∈ ops <;> simp [hi, or_assoc]
    | addId p => simp [Op.flag, Op.Bad]
    | removeId p => simp [Op.flag, Op.Bad]
    | addSet rr => simp [Op.flag, Op.Bad]
    | ipSet => simp [Op.flag, Op.Bad]

theorem normalize_errs (s : Builder P) (e : Bool) : ({ s with errs := e } : Builder P).normalize =
    match s.normalize with
    | .ok t => .ok { t with errs := e }
    | .panicInvalid => .panicInvalid
    | .panicOverlap => .panicOverlap
    | .panicNil => .panicNil := by
  unfold Builder.normalize
  cases mergeRanges s.ins with
  | none => rfl
  | some a =>
    cases mergeRanges s.outs with
    | none => rfl
    | some b =>
      simp only
      cases normLoop [] a b <;> rfl

open Classical in
theorem invalid_reported (A : Arith P) (ops : List (Op P)) (ha : ∀ op ∈ ops, op.Allowed) :
    ∃ s s' set err t t' err', Builder.empty.run ops = .ok s ∧ s.ipSet = .ok (s', set, err) ∧
      (err = true ↔ BadSince ops) ∧
      Builder.empty.run (ops.filter (fun op => ¬ op.Bad)) = .ok t ∧ t.ipSet = .ok (t', set, err') ∧
      (∃ s'', s'.ipSet = .ok (s'', set, false)) := by
  obtain ⟨s, h1, h2, h3, _⟩ := run_spec A excl_false ops inv_empty ha
  obtain ⟨m, n1, g2, _⟩ := normalize_mem A h2
  have g1 : s.ipSet = .ok ({ s with ins := m, outs := [], errs := false }, ⟨m⟩, s.errs) := by
    unfold Builder.ipSet
    simp only [n1]
  -- without the invalid calls
  have hfil : ∀ (ops : List (Op P)) (s : Builder P) (e : Bool) (s1 : Builder P),
      s.run ops = .ok s1 → ∃ e', ({ s with errs := e } : Builder P).run
        (ops.filter (fun op => ¬ op.Bad)) = .ok { s1 with errs := e' } := by
    intro ops
    induction ops with
    | nil => intro s e s1 h; cases h; exact ⟨e, rfl⟩
    | cons op ops ih =>
      intro s e s1 h
      have hadd : ∀ (s : Builder P) (e : Bool) (r : Rng P) (s2 : Builder P), r.Valid →
          s.addRange r = .ok s2 →
          ({ s with errs := e } : Builder P).addRange r = .ok { s2 with errs := e } := by
        intro s e r s2 hv hs
        unfold Builder.addRange at hs ⊢
        simp only [isValid_iff.2 hv, Bool.not_true, Bool.false_eq_true, if_false] at hs ⊢
        split at hs
        · rename_i hl
          simp only [hl, if_true]
          rw [normalize_errs]
          cases hn : s.normalize with
          | ok t => rw [hn] at hs; cases hs; rfl
          | panicInvalid => rw [hn] at hs; cases hs
          | panicOverlap => rw [hn] at hs; cases hs
          | panicNil => rw [hn] at hs; cases hs
        · rename_i hl
          simp only [hl, if_false]
          cases hs; rfl
      have hrem : ∀ (s : Builder P) (e : Bool) (r : Rng P) (s2 : Builder P), r.Valid →
          s.removeRange r = .ok s2 →
          ({ s with errs := e } : Builder P).removeRange r = .ok { s2 with errs := e } := by
        intro s e r s2 hv hs
        unfold Builder.removeRange at hs ⊢
        simp only [isValid_iff.2 hv, if_true] at hs ⊢
        cases hs; rfl
      unfold Builder.run at h
      cases hst : s.step op with
      | ok s2 =>
        rw [hst] at h
        by_cases hb : op.Bad
        · have hsame : ∃ e2, s2 = { s with errs := e2 } := by
            cases op with
            | addRange r =>
              rw [show s.step (.addRange r) = s.addRange r from rfl, addRange_invalid hb] at hst
              cases hst; exact ⟨_, rfl⟩
            | removeRange r =>
              rw [show s.step (.removeRange r) = s.removeRange r from rfl, removeRange_invalid hb] at hst
              cases hst; exact ⟨_, rfl⟩
            | _ => exact hb.elim
          obtain ⟨e2, rfl⟩ := hsame
          rw [List.filter_cons_of_neg (by simpa using hb)]
          exact ih { s with errs := e2 } e s1 h
        · rw [List.filter_cons_of_pos (by simpa using hb)]
          have hst2 : ∃ e2, ({ s with errs := e } : Builder P).step op = .ok { s2 with errs := e2 } := by
            cases op with
            | addRange r => exact ⟨e, hadd s e r s2 (Classical.not_not.1 hb) hst⟩
            | removeRange r => exact ⟨e, hrem s e r s2 (Classical.not_not.1 hb) hst⟩
            | addId p =>
              unfold Builder.step Builder.addId at hst ⊢
              cases hr : rangeOfID p with
              | none => simp only [hr] at hst; cases hst
              | some r =>
                simp only [hr] at hst ⊢
                by_cases hv : r.isValid = true
                · simp only [hv, if_true] at hst ⊢
                  exact ⟨e, hadd s e r s2 (isValid_iff.1 hv) hst⟩
                · simp only [hv, if_false, Bool.false_eq_true] at hst ⊢
                  cases hst; exact ⟨_, rfl⟩
            | removeId p =>
              unfold Builder.step Builder.removeId at hst ⊢
              cases hr : rangeOfID p with
              | none => simp only [hr] at hst; cases hst
              | some r =>
                simp only [hr] at hst ⊢
                by_cases hv : r.isValid = true
                · simp only [hv, if_true] at hst ⊢
                  exact ⟨e, hrem s e r s2 (isValid_iff.1 hv) hst⟩
                · simp only [hv, if_false, Bool.false_eq_true] at hst ⊢
                  cases hst; exact ⟨_, rfl⟩
            | addSet rr =>
              have : ∀ (rr : List (Rng P)) (s : Builder P) (e : Bool) (s2 : Builder P),
                  s.addSet rr = .ok s2 → ∃ e2, ({ s with errs := e } : Builder P).addSet rr =
                    .ok { s2 with errs := e2 } := by
                intro rr
                induction rr with
                | nil => intro s e s2 hs; cases hs; exact ⟨e, rfl⟩
                | cons r rr ihr =>
                  intro s e s2 hs
                  unfold Builder.addSet at hs ⊢
                  by_cases hv : r.Valid
                  · cases ha : s.addRange r with
                    | ok s3 =>
                      rw [ha] at hs
                      rw [hadd s e r s3 hv ha]
                      exact ihr _ _ _ hs
                    | panicInvalid => rw [ha] at hs; cases hs
                    | panicOverlap => rw [ha] at hs; cases hs
                    | panicNil => rw [ha] at hs; cases hs
                  · rw [addRange_invalid hv] at hs ⊢
                    exact ihr { s with errs := true } true _ hs
              exact this rr s e s2 hst
            | ipSet =>
              unfold Builder.step Builder.ipSet at hst ⊢
              rw [normalize_errs]
              cases hn : s.normalize with
              | ok t => simp only [hn] at hst ⊢; cases hst; exact ⟨_, rfl⟩
              | panicInvalid => simp only [hn] at hst; cases hst
              | panicOverlap => simp only [hn] at hst; cases hst
              | panicNil => simp only [hn] at hst; cases hst
          obtain ⟨e2, hst2⟩ := hst2
          unfold Builder.run
          rw [hst2]
          exact ih s2 e2 s1 h
      | panicInvalid => rw [hst] at h; cases h
      | panicOverlap => rw [hst] at h; cases h
      | panicNil => rw [hst] at h; cases h
  obtain ⟨e', ht⟩ := hfil ops Builder.empty false s h1
  have hip : ({ s with errs := e' } : Builder P).ipSet =
      .ok (({ s with ins := m, outs := [], errs := false } : Builder P), (⟨m⟩ : IDSet P), e') := by
    unfold Builder.ipSet
    rw [normalize_errs, n1]
  -- the second IPSet
  have hinv' : Inv ({ s with ins := m, outs := [], errs := false } : Builder P) :=
    ⟨g2.1, by simp, by simp⟩
  obtain ⟨m2, k1, k2, k3⟩ := ipSet_spec A hinv'
  have hm2 : m2 = m := by
    apply canonical_unique k2 g2
    intro i
    rw [k3 ⟨canonical_noWrap A.pos g2, by intro a ha; simp at ha⟩ i]
    unfold Builder.Mem
    simp only [hasAny_nil, not_false_eq_true, and_true]
  refine ⟨s, _, ⟨m⟩, s.errs, { s with errs := e' }, _, e', h1, g1, ?_, ht, hip, ?_⟩
  · rw [h3, flag_iff]
    simp [Builder.empty]
  · rw [hm2] at k1
    exact ⟨_, k1⟩

open Classical in
/-- **C39** (id16, id32) Calls with invalid ranges leave the set as it would be without them;
`IPSet` reports an error iff such a call was made since the previous `IPSet`; calling `IPSet` again
returns the same ranges and no error. -/
theorem C39_invalid_reported (hP : P = id16 ∨ P = id32) (ops : List (Op P))
    (hf : ∀ op ∈ ops, op.Fits) :
    ∃ s s' set err t t' err', Builder.empty.run ops = .ok s ∧ s.ipSet = .ok (s', set, err) ∧
      (err = true ↔ BadSince ops) ∧
      Builder.empty.run (ops.filter (fun op => ¬ op.Bad)) = .ok t ∧ t.ipSet = .ok (t', set, err') ∧
      (∃ s'', s'.ipSet = .ok (s'', set, false)) :=
  invalid_reported (arith_of (hP.imp id Or.inl)) ops (fun op ho => (hf op ho).allowed (good_of hP))

open Classical in
/-- **C39, partial** id64, for the arguments of `Fits64`. Missing: other removals, after which the
builder may panic (`C38_panic64_violated`). -/
theorem C39_invalid_reported64_partial (ops : List (Op id64)) (hf : ∀ op ∈ ops, op.Fits64) :
    ∃ s s' set err t t' err', Builder.empty.run ops = .ok s ∧ s.ipSet = .ok (s', set, err) ∧
      (err = true ↔ BadSince ops) ∧
      Builder.empty.run (ops.filter (fun op => ¬ op.Bad)) = .ok t ∧ t.ipSet = .ok (t', set, err') ∧
      (∃ s'', s'.ipSet = .ok (s'', set, false)) :=
  invalid_reported Arith64 ops (fun op ho => (hf op ho).allowed)

example : BadSince [Op.addRange (rangeFrom 1 2 : Rng id16), .ipSet, .removeRange (rangeFrom 5 3)] :=
  ⟨[.addRange (rangeFrom 1 2), .ipSet], _, [], rfl, (by simp only [Op.Bad, Rng.Valid]; decide), by simp⟩

end Verif.Id
