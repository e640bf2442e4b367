import Verif.Id.SetExact
import Verif.Id.SetProps

/-! Theorems C36 and C37: what the set builder does with ranges that reach both 1 and the largest
value. -/

namespace Verif.Id
variable {P : Pkg}

/-! ### specification -/

/-- what the builder is asked to do -/
inductive Prim (P : Pkg)
  | add (r : Rng P)
  | remove (r : Rng P)
  | norm

/-- the range of a prefix: `2 ^ (W - len)` values from the value with the last `W - len` bits
cleared on -/
def blockRng (p : MyId P) : Rng P :=
  let lo := p.id.toNat / 2 ^ (P.W - p.len) * 2 ^ (P.W - p.len)
  rangeFrom (BitVec.ofNat _ lo) (BitVec.ofNat _ (lo + (2 ^ (P.W - p.len) - 1)))

/-- a call, as a sequence of such requests -/
def Op.prims : Op P → List (Prim P)
  | .addRange r => [.add r]
  | .removeRange r => [.remove r]
  | .addId p => [.add (blockRng p)]
  | .removeId p => [.remove (blockRng p)]
  | .addSet rr => rr.map .add
  | .ipSet => [.norm]

/-- the canonical list of what `I` counts for and `O` does not -/
def Norm (I O m : List (Rng P)) : Prop :=
  Canonical m ∧ ∀ i, HasAny m i ↔ Merged I i ∧ ¬ Merged O i

/-- What becomes of the ranges added (`I`) and removed (`O`) since the last normalisation; an
addition after removals normalises first. -/
inductive Does : List (Rng P) → List (Rng P) → Prim P → List (Rng P) → List (Rng P) → Prop
  | addBad {I O r} : ¬ r.Valid → Does I O (.add r) I O
  | add {I r} : r.Valid → Does I [] (.add r) (I ++ [r]) []
  | addNorm {I O m r} : r.Valid → O ≠ [] → Norm I O m → Does I O (.add r) (m ++ [r]) []
  | removeBad {I O r} : ¬ r.Valid → Does I O (.remove r) I O
  | remove {I O r} : r.Valid → Does I O (.remove r) I (O ++ [r])
  | norm {I O m} : Norm I O m → Does I O .norm m []

/-- a sequence of requests -/
inductive Steps : List (Rng P) → List (Rng P) → List (Prim P) → List (Rng P) → List (Rng P) → Prop
  | nil {I O} : Steps I O [] I O
  | cons {I O I' O' I'' O'' c cs} : Does I O c I' O' → Steps I' O' cs I'' O'' →
      Steps I O (c :: cs) I'' O''

/-! ### lemmas -/

theorem norm_unique {I O m m' : List (Rng P)} (h : Norm I O m) (h' : Norm I O m') : m = m' :=
  canonical_unique h.1 h'.1 (fun i => (h.2 i).trans (h'.2 i).symm)

theorem does_unique {I O I₁ O₁ I₂ O₂ : List (Rng P)} {c : Prim P} (h₁ : Does I O c I₁ O₁)
    (h₂ : Does I O c I₂ O₂) : I₁ = I₂ ∧ O₁ = O₂ := by
  cases h₁ with
  | addBad h => cases h₂ <;> first | exact ⟨rfl, rfl⟩ | contradiction
  | add h => cases h₂ <;> first | exact ⟨rfl, rfl⟩ | contradiction
  | addNorm h ho hn =>
    cases h₂ with
    | addBad h' => exact absurd h h'
    | add h' => exact absurd rfl ho
    | addNorm _ _ hn' => exact ⟨by rw [norm_unique hn hn'], rfl⟩
  | removeBad h => cases h₂ <;> first | exact ⟨rfl, rfl⟩ | contradiction
  | remove h => cases h₂ <;> first | exact ⟨rfl, rfl⟩ | contradiction
  | norm hn =>
    cases h₂ with
    | norm hn' => exact ⟨norm_unique hn hn', rfl⟩

theorem steps_unique {cs : List (Prim P)} : ∀ {I O I₁ O₁ I₂ O₂ : List (Rng P)},
    Steps I O cs I₁ O₁ → Steps I O cs I₂ O₂ → I₁ = I₂ ∧ O₁ = O₂ := by
  induction cs with
  | nil => intro I O I₁ O₁ I₂ O₂ h₁ h₂; cases h₁; cases h₂; exact ⟨rfl, rfl⟩
  | cons c cs ih =>
    intro I O I₁ O₁ I₂ O₂ h₁ h₂
    cases h₁ with
    | cons a b =>
      cases h₂ with
      | cons a' b' =>
        obtain ⟨rfl, rfl⟩ := does_unique a a'
        exact ih b b'

theorem steps_append {cs ds : List (Prim P)} : ∀ {I O I' O' I'' O'' : List (Rng P)},
    Steps I O cs I' O' → Steps I' O' ds I'' O'' → Steps I O (cs ++ ds) I'' O'' := by
  induction cs with
  | nil => intro I O I' O' I'' O'' h₁ h₂; cases h₁; exact h₂
  | cons c cs ih =>
    intro I O I' O' I'' O'' h₁ h₂
    cases h₁ with
    | cons a b => exact .cons a (ih b h₂)

theorem normalize_norm (A : Arith P) {s : Builder P} (h : Inv s) :
    ∃ m, s.normalize = .ok { s with ins := m, outs := [] } ∧ Norm s.ins s.outs m := by
  obtain ⟨is, i1, i2⟩ := mergeRanges_merged A s.ins h.ins
  obtain ⟨os, o1, o2⟩ := mergeRanges_merged A s.outs h.outs
  obtain ⟨is', i1', ic, _⟩ := mergeRanges_spec A s.ins h.ins
  obtain ⟨os', o1', oc, o3, _⟩ := mergeRanges_spec A s.outs h.outs
  rw [i1] at i1'; cases i1'
  rw [o1] at o1'; cases o1'
  have hsub : ∀ r ∈ os, SubOk P r.lo.id := by
    intro r hr
    obtain ⟨q, hq, he⟩ := o3 r hr
    rw [he]; exact h.sub q hq
  obtain ⟨m, m1, m2, _, _, m5⟩ := normLoop_spec A _ is os [] (Nat.le_refl _) ic oc hsub
  refine ⟨m, ?_, m2, fun i => ?_⟩
  · unfold Builder.normalize
    simp only [i1, o1, m1, List.nil_append]
  · rw [← i2, ← o2, hasAny_iff m2.1, hasAny_iff ic.1, hasAny_iff oc.1]
    exact m5 (key i)

theorem add_does (A : Arith P) {s : Builder P} (h : Inv s) (r : Rng P) :
    ∃ s', s.addRange r = .ok s' ∧ Inv s' ∧ Does s.ins s.outs (.add r) s'.ins s'.outs := by
  by_cases hv : r.Valid
  · unfold Builder.addRange
    simp only [isValid_iff.2 hv, Bool.not_true, Bool.false_eq_true, if_false]
    have hinv : ∀ m : List (Rng P), (∀ q ∈ m, q.Valid) → ∀ e,
        Inv (⟨m ++ [r], [], e⟩ : Builder P) := by
      intro m hm e
      refine ⟨?_, by simp, by simp⟩
      intro q hq
      rcases List.mem_append.1 hq with hq | hq
      · exact hm q hq
      · rw [List.mem_singleton.1 hq]; exact hv
    split
    · rename_i hl
      obtain ⟨m, h1, h2⟩ := normalize_norm A h
      refine ⟨⟨m ++ [r], [], s.errs⟩, by rw [h1], hinv m h2.1.1 _, .addNorm hv ?_ h2⟩
      intro ho; rw [ho] at hl; simp at hl
    · rename_i hl
      have ho : s.outs = [] := List.eq_nil_of_length_eq_zero (by omega)
      refine ⟨⟨s.ins ++ [r], [], s.errs⟩, by rw [← ho], hinv _ h.ins _, ?_⟩
      rw [ho]
      exact .add hv
  · exact ⟨_, addRange_invalid hv, ⟨h.ins, h.outs, h.sub⟩, .addBad hv⟩

theorem remove_does {s : Builder P} (h : Inv s) (r : Rng P) (hs : SubOk P r.lo.id) :
    ∃ s', s.removeRange r = .ok s' ∧ Inv s' ∧ Does s.ins s.outs (.remove r) s'.ins s'.outs := by
  by_cases hv : r.Valid
  · refine ⟨{ s with outs := s.outs ++ [r] }, ?_, ⟨h.ins, ?_, ?_⟩, .remove hv⟩
    · unfold Builder.removeRange; rw [isValid_iff.2 hv]; rfl
    · intro q hq
      rcases List.mem_append.1 hq with hq | hq
      · exact h.outs q hq
      · rw [List.mem_singleton.1 hq]; exact hv
    · intro q hq
      rcases List.mem_append.1 hq with hq | hq
      · exact h.sub q hq
      · rw [List.mem_singleton.1 hq]; exact hs
  · exact ⟨_, removeRange_invalid hv, ⟨h.ins, h.outs, h.sub⟩, .removeBad hv⟩

theorem rangeOfID_block {p : MyId P} (h : PrefOk p) : rangeOfID p = some (blockRng p) := by
  obtain ⟨⟨⟨lo, l1⟩, ⟨hi, l2⟩⟩, h0, h1, h2, h3, h4⟩ := rangeOfID_spec h
  rw [h0]
  simp only at h1 h2 h3 h4
  unfold blockRng
  simp only
  rw [← h4, ← h3, h1, h2, rangeFrom]
  simp

theorem step_does (A : Arith P) {s : Builder P} (h : Inv s) (op : Op P) (ha : op.Allowed) :
    ∃ s', s.step op = .ok s' ∧ Inv s' ∧ Steps s.ins s.outs op.prims s'.ins s'.outs := by
  cases op with
  | addRange r =>
    obtain ⟨s', h1, h2, h3⟩ := add_does A h r
    exact ⟨s', h1, h2, .cons h3 .nil⟩
  | removeRange r =>
    obtain ⟨s', h1, h2, h3⟩ := remove_does h r ha
    exact ⟨s', h1, h2, .cons h3 .nil⟩
  | addId p =>
    have hr := rangeOfID_block ha
    have hv := rangeOfID_valid ha hr
    obtain ⟨s', h1, h2, h3⟩ := add_does A h (blockRng p)
    refine ⟨s', ?_, h2, .cons h3 .nil⟩
    show s.addId p = _
    unfold Builder.addId
    simp only [hr, isValid_iff.2 hv, if_true]
    exact h1
  | removeId p =>
    have hr := rangeOfID_block ha.1
    have hv := rangeOfID_valid ha.1 hr
    obtain ⟨s', h1, h2, h3⟩ := remove_does h (blockRng p) ha.2
    refine ⟨s', ?_, h2, .cons h3 .nil⟩
    show s.removeId p = _
    unfold Builder.removeId
    simp only [hr, isValid_iff.2 hv, if_true]
    exact h1
  | addSet rr =>
    have key : ∀ (rr : List (Rng P)) (s : Builder P), Inv s →
        ∃ s', s.addSet rr = .ok s' ∧ Inv s' ∧ Steps s.ins s.outs (rr.map .add) s'.ins s'.outs := by
      intro rr
      induction rr with
      | nil => intro s h; exact ⟨s, rfl, h, .nil⟩
      | cons r rr ih =>
        intro s h
        obtain ⟨s1, h1, h2, h3⟩ := add_does A h r
        obtain ⟨s2, g1, g2, g3⟩ := ih s1 h2
        exact ⟨s2, by unfold Builder.addSet; rw [h1]; exact g1, g2, .cons h3 g3⟩
    exact key rr s h
  | ipSet =>
    obtain ⟨m, h1, h2⟩ := normalize_norm A h
    refine ⟨⟨m, [], false⟩, ?_, ⟨h2.1.1, by simp, by simp⟩, .cons (.norm h2) .nil⟩
    unfold Builder.step Builder.ipSet
    simp only [h1]

theorem run_steps (A : Arith P) (ops : List (Op P)) :
    ∀ {s : Builder P}, Inv s → (∀ op ∈ ops, op.Allowed) →
    ∃ s', s.run ops = .ok s' ∧ Inv s' ∧
      Steps s.ins s.outs (ops.flatMap Op.prims) s'.ins s'.outs := by
  induction ops with
  | nil => intro s h _; exact ⟨s, rfl, h, .nil⟩
  | cons op ops ih =>
    intro s h ha
    obtain ⟨s1, h1, h2, h3⟩ := step_does A h op (ha op List.mem_cons_self)
    obtain ⟨s2, g1, g2, g3⟩ := ih h2 (fun o ho => ha o (by simp [ho]))
    exact ⟨s2, by unfold Builder.run; rw [h1]; exact g1, g2, steps_append h3 g3⟩

theorem exact_of (A : Arith P) (ops : List (Op P)) (ha : ∀ op ∈ ops, op.Allowed) :
    ∃ s s' set err, Builder.empty.run ops = .ok s ∧ s.ipSet = .ok (s', set, err) ∧
      ∀ m, (∃ I O, Steps [] [] (ops.flatMap Op.prims) I O ∧ Norm I O m) ↔ m = set.rr := by
  obtain ⟨s, h1, h2, h3⟩ := run_steps A ops inv_empty ha
  obtain ⟨m, m1, m2⟩ := normalize_norm A h2
  refine ⟨s, ⟨m, [], false⟩, ⟨m⟩, s.errs, h1, ?_, fun m' => ⟨?_, ?_⟩⟩
  · unfold Builder.ipSet
    simp only [m1]
  · rintro ⟨I, O, g1, g2⟩
    obtain ⟨rfl, rfl⟩ := steps_unique g1 h3
    exact norm_unique g2 m2
  · rintro rfl
    exact ⟨_, _, h3, m2⟩

/-! ### C36 -/

/-- **C36, partial** (id16, id32) What `IPSet` returns after any sequence of calls, exactly. The
property fails because `mergeRanges` takes 1 for the successor of the largest value
(`C36_full_range_violated`). This and nothing else goes wrong: whenever the builder normalises,
the ranges added since the previous time, together with the result of that time, and the ranges
removed, are each cut as `Merged` says, and the returned list is the canonical list of the
difference. -/
theorem C36_builder_exact_partial (hP : P = id16 ∨ P = id32) (ops : List (Op P))
    (hf : ∀ op ∈ ops, op.Fits) :
    ∃ s s' set err, Builder.empty.run ops = .ok s ∧ s.ipSet = .ok (s', set, err) ∧
      ∀ m, (∃ I O, Steps [] [] (ops.flatMap Op.prims) I O ∧ Norm I O m) ↔ m = set.rr :=
  exact_of (by rcases hP with rfl | rfl; exact Arith16; exact Arith32) ops
    (fun op ho => (hf op ho).allowed (good_of hP))

/-- **C36, partial** id64, for the arguments of `Fits64`. -/
theorem C36_builder_exact64_partial (ops : List (Op id64)) (hf : ∀ op ∈ ops, op.Fits64) :
    ∃ s s' set err, Builder.empty.run ops = .ok s ∧ s.ipSet = .ok (s', set, err) ∧
      ∀ m, (∃ I O, Steps [] [] (ops.flatMap Op.prims) I O ∧ Norm I O m) ↔ m = set.rr :=
  exact_of Arith64 ops (fun op ho => (hf op ho).allowed)

/-- **C36, partial** (all packages) The set of a list of valid ranges, added in any order: the
members of the ranges, except that if one starts at 0 or 1 and ends at the largest value and
another starts at 1 and ends below, those starting at 0 or 1 count up to the largest end of the
latter only. -/
theorem C36_union_exact_partial (hP : P = id16 ∨ P = id32 ∨ P = id64) (rr : List (Rng P))
    (hv : ∀ r ∈ rr, r.Valid) :
    ∃ s s' set err, Builder.empty.run (rr.map .addRange) = .ok s ∧ s.ipSet = .ok (s', set, err) ∧
      ∀ i, HasAny set.rr i ↔ Merged rr i := by
  have A := arith_of hP
  obtain ⟨s, s', set, err, h1, h2, h3⟩ := exact_of A (rr.map .addRange) (by
    intro op ho
    obtain ⟨r, _, rfl⟩ := List.mem_map.1 ho
    trivial)
  refine ⟨s, s', set, err, h1, h2, ?_⟩
  have key : ∀ (rr I : List (Rng P)), (∀ r ∈ rr, r.Valid) →
      Steps I [] ((rr.map .addRange).flatMap Op.prims) (I ++ rr) [] := by
    intro rr
    induction rr with
    | nil => intro I _; rw [List.append_nil]; exact .nil
    | cons r rr ih =>
      intro I hv
      have := ih (I ++ [r]) (fun q hq => hv q (by simp [hq]))
      rw [List.append_assoc] at this
      exact .cons (.add (hv r (by simp))) this
  obtain ⟨I, O, g1, g2⟩ := (h3 set.rr).2 rfl
  obtain ⟨rfl, rfl⟩ := steps_unique g1 (key rr [] hv)
  intro i
  rw [g2.2 i]
  simp [Merged]

-- the ranges of the violation of C36, and a range that contains both
example : (∀ r ∈ [(rangeFrom 0 65535 : Rng id16), rangeFrom 1 5], r.Valid) ∧
    (∀ op ∈ [Op.addRange (rangeFrom 0 65535 : Rng id16), .addRange (rangeFrom 1 5)], op.Fits) := by
  constructor <;> intro op h <;> simp only [List.mem_cons, List.mem_nil_iff, or_false] at h <;> rcases h with rfl | rfl
  · simp only [Rng.Valid]; decide
  · simp only [Rng.Valid]; decide
  · simp only [Op.Fits]
  · simp only [Op.Fits]

/-! ### C37 -/

/-- **C37** (all packages) The order in which ranges are added is irrelevant, even when ids are
lost. -/
theorem C37_adds_commute (hP : P = id16 ∨ P = id32 ∨ P = id64) (rr rr' : List (Rng P))
    (hv : ∀ r ∈ rr, r.Valid) (h : ∀ r, r ∈ rr ↔ r ∈ rr') :
    ∃ s t s' t' set set' err err', Builder.empty.run (rr.map .addRange) = .ok s ∧
      s.ipSet = .ok (s', set, err) ∧ Builder.empty.run (rr'.map .addRange) = .ok t ∧
      t.ipSet = .ok (t', set', err') ∧ set.rr = set'.rr := by
  have A := arith_of hP
  have hall : ∀ (l : List (Rng P)), ∀ op ∈ l.map Op.addRange, Op.Allowed op := by
    intro l op ho
    obtain ⟨r, _, rfl⟩ := List.mem_map.1 ho
    trivial
  obtain ⟨s, s', set, err, a1, a2, a3⟩ := C36_union_exact_partial hP rr hv
  obtain ⟨t, t', set', err', b1, b2, b3⟩ :=
    C36_union_exact_partial hP rr' (fun r hr => hv r ((h r).2 hr))
  refine ⟨s, t, s', t', set, set', err, err', a1, a2, b1, b2, ?_⟩
  obtain ⟨_, _, _, _, c1, c2, c3⟩ := exact_of A _ (hall rr)
  obtain ⟨_, _, _, _, d1, d2, d3⟩ := exact_of A _ (hall rr')
  rw [a1] at c1; cases c1
  rw [a2] at c2; cases c2
  rw [b1] at d1; cases d1
  rw [b2] at d2; cases d2
  obtain ⟨_, _, _, e⟩ := (c3 _).2 rfl
  obtain ⟨_, _, _, e'⟩ := (d3 _).2 rfl
  exact canonical_unique e.1 e'.1 (fun i => by rw [a3, b3]; exact merged_of_mem_iff h i)

-- the cut of the example of `C36_full_range_violated`, and what it leaves
example : Cut [(rangeFrom 0 65535 : Rng id16), rangeFrom 1 5, rangeFrom 1 3, rangeFrom 9 10] 16 5 := by
  refine ⟨⟨rangeFrom 0 65535, by simp, by decide, by decide, by decide⟩,
    ⟨rangeFrom 1 5, by simp, by decide, by decide, by decide, by decide⟩, ?_⟩
  intro b hb
  simp only [List.mem_cons, List.not_mem_nil, or_false] at hb
  rcases hb with rfl | rfl | rfl | rfl <;> decide

example : ¬ Merged [(rangeFrom 0 65535 : Rng id16), rangeFrom 1 5] ⟨6, 16⟩ := by
  rintro ⟨r, hr, h, hc⟩
  have hcut : Cut [(rangeFrom 0 65535 : Rng id16), rangeFrom 1 5] 16 5 := by
    refine ⟨⟨rangeFrom 0 65535, by simp, by decide, by decide, by decide⟩,
      ⟨rangeFrom 1 5, by simp, by decide, by decide, by decide, by decide⟩, ?_⟩
    intro b hb
    simp only [List.mem_cons, List.not_mem_nil, or_false] at hb
    rcases hb with rfl | rfl <;> decide
  have := hc 5 hcut
  simp only [List.mem_cons, List.not_mem_nil, or_false] at hr
  rcases hr with rfl | rfl <;> exact absurd (this (by decide)) (by decide)

end Verif.Id
