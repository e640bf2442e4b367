import Verif.Id.Norm

/-! Sequences of calls on the set builder. -/

namespace Verif.Id
variable {P : Pkg}

/-! ### prefixes as ranges -/

theorem setBitsN_eq {W : Nat} (hW : W % 8 = 0) : ∀ (n b : Nat) (a : BitVec W), W - b = n → b ≤ W →
    setBitsN W n b a = a ||| ~~~(hiMask W (W - b)) := by
  intro n
  induction n with
  | zero =>
    intro b a hn hb
    have : b = W := by omega
    subst this
    unfold setBitsN
    apply BitVec.eq_of_getLsbD_eq
    intro i hi
    rw [BitVec.getLsbD_or, BitVec.getLsbD_not, getLsbD_hiMask]
    simp [hi]
  | succ n ih =>
    intro b a hn hb
    unfold setBitsN
    have hlt : b < W := by omega
    rw [ih (b + 1) _ (by omega) (by omega)]
    apply BitVec.eq_of_getLsbD_eq
    intro i hi
    have hpos : 8 * (W / 8 - 1 - b / 8) + (7 - b % 8) = W - 1 - b := by omega
    rw [hpos]
    simp only [BitVec.getLsbD_or, BitVec.getLsbD_not, getLsbD_hiMask, BitVec.getLsbD_shiftLeft]
    have h1 : (1 : BitVec W).getLsbD (i - (W - 1 - b)) = decide (i ≤ W - 1 - b) := by
      show (BitVec.ofNat W 1).getLsbD _ = _
      rw [BitVec.getLsbD_ofNat]
      by_cases h : i ≤ W - 1 - b
      · simp [h, Nat.sub_eq_zero_of_le h]; omega
      · have : i - (W - 1 - b) ≠ 0 := by omega
        have h2 : Nat.testBit 1 (i - (W - 1 - b)) = false := by
          rw [← Bool.not_eq_true, Nat.testBit_one_eq_true_iff_self_eq_zero]; exact this
        rw [decide_eq_false h, h2, Bool.and_false]
    rw [h1]
    by_cases h2 : W - b ≤ i <;> by_cases h3 : W - (b + 1) ≤ i <;>
      by_cases h4 : i < W - 1 - b <;> by_cases h5 : i ≤ W - 1 - b <;>
      simp [hi, h2, h3, h4, h5] <;> omega

theorem setBits_eq {W : Nat} (hW : W % 8 = 0) (b : Nat) (a : BitVec W) (hb : b ≤ W) :
    setBits W b a = a ||| ~~~(hiMask W (W - b)) := setBitsN_eq hW _ b a rfl hb

/-- the prefix is one whose mask the package gets right -/
def PrefOk (p : MyId P) : Prop :=
  P.W % 8 = 0 ∧ p.len ≤ P.maskMax ∧ p.len ≤ P.W ∧ MaskAt P p.len

theorem rangeOfID_spec {p : MyId P} (h : PrefOk p) :
    ∃ r, rangeOfID p = some r ∧ r.lo.len = P.W ∧ r.hi.len = P.W ∧
      r.lo.id.toNat = p.id.toNat / 2 ^ (P.W - p.len) * 2 ^ (P.W - p.len) ∧
      r.hi.id.toNat = p.id.toNat / 2 ^ (P.W - p.len) * 2 ^ (P.W - p.len) +
        (2 ^ (P.W - p.len) - 1) := by
  obtain ⟨h1, h2, h3, h4⟩ := h
  unfold MaskAt at h4
  unfold rangeOfID MyId.mask
  simp only [Nat.not_lt.2 h2, if_false, h4]
  refine ⟨_, rfl, rfl, rfl, toNat_and_hiMask _ _, ?_⟩
  show (setBits P.W p.len (p.id &&& hiMask P.W (P.W - p.len))).toNat = _
  rw [setBits_eq h1 _ _ h3, toNat_or_not_hiMask (Nat.sub_le _ _), toNat_and_hiMask,
    Nat.mul_div_cancel _ (Nat.two_pow_pos _)]

theorem rangeOfID_valid {p : MyId P} {r : Rng P} (h : PrefOk p) (hr : rangeOfID p = some r) :
    r.Valid := by
  obtain ⟨r', h0, h1, h2, h3, h4⟩ := rangeOfID_spec h
  rw [hr, Option.some.injEq] at h0
  subst h0
  refine ⟨by rw [h1, h2], ?_⟩
  show r.lo.id.toNat ≤ r.hi.id.toNat
  omega

theorem rangeOfID_has {p : MyId P} {r : Rng P} (h : PrefOk p) (hr : rangeOfID p = some r)
    (i : MyId P) : r.Has i ↔ Block p i := by
  obtain ⟨r', h0, h1, h2, h3, h4⟩ := rangeOfID_spec h
  rw [hr, Option.some.injEq] at h0
  subst h0
  unfold Rng.Has Block Covers
  have hp := Nat.two_pow_pos (P.W - p.len)
  rw [BitVec.le_def, BitVec.le_def, h3, h4, h1, Nat.div_eq_iff hp]
  omega

/-! ### normalize -/

/-- what holds of every reachable builder -/
structure Inv (s : Builder P) : Prop where
  ins : ∀ r ∈ s.ins, r.Valid
  outs : ∀ r ∈ s.outs, r.Valid
  sub : ∀ r ∈ s.outs, SubOk P r.lo.id

theorem normalize_spec (A : Arith P) {s : Builder P} (h : Inv s) :
    ∃ m, s.normalize = .ok { s with ins := m, outs := [] } ∧ Canonical m ∧
      EndsOk s.ins s.outs m ∧
      (NoWrap s.ins → NoWrap s.outs → ∀ k, (∃ o ∈ m, inK o k) ↔
        (∃ i ∈ s.ins, inK i k) ∧ ¬ ∃ r ∈ s.outs, inK r k) := by
  obtain ⟨is, i1, i2, i3, i4, i5⟩ := mergeRanges_spec A s.ins h.ins
  obtain ⟨os, o1, o2, o3, o4, o5⟩ := mergeRanges_spec A s.outs h.outs
  have hsub : ∀ r ∈ os, SubOk P r.lo.id := by
    intro r hr
    obtain ⟨q, hq, he⟩ := o3 r hr
    rw [he]; exact h.sub q hq
  obtain ⟨m, m1, m2, _, m4, m5⟩ := normLoop_spec A _ is os [] (Nat.le_refl _) i2 o2 hsub
  refine ⟨m, ?_, m2, ?_, ?_⟩
  · unfold Builder.normalize
    simp only [i1, o1, m1, List.nil_append]
  · intro o ho
    obtain ⟨a, b⟩ := m4 o ho
    refine ⟨?_, ?_⟩
    · rcases a with ⟨r, hr, he⟩ | ⟨r, hr, h1, he⟩
      · obtain ⟨q, hq, hqe⟩ := i3 r hr
        exact .inl ⟨q, hq, he.trans hqe⟩
      · obtain ⟨q, hq, hqe⟩ := o4 r hr
        rw [hqe] at h1 he
        exact .inr ⟨q, hq, h1, he⟩
    · rcases b with ⟨r, hr, he⟩ | ⟨r, hr, h1, h2, he⟩
      · obtain ⟨q, hq, hqe⟩ := i4 r hr
        exact .inl ⟨q, hq, he.trans hqe⟩
      · obtain ⟨q, hq, hqe⟩ := o3 r hr
        rw [hqe] at h1 h2 he
        exact .inr ⟨q, hq, h1, h2, he⟩
  · intro n1 n2 k
    rw [m5 k, i5 n1 k, o5 n2 k]

/-! ### calls -/

/-- one call; `ipSet` drops the result -/
def Builder.step (s : Builder P) : Op P → Res (Builder P)
  | .addRange r => s.addRange r
  | .removeRange r => s.removeRange r
  | .addId p => s.addId p
  | .removeId p => s.removeId p
  | .addSet rr => s.addSet rr
  | .ipSet =>
    match s.ipSet with
    | .ok (s, _, _) => .ok s
    | .panicInvalid => .panicInvalid
    | .panicOverlap => .panicOverlap
    | .panicNil => .panicNil

/-- a sequence of calls -/
def Builder.run (s : Builder P) : List (Op P) → Res (Builder P)
  | [] => .ok s
  | op :: ops =>
    match s.step op with
    | .ok s => s.run ops
    | e => e

theorem run_append (s : Builder P) (a b : List (Op P)) :
    s.run (a ++ b) = match s.run a with
      | .ok s => s.run b
      | e => e := by
  induction a generalizing s with
  | nil => rfl
  | cons op a ih =>
    simp only [List.cons_append, Builder.run]
    cases s.step op with
    | ok s' => exact ih s'
    | panicInvalid => rfl
    | panicOverlap => rfl
    | panicNil => rfl

/-- start of the block of a prefix -/
def blockStart (p : MyId P) : BitVec P.W :=
  BitVec.ofNat _ (p.id.toNat / 2 ^ (P.W - p.len) * 2 ^ (P.W - p.len))

/-- the arguments for which the package computes correctly (except for the wrap of `Next`) -/
def Op.Allowed : Op P → Prop
  | .addRange _ => True
  | .removeRange r => SubOk P r.lo.id
  | .addId p => PrefOk p
  | .removeId p => PrefOk p ∧ SubOk P (blockStart p)
  | .addSet rr => ∀ r ∈ rr, r.Valid
  | .ipSet => True

/-- members of the builder's set -/
def Builder.Mem (s : Builder P) (i : MyId P) : Prop := HasAny s.ins i ∧ ¬ HasAny s.outs i

/-- both lists are free of the wrap -/
def Clean (s : Builder P) : Prop := NoWrap s.ins ∧ NoWrap s.outs

theorem hasAny_iff {rr : List (Rng P)} (h : ∀ r ∈ rr, r.Valid) (i : MyId P) :
    HasAny rr i ↔ ∃ r ∈ rr, inK r (key i) := by
  unfold HasAny
  constructor
  · rintro ⟨r, hr, hi⟩; exact ⟨r, hr, (has_iff (h r hr) i).1 hi⟩
  · rintro ⟨r, hr, hi⟩; exact ⟨r, hr, (has_iff (h r hr) i).2 hi⟩

theorem hasAny_append {a b : List (Rng P)} (i : MyId P) :
    HasAny (a ++ b) i ↔ HasAny a i ∨ HasAny b i := by
  unfold HasAny
  constructor
  · rintro ⟨r, hr, hi⟩
    rcases List.mem_append.1 hr with h | h
    · exact .inl ⟨r, h, hi⟩
    · exact .inr ⟨r, h, hi⟩
  · rintro (⟨r, hr, hi⟩ | ⟨r, hr, hi⟩)
    · exact ⟨r, List.mem_append_left _ hr, hi⟩
    · exact ⟨r, List.mem_append_right _ hr, hi⟩

theorem hasAny_singleton {r : Rng P} (i : MyId P) : HasAny [r] i ↔ r.Has i := by
  simp [HasAny]

theorem hasAny_nil (i : MyId P) : HasAny ([] : List (Rng P)) i ↔ False := by
  simp [HasAny]

theorem normalize_mem (A : Arith P) {s : Builder P} (h : Inv s) :
    ∃ m, s.normalize = .ok { s with ins := m, outs := [] } ∧ Canonical m ∧
      EndsOk s.ins s.outs m ∧ (Clean s → ∀ i, HasAny m i ↔ s.Mem i) := by
  obtain ⟨m, h1, h2, h3, h4⟩ := normalize_spec A h
  refine ⟨m, h1, h2, h3, ?_⟩
  intro hc i
  unfold Builder.Mem
  rw [hasAny_iff h2.1, hasAny_iff h.ins, hasAny_iff h.outs]
  exact h4 hc.1 hc.2 (key i)

theorem addRange_spec (A : Arith P) {s : Builder P} (h : Inv s) {r : Rng P} (hv : r.Valid) :
    ∃ m, s.addRange r = .ok { s with ins := m ++ [r], outs := [] } ∧ (∀ q ∈ m, q.Valid) ∧
      EndsOk s.ins s.outs m ∧ (Clean s → ∀ i, HasAny m i ↔ s.Mem i) := by
  unfold Builder.addRange
  simp only [isValid_iff.2 hv, Bool.not_true, Bool.false_eq_true, if_false]
  split
  · obtain ⟨m, h1, h2, h3, h4⟩ := normalize_mem A h
    exact ⟨m, by rw [h1], h2.1, h3, h4⟩
  · rename_i hl
    have ho : s.outs = [] := by
      cases hs : s.outs with
      | nil => rfl
      | cons a b => rw [hs] at hl; simp at hl
    refine ⟨s.ins, by rw [← ho], h.ins, fun o h => ⟨.inl ⟨o, h, rfl⟩, .inl ⟨o, h, rfl⟩⟩, ?_⟩
    intro _ i
    unfold Builder.Mem
    rw [ho, hasAny_nil]
    simp

theorem addRange_invalid {s : Builder P} {r : Rng P} (hv : ¬ r.Valid) :
    s.addRange r = .ok { s with errs := true } := by
  unfold Builder.addRange
  have : r.isValid = false := by
    rw [← Bool.not_eq_true, isValid_iff]; exact hv
  simp [this]

theorem removeRange_invalid {s : Builder P} {r : Rng P} (hv : ¬ r.Valid) :
    s.removeRange r = .ok { s with errs := true } := by
  unfold Builder.removeRange
  have : r.isValid = false := by
    rw [← Bool.not_eq_true, isValid_iff]; exact hv
  simp [this]

/-- the ranges a call passes to the builder -/
def Op.ranges : Op P → List (Rng P)
  | .addRange r => [r]
  | .removeRange r => [r]
  | .addId p => (rangeOfID p).toList
  | .removeId p => (rangeOfID p).toList
  | .addSet rr => rr
  | .ipSet => []

/-- the call removes -/
def Op.isRemove : Op P → Bool
  | .removeRange _ => true
  | .removeId _ => true
  | _ => false

/-- an invariant of the ranges in the builder that excludes the wrap -/
structure Excl (P : Pkg) (I O : Rng P → Prop) : Prop where
  noWrapI : ∀ l, (∀ r ∈ l, I r) → NoWrap l
  noWrapO : ∀ l, (∀ r ∈ l, O r) → NoWrap l
  ends : ∀ ins outs m, (∀ r ∈ ins, I r) → (∀ r ∈ outs, O r) → EndsOk ins outs m → ∀ r ∈ m, I r

theorem addSet_spec (A : Arith P) {I O : Rng P → Prop} (E : Excl P I O) (rr : List (Rng P)) :
    ∀ {s : Builder P}, Inv s → (∀ r ∈ rr, r.Valid) →
    ∃ s', s.addSet rr = .ok s' ∧ Inv s' ∧ s'.errs = s.errs ∧
      ((∀ r ∈ s.ins, I r) → (∀ r ∈ s.outs, O r) → (∀ r ∈ rr, I r) →
        (∀ r ∈ s'.ins, I r) ∧ (∀ r ∈ s'.outs, O r) ∧
        ∀ i, s'.Mem i ↔ (s.Mem i ∨ HasAny rr i)) := by
  induction rr with
  | nil =>
    intro s h _
    exact ⟨s, rfl, h, rfl, fun a b _ => ⟨a, b, fun i => by simp [hasAny_nil]⟩⟩
  | cons r rs ih =>
    intro s h hv
    have hvr := hv r List.mem_cons_self
    obtain ⟨m, h1, h2, h3, h4⟩ := addRange_spec A h hvr
    have hinv : Inv ({ s with ins := m ++ [r], outs := [] } : Builder P) := by
      refine ⟨?_, by simp, by simp⟩
      intro q hq
      rcases List.mem_append.1 hq with hq | hq
      · exact h2 q hq
      · rw [List.mem_singleton.1 hq]; exact hvr
    obtain ⟨s', e1, e2, e3, e4⟩ := ih hinv (fun q hq => hv q (by simp [hq]))
    refine ⟨s', by unfold Builder.addSet; rw [h1]; exact e1, e2, e3, ?_⟩
    intro hI hO hR
    have hIm := E.ends _ _ _ hI hO h3
    obtain ⟨f1, f2, f3⟩ := e4 (by
      intro q hq
      rcases List.mem_append.1 hq with hq | hq
      · exact hIm q hq
      · rw [List.mem_singleton.1 hq]; exact hR r List.mem_cons_self) (by simp)
      (fun q hq => hR q (by simp [hq]))
    refine ⟨f1, f2, ?_⟩
    intro i
    rw [f3 i]
    have hm := h4 ⟨E.noWrapI _ hI, E.noWrapO _ hO⟩ i
    have e5 : Builder.Mem ({ s with ins := m ++ [r], outs := [] } : Builder P) i ↔ (s.Mem i ∨ r.Has i) := by
      unfold Builder.Mem
      rw [hasAny_append, hasAny_singleton, hasAny_nil, hm]
      unfold Builder.Mem
      simp
    rw [e5]
    have e6 : HasAny (r :: rs) i ↔ r.Has i ∨ HasAny rs i := by
      rw [show r :: rs = [r] ++ rs from rfl, hasAny_append, hasAny_singleton]
    rw [e6]
    constructor
    · rintro ((h | h) | h)
      · exact .inl h
      · exact .inr (.inl h)
      · exact .inr (.inr h)
    · rintro (h | h | h)
      · exact .inl (.inl h)
      · exact .inl (.inr h)
      · exact .inr h

/-- the flag a call leaves -/
def Op.flag (op : Op P) (before : Bool) : Bool :=
  match op with
  | .addRange r => before || !r.isValid
  | .removeRange r => before || !r.isValid
  | .ipSet => false
  | _ => before

theorem step_spec (A : Arith P) {I O : Rng P → Prop} (E : Excl P I O) {s : Builder P} (h : Inv s)
    (op : Op P) (ha : op.Allowed) :
    ∃ s', s.step op = .ok s' ∧ Inv s' ∧ s'.errs = op.flag s.errs ∧
      ((∀ r ∈ s.ins, I r) → (∀ r ∈ s.outs, O r) →
        (∀ r ∈ op.ranges, r.Valid → if op.isRemove then O r else I r) →
        (∀ r ∈ s'.ins, I r) ∧ (∀ r ∈ s'.outs, O r) ∧
        ∀ i, s'.Mem i ↔ effect s.Mem op i) := by
  have add : ∀ r : Rng P, r.Valid →
      ∃ s', s.addRange r = .ok s' ∧ Inv s' ∧ s'.errs = s.errs ∧
        ((∀ r ∈ s.ins, I r) → (∀ r ∈ s.outs, O r) → I r →
        (∀ r ∈ s'.ins, I r) ∧ (∀ r ∈ s'.outs, O r) ∧
        ∀ i, s'.Mem i ↔ (s.Mem i ∨ r.Has i)) := by
    intro r hv
    obtain ⟨s', h1, h2, h3, h4⟩ := addSet_spec A E [r] h (by simpa using hv)
    refine ⟨s', ?_, h2, h3, fun a b c => ?_⟩
    · unfold Builder.addSet at h1
      cases hs : s.addRange r with
      | ok s2 => rw [hs] at h1; simpa [Builder.addSet] using h1
      | panicInvalid => rw [hs] at h1; cases h1
      | panicOverlap => rw [hs] at h1; cases h1
      | panicNil => rw [hs] at h1; cases h1
    · obtain ⟨f1, f2, f3⟩ := h4 a b (by simpa using c)
      exact ⟨f1, f2, fun i => by rw [f3 i, hasAny_singleton]⟩
  have rem : ∀ r : Rng P, r.Valid → SubOk P r.lo.id →
      ∃ s', s.removeRange r = .ok s' ∧ Inv s' ∧ s'.errs = s.errs ∧
        ((∀ r ∈ s.ins, I r) → (∀ r ∈ s.outs, O r) → O r →
        (∀ r ∈ s'.ins, I r) ∧ (∀ r ∈ s'.outs, O r) ∧
        ∀ i, s'.Mem i ↔ (s.Mem i ∧ ¬ r.Has i)) := by
    intro r hv hs
    refine ⟨{ s with outs := s.outs ++ [r] }, ?_, ?_, rfl, ?_⟩
    · unfold Builder.removeRange; rw [isValid_iff.2 hv]; rfl
    · refine ⟨h.ins, ?_, ?_⟩
      · intro q hq
        rcases List.mem_append.1 hq with hq | hq
        · exact h.outs q hq
        · rw [List.mem_singleton.1 hq]; exact hv
      · intro q hq
        rcases List.mem_append.1 hq with hq | hq
        · exact h.sub q hq
        · rw [List.mem_singleton.1 hq]; exact hs
    · intro a b c
      refine ⟨a, ?_, ?_⟩
      · intro q hq
        rcases List.mem_append.1 hq with hq | hq
        · exact b q hq
        · rw [List.mem_singleton.1 hq]; exact c
      · intro i
        unfold Builder.Mem
        rw [hasAny_append, hasAny_singleton, not_or, and_assoc]
  cases op with
  | addRange r =>
    by_cases hv : r.Valid
    · obtain ⟨s', h1, h2, h3, h4⟩ := add r hv
      refine ⟨s', h1, h2, ?_, fun a b c => ?_⟩
      · rw [h3]; simp [Op.flag, isValid_iff.2 hv]
      · obtain ⟨f1, f2, f3⟩ := h4 a b (by simpa [Op.isRemove, Op.ranges] using c r (by simp [Op.ranges]) hv)
        refine ⟨f1, f2, fun i => ?_⟩
        rw [f3 i]
        simp [effect, hv]
    · refine ⟨_, addRange_invalid hv, ⟨h.ins, h.outs, h.sub⟩, ?_, fun a b _ => ⟨a, b, fun i => ?_⟩⟩
      · have : r.isValid = false := by rw [← Bool.not_eq_true, isValid_iff]; exact hv
        simp [Op.flag, this]
      · show s.Mem i ↔ _
        simp [effect, hv]
  | removeRange r =>
    by_cases hv : r.Valid
    · obtain ⟨s', h1, h2, h3, h4⟩ := rem r hv ha
      refine ⟨s', h1, h2, ?_, fun a b c => ?_⟩
      · rw [h3]; simp [Op.flag, isValid_iff.2 hv]
      · obtain ⟨f1, f2, f3⟩ := h4 a b (by simpa [Op.isRemove, Op.ranges] using c r (by simp [Op.ranges]) hv)
        refine ⟨f1, f2, fun i => ?_⟩
        rw [f3 i]
        simp [effect, hv]
    · refine ⟨_, removeRange_invalid hv, ⟨h.ins, h.outs, h.sub⟩, ?_, fun a b _ => ⟨a, b, fun i => ?_⟩⟩
      · have : r.isValid = false := by rw [← Bool.not_eq_true, isValid_iff]; exact hv
        simp [Op.flag, this]
      · show s.Mem i ↔ _
        simp [effect, hv]
  | addId p =>
    obtain ⟨r, hr, _⟩ := rangeOfID_spec ha
    have hv := rangeOfID_valid ha hr
    obtain ⟨s', h1, h2, h3, h4⟩ := add r hv
    refine ⟨s', ?_, h2, h3, fun a b c => ?_⟩
    · show s.addId p = _
      unfold Builder.addId
      simp only [hr, isValid_iff.2 hv, if_true]
      exact h1
    · obtain ⟨f1, f2, f3⟩ := h4 a b (by simpa [Op.isRemove] using c r (by simp [Op.ranges, hr]) hv)
      refine ⟨f1, f2, fun i => ?_⟩
      rw [f3 i, rangeOfID_has ha hr]
      rfl
  | removeId p =>
    obtain ⟨r, hr, _, _, hlo, _⟩ := rangeOfID_spec ha.1
    have hv := rangeOfID_valid ha.1 hr
    have hb : blockStart p = r.lo.id := by
      unfold blockStart
      rw [← hlo]; simp
    obtain ⟨s', h1, h2, h3, h4⟩ := rem r hv (hb ▸ ha.2)
    refine ⟨s', ?_, h2, h3, fun a b c => ?_⟩
    · show s.removeId p = _
      unfold Builder.removeId
      simp only [hr, isValid_iff.2 hv, if_true]
      exact h1
    · obtain ⟨f1, f2, f3⟩ := h4 a b (by simpa [Op.isRemove] using c r (by simp [Op.ranges, hr]) hv)
      refine ⟨f1, f2, fun i => ?_⟩
      rw [f3 i, rangeOfID_has ha.1 hr]
      rfl
  | addSet rr =>
    obtain ⟨s', h1, h2, h3, h4⟩ := addSet_spec A E rr h ha
    refine ⟨s', h1, h2, h3, fun a b c => ?_⟩
    obtain ⟨f1, f2, f3⟩ := h4 a b (fun r hr => by simpa [Op.isRemove] using c r hr (ha r hr))
    exact ⟨f1, f2, f3⟩
  | ipSet =>
    obtain ⟨m, h1, h2, h3, h4⟩ := normalize_mem A h
    refine ⟨{ s with ins := m, outs := [], errs := false }, ?_, ⟨h2.1, by simp, by simp⟩, rfl, fun a b _ => ?_⟩
    · unfold Builder.step Builder.ipSet
      simp only [h1]
    · refine ⟨E.ends _ _ _ a b h3, by simp, fun i => ?_⟩
      have := h4 ⟨E.noWrapI _ a, E.noWrapO _ b⟩ i
      show HasAny m i ∧ ¬ HasAny [] i ↔ s.Mem i
      rw [hasAny_nil, this]
      simp

theorem effect_congr {S T : MyId P → Prop} (h : ∀ i, S i ↔ T i) (op : Op P) (i : MyId P) :
    effect S op i ↔ effect T op i := by
  have : S = T := funext fun i => propext (h i)
  rw [this]

theorem run_spec (A : Arith P) {I O : Rng P → Prop} (E : Excl P I O) (ops : List (Op P)) :
    ∀ {s : Builder P}, Inv s → (∀ op ∈ ops, op.Allowed) →
    ∃ s', s.run ops = .ok s' ∧ Inv s' ∧ s'.errs = ops.foldl (fun b op => op.flag b) s.errs ∧
      ((∀ r ∈ s.ins, I r) → (∀ r ∈ s.outs, O r) →
        (∀ op ∈ ops, ∀ r ∈ op.ranges, r.Valid → if op.isRemove then O r else I r) →
        (∀ r ∈ s'.ins, I r) ∧ (∀ r ∈ s'.outs, O r) ∧
        ∀ i, s'.Mem i ↔ ops.foldl effect s.Mem i) := by
  induction ops with
  | nil => intro s h _; exact ⟨s, rfl, h, rfl, fun a b _ => ⟨a, b, fun i => Iff.rfl⟩⟩
  | cons op ops ih =>
    intro s h ha
    obtain ⟨s1, h1, h2, h3, h4⟩ := step_spec A E h op (ha op List.mem_cons_self)
    obtain ⟨s2, g1, g2, g3, g4⟩ := ih h2 (fun o ho => ha o (by simp [ho]))
    refine ⟨s2, by unfold Builder.run; rw [h1]; exact g1, g2, by rw [g3, h3]; rfl, ?_⟩
    intro a b c
    obtain ⟨f1, f2, f3⟩ := h4 a b (c op List.mem_cons_self)
    obtain ⟨k1, k2, k3⟩ := g4 f1 f2 (fun o ho => c o (by simp [ho]))
    refine ⟨k1, k2, fun i => ?_⟩
    rw [k3 i]
    have : s1.Mem = effect s.Mem op := funext fun i => propext (f3 i)
    rw [this]
    rfl

/-- what the wrap does not touch -/
theorem excl_false : Excl P (fun _ => False) (fun _ => False) :=
  ⟨fun l h a ha => (h a ha).elim, fun l h a ha => (h a ha).elim, by
    intro ins outs m h1 h2 h3 r hr
    obtain ⟨⟨q, hq, _⟩ | ⟨q, hq, _⟩, _⟩ := h3 r hr
    · exact h1 q hq
    · exact h2 q hq⟩

/-- no range ends at the largest value -/
theorem excl_max (hp : 1 < P.W) : Excl P (fun r => r.hi.id ≠ maxV P) (fun r => r.hi.id ≠ maxV P) := by
  refine ⟨fun l h a ha b hb hw => h a ha hw.2.2.1, fun l h a ha b hb hw => h a ha hw.2.2.1, ?_⟩
  intro ins outs m h1 h2 h3 r hr
  obtain ⟨_, ⟨q, hq, he⟩ | ⟨q, hq, h0, hs, he⟩⟩ := h3 r hr
  · rw [he]; exact h1 q hq
  · rw [he]
    have h0' : q.lo.id.toNat ≠ 0 := fun hz => h0 (BitVec.eq_of_toNat_eq (by rw [hz]; simp))
    unfold MyId.prev
    simp only [h0, if_false]
    rw [hs h0, ne_max_iff, BitVec.toNat_sub_of_le (by rw [BitVec.le_def, toNat_one hp]; omega),
      toNat_one hp]
    have := q.lo.id.isLt
    omega

/-- no added range starts at 1, no removed one starts at 1 or ends at 0 -/
theorem excl_one (A : Arith P) :
    Excl P (fun r => r.lo.id ≠ 1) (fun r => r.lo.id ≠ 1 ∧ r.hi.id ≠ 0) := by
  refine ⟨fun l h a ha b hb hw => h b hb hw.2.2.2.1, fun l h a ha b hb hw => (h b hb).1 hw.2.2.2.1, ?_⟩
  intro ins outs m h1 h2 h3 r hr
  obtain ⟨⟨q, hq, he⟩ | ⟨q, hq, hm, he⟩, _⟩ := h3 r hr
  · rw [he]; exact h1 q hq
  · rw [he, A.next_eq hm]
    intro h
    apply (h2 q hq).2
    have h := congrArg BitVec.toNat h
    have := ne_max_iff.1 hm
    simp only at h
    rw [BitVec.toNat_add, toNat_one A.pos, Nat.mod_eq_of_lt this] at h
    exact BitVec.eq_of_toNat_eq (by simp; omega)

theorem inv_empty : Inv (Builder.empty : Builder P) := ⟨by simp [Builder.empty], by simp [Builder.empty], by simp [Builder.empty]⟩

theorem Arith16 : Arith id16 := ⟨good16.pos, good16.addOne, good16.addOneMax⟩
theorem Arith32 : Arith id32 := ⟨good32.pos, good32.addOne, good32.addOneMax⟩
theorem Arith64 : Arith id64 := ⟨by decide, addOne64_eq, by decide⟩

/-! ### canonical lists -/

/-- a canonical list is determined by its set -/
theorem canonical_unique : ∀ {l m : List (Rng P)}, Canonical l → Canonical m →
    (∀ i, HasAny l i ↔ HasAny m i) → l = m := by
  intro l
  induction l with
  | nil =>
    intro m _ cm h
    cases m with
    | nil => rfl
    | cons s m =>
      exfalso
      have hv := cm.1 s List.mem_cons_self
      have := (h s.lo).2 ⟨s, List.mem_cons_self, rfl, BitVec.le_refl _, hv.2⟩
      simp [HasAny] at this
  | cons r l ih =>
    intro m cl cm h
    cases m with
    | nil =>
      exfalso
      have hv := cl.1 r List.mem_cons_self
      have := (h r.lo).1 ⟨r, List.mem_cons_self, rfl, BitVec.le_refl _, hv.2⟩
      simp [HasAny] at this
    | cons s m =>
      rw [canonical_iff] at cl cm
      obtain ⟨vl, gl⟩ := cl
      obtain ⟨vm, gm⟩ := cm
      rw [List.pairwise_cons] at gl gm
      have vr := vl r List.mem_cons_self
      have vs := vm s List.mem_cons_self
      have kr := vr.key_le
      have ks := vs.key_le
      have hk : ∀ i : MyId P, (∃ q ∈ r :: l, inK q (key i)) ↔ ∃ q ∈ s :: m, inK q (key i) := by
        intro i
        rw [← hasAny_iff vl, ← hasAny_iff vm, h i]
      -- the first elements start at the same place
      have lel : ∀ q ∈ r :: l, key r.lo ≤ key q.lo := by
        intro q hq
        rcases List.mem_cons.1 hq with rfl | hq
        · exact Nat.le_refl _
        · have := gl.1 q hq; omega
      have lem : ∀ q ∈ s :: m, key s.lo ≤ key q.lo := by
        intro q hq
        rcases List.mem_cons.1 hq with rfl | hq
        · exact Nat.le_refl _
        · have := gm.1 q hq; omega
      have hlo : r.lo = s.lo := by
        apply key_inj
        obtain ⟨q, hq, hqk⟩ := (hk r.lo).1 ⟨r, List.mem_cons_self, Nat.le_refl _, kr⟩
        obtain ⟨p, hp, hpk⟩ := (hk s.lo).2 ⟨s, List.mem_cons_self, Nat.le_refl _, ks⟩
        have := lem q hq
        have := lel p hp
        unfold inK at hqk hpk
        omega
      -- the element after the end of the shorter one
      have step : ∀ (a b : Rng P) (u v : List (Rng P)), a.Valid → b.Valid → a.lo = b.lo →
          (∀ q ∈ u, key a.hi + 1 < key q.lo) →
          (∀ i : MyId P, (∃ q ∈ a :: u, inK q (key i)) ↔ ∃ q ∈ b :: v, inK q (key i)) →
          ¬ key a.hi < key b.hi := by
        intro a b u v va vb hl hu he hlt
        have ka := va.key_le
        have hlen : a.hi.len = b.hi.len := by rw [← va.1, hl, vb.1]
        rw [key_lt_iff] at hlt
        have hlt' : a.hi.id.toNat < b.hi.id.toNat := by omega
        have hb := b.hi.id.isLt
        let j : MyId P := ⟨BitVec.ofNat _ (a.hi.id.toNat + 1), a.hi.len⟩
        have hj : key j = key a.hi + 1 := by
          unfold key
          simp only [j]
          rw [BitVec.toNat_ofNat, Nat.mod_eq_of_lt (by omega)]
          omega
        obtain ⟨q, hq, hqk⟩ := (he j).2 ⟨b, List.mem_cons_self, by
          unfold inK
          rw [hj, ← hl]
          have : key a.hi < key b.hi := key_lt_iff.2 (.inr ⟨hlen, hlt'⟩)
          omega⟩
        unfold inK at hqk
        rcases List.mem_cons.1 hq with rfl | hq
        · omega
        · have := hu q hq; omega
      have hhi : r.hi = s.hi := by
        apply key_inj
        have h1 := step r s l m vr vs hlo gl.1 hk
        have h2 := step s r m l vs vr hlo.symm gm.1 (fun i => (hk i).symm)
        omega
      have hrs : r = s := by cases r; cases s; simp only at hlo hhi; rw [hlo, hhi]
      subst hrs
      congr 1
      apply ih ((canonical_iff _).2 ⟨fun q hq => vl q (by simp [hq]), gl.2⟩)
        ((canonical_iff _).2 ⟨fun q hq => vm q (by simp [hq]), gm.2⟩)
      intro i
      have vl' : ∀ q ∈ l, q.Valid := fun q hq => vl q (by simp [hq])
      have vm' : ∀ q ∈ m, q.Valid := fun q hq => vm q (by simp [hq])
      rw [hasAny_iff vl', hasAny_iff vm']
      have hki := hk i
      simp only [List.mem_cons, exists_eq_or_imp] at hki
      have d1 : (∃ q ∈ l, inK q (key i)) → ¬ inK r (key i) := by
        rintro ⟨q, hq, h1⟩ h2
        have := gl.1 q hq
        unfold inK at h1 h2
        omega
      have d2 : (∃ q ∈ m, inK q (key i)) → ¬ inK r (key i) := by
        rintro ⟨q, hq, h1⟩ h2
        have := gm.1 q hq
        unfold inK at h1 h2
        omega
      constructor
      · intro h1; exact (hki.1 (.inr h1)).resolve_left (d1 h1)
      · intro h1; exact (hki.2 (.inr h1)).resolve_left (d2 h1)

theorem canonical_noWrap (hp : 1 < P.W) {l : List (Rng P)} (h : Canonical l) : NoWrap l := by
  rintro a ha b hb ⟨h1, h2, h3, h4, h5⟩
  rw [canonical_iff] at h
  have va := h.1 a ha
  have vb := h.1 b hb
  -- a and b overlap
  have hone := toNat_one hp
  have hov : inK a (key b.lo) := by
    rw [← has_iff va]
    refine ⟨by rw [va.1, h1], ?_, ?_⟩
    · show a.lo.id.toNat ≤ b.lo.id.toNat; rw [h4, hone]; exact h2
    · show b.lo.id.toNat ≤ a.hi.id.toNat
      rw [h3, maxV_toNat]
      have := b.lo.id.isLt
      omega
  have hne : a ≠ b := by rintro rfl; exact h5 h3
  have hcases : key a.hi + 1 < key b.lo ∨ key b.hi + 1 < key a.lo := by
    have hp := h.2
    clear h hov va vb h1 h2 h3 h4 h5
    induction l with
    | nil => simp at ha
    | cons x l ih =>
      rw [List.pairwise_cons] at hp
      rcases List.mem_cons.1 ha with hax | ha
      · rcases List.mem_cons.1 hb with hbx | hb
        · exact absurd (hax.trans hbx.symm) hne
        · rw [hax]; exact .inl (hp.1 b hb)
      · rcases List.mem_cons.1 hb with hbx | hb
        · rw [hbx]; exact .inr (hp.1 a ha)
        · exact ih ha hb hp.2
  have := vb.key_le
  unfold inK at hov
  omega

end Verif.Id
