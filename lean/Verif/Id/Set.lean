import Verif.Id.Ranges

/-! The set builder, through an order isomorphism from ids to natural numbers. -/

namespace Verif.Id
variable {P : Pkg}

/-! ### keys -/

/-- ids in the order of `Compare`, with a gap after every length -/
def key (i : MyId P) : Nat := i.len * (2 ^ P.W + 1) + i.id.toNat

theorem key_lt_iff {a b : MyId P} :
    key a < key b ↔ a.len < b.len ∨ (a.len = b.len ∧ a.id.toNat < b.id.toNat) := by
  unfold key
  have ha := a.id.isLt
  have hb := b.id.isLt
  generalize 2 ^ P.W = N at *
  rcases Nat.lt_trichotomy a.len b.len with h | h | h
  · have : (a.len + 1) * (N + 1) ≤ b.len * (N + 1) := Nat.mul_le_mul_right _ h
    rw [Nat.add_mul, Nat.one_mul] at this
    omega
  · rw [h]; omega
  · have : (b.len + 1) * (N + 1) ≤ a.len * (N + 1) := Nat.mul_le_mul_right _ h
    rw [Nat.add_mul, Nat.one_mul] at this
    omega

theorem key_inj {a b : MyId P} (h : key a = key b) : a = b := by
  have h1 : ¬ key a < key b := by omega
  have h2 : ¬ key b < key a := by omega
  rw [key_lt_iff] at h1 h2
  have hl : a.len = b.len := by omega
  have hi : a.id.toNat = b.id.toNat := by omega
  cases a; cases b
  simp only at hl hi
  rw [hl, BitVec.eq_of_toNat_eq hi]

theorem key_gap {a b : MyId P} :
    key a + 1 < key b ↔ a.len < b.len ∨ (a.len = b.len ∧ a.id.toNat + 1 < b.id.toNat) := by
  unfold key
  have ha := a.id.isLt
  have hb := b.id.isLt
  generalize 2 ^ P.W = N at *
  rcases Nat.lt_trichotomy a.len b.len with h | h | h
  · have : (a.len + 1) * (N + 1) ≤ b.len * (N + 1) := Nat.mul_le_mul_right _ h
    rw [Nat.add_mul, Nat.one_mul] at this
    omega
  · rw [h]; omega
  · have : (b.len + 1) * (N + 1) ≤ a.len * (N + 1) := Nat.mul_le_mul_right _ h
    rw [Nat.add_mul, Nat.one_mul] at this
    omega

theorem compare_cases (a b : MyId P) :
    (a.compare b = -1 ∧ key a < key b) ∨ (a.compare b = 0 ∧ key a = key b) ∨
    (a.compare b = 1 ∧ key b < key a) := by
  unfold MyId.compare
  have e : key a = key b ↔ ¬ key a < key b ∧ ¬ key b < key a := by omega
  simp only [e, key_lt_iff]
  have hlt : ∀ x y : BitVec P.W, x < y ↔ x.toNat < y.toNat := fun x y => Iff.rfl
  simp only [hlt, GT.gt]
  split
  · omega
  · split
    · omega
    · split
      · omega
      · split <;> omega

theorem less_iff {a b : MyId P} : a.less b = true ↔ key a < key b := by
  unfold MyId.less
  rw [beq_iff_eq]
  rcases compare_cases a b with h | h | h <;> omega

theorem lessOrEq_iff {a b : MyId P} : lessOrEq a b = true ↔ key a ≤ key b := by
  unfold lessOrEq
  rw [decide_eq_true_iff]
  rcases compare_cases a b with h | h | h <;> omega

theorem rless_iff {r o : Rng P} : r.less o = true ↔
    key r.lo < key o.lo ∨ (key r.lo = key o.lo ∧ key o.hi < key r.hi) := by
  unfold Rng.less
  simp only
  split
  · rw [decide_eq_true_iff]
    rcases compare_cases r.lo o.lo with h | h | h <;> omega
  · rw [less_iff]
    rcases compare_cases r.lo o.lo with h | h | h <;> omega

theorem isValid_iff {r : Rng P} : r.isValid = true ↔ r.Valid := by
  unfold Rng.isValid Rng.Valid
  rw [Bool.and_eq_true, beq_iff_eq, Bool.not_eq_true', decide_eq_false_iff_not]
  rw [BitVec.not_lt]

/-- value in the interval of keys of a range -/
def inK (r : Rng P) (k : Nat) : Prop := key r.lo ≤ k ∧ k ≤ key r.hi

theorem Rng.Valid.key_le {r : Rng P} (h : r.Valid) : key r.lo ≤ key r.hi := by
  have h1 : r.lo.id.toNat ≤ r.hi.id.toNat := h.2
  unfold key
  rw [h.1]
  omega

theorem has_iff {r : Rng P} (h : r.Valid) (i : MyId P) : r.Has i ↔ inK r (key i) := by
  unfold Rng.Has inK
  have h2 : r.lo.id.toNat ≤ r.hi.id.toNat := h.2
  have e1 : (key r.lo ≤ key i) ↔ ¬ key i < key r.lo := by omega
  have e2 : (key i ≤ key r.hi) ↔ ¬ key r.hi < key i := by omega
  rw [e1, e2, key_lt_iff, key_lt_iff, ← h.1, BitVec.le_def, BitVec.le_def]
  omega

/-! ### next and prev -/

/-- what all packages get right: `addOne`, except that it maps the largest value to 1 -/
structure Arith (P : Pkg) : Prop where
  pos : 1 < P.W
  addOne : ∀ x : BitVec P.W, x ≠ BitVec.allOnes P.W → P.addOne x = x + 1
  addOneMax : P.addOne (BitVec.allOnes P.W) = 1

/-- `subOne` is right at `x` -/
def SubOk (P : Pkg) (x : BitVec P.W) : Prop := x ≠ 0 → P.subOne x = x - 1

/-- the largest value -/
abbrev maxV (P : Pkg) : BitVec P.W := BitVec.allOnes P.W

theorem maxV_toNat : (maxV P).toNat = 2 ^ P.W - 1 := BitVec.toNat_allOnes

theorem ne_max_iff {x : BitVec P.W} : x ≠ maxV P ↔ x.toNat + 1 < 2 ^ P.W := by
  have h := x.isLt
  constructor
  · intro hne
    have : x.toNat ≠ 2 ^ P.W - 1 := by
      intro he; exact hne (BitVec.eq_of_toNat_eq (by rw [maxV_toNat]; exact he))
    omega
  · rintro h1 rfl
    rw [maxV_toNat] at h1
    omega

theorem toNat_one (hp : 1 < P.W) : (1 : BitVec P.W).toNat = 1 := by
  show (BitVec.ofNat P.W 1).toNat = 1
  rw [BitVec.toNat_ofNat, Nat.mod_eq_of_lt (Nat.one_lt_two_pow (by omega))]

theorem Arith.next_eq (A : Arith P) {i : MyId P} (h : i.id ≠ maxV P) :
    i.next = ⟨i.id + 1, i.len⟩ := by
  have h1 := ne_max_iff.1 h
  have e : (i.id + 1).toNat = i.id.toNat + 1 := by
    rw [BitVec.toNat_add, toNat_one A.pos, Nat.mod_eq_of_lt h1]
  unfold MyId.next
  rw [A.addOne _ h]
  have : ¬ (i.id + 1 = 0) := by
    intro hz
    rw [hz] at e
    simp at e
  simp only [this, if_false]

theorem Arith.key_next (A : Arith P) {i : MyId P} (h : i.id ≠ maxV P) :
    key i.next = key i + 1 := by
  have h1 := ne_max_iff.1 h
  rw [A.next_eq h]
  unfold key
  simp only
  rw [BitVec.toNat_add, toNat_one A.pos, Nat.mod_eq_of_lt h1]
  omega

theorem Arith.next_max (A : Arith P) {i : MyId P} (h : i.id = maxV P) :
    i.next = ⟨1, i.len⟩ := by
  unfold MyId.next
  rw [h, A.addOneMax]
  have : ¬ ((1 : BitVec P.W) = 0) := by
    intro hz
    have := congrArg BitVec.toNat hz
    rw [toNat_one A.pos] at this
    simp at this
  simp only [this, if_false]

theorem key_prev (hp : 1 < P.W) {i : MyId P} (hs : SubOk P i.id) (h : i.id ≠ 0) :
    key i.prev + 1 = key i := by
  unfold MyId.prev
  simp only [h, if_false]
  rw [hs h]
  have h0 : i.id.toNat ≠ 0 := fun hz => h (BitVec.eq_of_toNat_eq (by rw [hz]; simp))
  unfold key
  simp only
  rw [BitVec.toNat_sub_of_le (by rw [BitVec.le_def, toNat_one hp]; omega), toNat_one hp]
  omega

theorem prev_len {i : MyId P} (h : i.id ≠ 0) : i.prev.len = i.len := by
  unfold MyId.prev
  simp only [h, if_false]

theorem Arith.next_len (A : Arith P) {i : MyId P} (h : i.id ≠ maxV P) : i.next.len = i.len := by
  rw [A.next_eq h]

theorem valid_of_key {r : Rng P} (h1 : r.lo.len = r.hi.len) (h2 : key r.lo ≤ key r.hi) :
    r.Valid := by
  refine ⟨h1, ?_⟩
  have e2 : ¬ key r.hi < key r.lo := by omega
  rw [key_lt_iff] at e2
  show r.lo.id.toNat ≤ r.hi.id.toNat
  omega

/-! ### sorting -/

theorem sortRanges_perm (rr : List (Rng P)) : (sortRanges rr).Perm rr := List.mergeSort_perm _ _

/-- the order of `sort.Slice` -/
def sortLe (a b : Rng P) : Prop :=
  key a.lo < key b.lo ∨ (key a.lo = key b.lo ∧ key b.hi ≤ key a.hi)

theorem notLess_iff {a b : Rng P} : (!(b.less a)) = true ↔ sortLe a b := by
  rw [Bool.not_eq_true', ← Bool.not_eq_true, rless_iff]
  unfold sortLe
  omega

theorem sortRanges_sorted (rr : List (Rng P)) : (sortRanges rr).Pairwise sortLe := by
  have := List.pairwise_mergeSort (le := fun a b : Rng P => !(b.less a)) (by
    intro a b c h1 h2
    rw [notLess_iff] at *
    unfold sortLe at *
    omega) (by
    intro a b
    rw [Bool.or_eq_true, notLess_iff, notLess_iff]
    unfold sortLe
    omega) rr
  exact this.imp (fun h => notLess_iff.1 h)

/-! ### merging -/

/-- valid, in order, with more than `g` between two ranges, in terms of keys -/
abbrev Spaced (g : Nat) (rr : List (Rng P)) : Prop :=
  (∀ r ∈ rr, r.Valid) ∧ rr.Pairwise (fun r s => key r.hi + g < key s.lo)

/-- `Canonical` in terms of keys -/
theorem canonical_iff (rr : List (Rng P)) : Canonical rr ↔
    (∀ r ∈ rr, r.Valid) ∧ rr.Pairwise (fun r s => key r.hi + 1 < key s.lo) := by
  unfold Canonical
  simp only [key_gap]

/-- the pairs of ranges that `mergeRanges` merges wrongly, because `Next` of the largest value
is 1 -/
def WrapPair (a b : Rng P) : Prop :=
  a.hi.len = b.lo.len ∧ a.lo.id.toNat ≤ 1 ∧ a.hi.id = maxV P ∧ b.lo.id = 1 ∧ b.hi.id ≠ maxV P

/-- no such pair -/
def NoWrap (rr : List (Rng P)) : Prop := ∀ a ∈ rr, ∀ b ∈ rr, ¬ WrapPair a b

/-- the same for a sorted list -/
def wrapOk (a b : Rng P) : Prop :=
  a.hi.len = b.lo.len → a.hi.id = maxV P → b.lo.id = 1 → b.hi.id = maxV P

theorem mergeLoop_spec (A : Arith P) (rs : List (Rng P)) :
    ∀ (acc : List (Rng P)) (prev : Rng P),
      (∀ r ∈ prev :: rs, r.Valid) → (prev :: rs).Pairwise sortLe →
      ∃ out, mergeLoop acc prev rs = some (acc ++ out) ∧ Canonical out ∧
        (∀ o ∈ out, key prev.lo ≤ key o.lo) ∧
        (∀ o ∈ out, ∃ r ∈ prev :: rs, o.lo = r.lo) ∧
        (∀ o ∈ out, ∃ r ∈ prev :: rs, o.hi = r.hi) ∧
        ((prev :: rs).Pairwise wrapOk → ∀ k, (∃ o ∈ out, inK o k) ↔ ∃ r ∈ prev :: rs, inK r k) := by
  induction rs with
  | nil =>
    intro acc prev hv _
    refine ⟨[prev], rfl, ?_, by simp, by simp, by simp, fun _ k => Iff.rfl⟩
    rw [canonical_iff]
    exact ⟨hv, List.pairwise_singleton _ _⟩
  | cons r rs ih =>
    intro acc prev hv hs
    have hvp := hv prev List.mem_cons_self
    have hvr := hv r (by simp)
    rw [List.pairwise_cons] at hs
    obtain ⟨hs1, hs2⟩ := hs
    have hs2' := List.pairwise_cons.1 hs2
    have hpr : key prev.lo ≤ key r.lo := by
      have := hs1 r (by simp); unfold sortLe at this; omega
    have kp := hvp.key_le
    have kr := hvr.key_le
    unfold mergeLoop
    have hval : (!r.isValid) = false := by
      have := isValid_iff.2 hvr; simp [this]
    simp only [hval, Bool.false_eq_true, if_false]
    -- the extension of `prev` to the end of `r`, when both have the same length
    have hset : prev.hi.len = r.lo.len → (∀ q ∈ prev.setTo r.hi :: rs, q.Valid) := by
      intro hlen q hq
      rcases List.mem_cons.1 hq with rfl | hq
      · apply valid_of_key
        · show prev.lo.len = r.hi.len
          rw [hvp.1, hlen, hvr.1]
        · show key prev.lo ≤ key r.hi
          omega
      · exact hv q (by simp [hq])
    have hsort : ∀ h, (∀ q ∈ rs, key prev.lo = key q.lo → key q.hi ≤ key h) →
        (prev.setTo h :: rs).Pairwise sortLe := by
      intro h hh
      rw [List.pairwise_cons]
      refine ⟨?_, hs2'.2⟩
      intro q hq
      have h1 := hs2'.1 q hq
      have h2 := hh q hq
      show key prev.lo < key q.lo ∨ (key prev.lo = key q.lo ∧ key q.hi ≤ key h)
      unfold sortLe at h1
      omega
    have hmem : ∀ out : List (Rng P), (∀ o ∈ out, ∃ q ∈ prev.setTo r.hi :: rs, o.lo = q.lo) →
        ∀ o ∈ out, ∃ q ∈ prev :: r :: rs, o.lo = q.lo := by
      intro out h o ho
      obtain ⟨q, hq, he⟩ := h o ho
      rcases List.mem_cons.1 hq with rfl | hq
      · exact ⟨prev, by simp, he⟩
      · exact ⟨q, by simp [hq], he⟩
    have hmemh : ∀ out : List (Rng P), (∀ o ∈ out, ∃ q ∈ prev.setTo r.hi :: rs, o.hi = q.hi) →
        ∀ o ∈ out, ∃ q ∈ prev :: r :: rs, o.hi = q.hi := by
      intro out h o ho
      obtain ⟨q, hq, he⟩ := h o ho
      rcases List.mem_cons.1 hq with rfl | hq
      · exact ⟨r, by simp, he⟩
      · exact ⟨q, by simp [hq], he⟩
    have hww : (prev :: r :: rs).Pairwise wrapOk → prev.hi.len = r.lo.len →
        (prev.setTo r.hi :: rs).Pairwise wrapOk := by
      intro hw hlen
      rw [List.pairwise_cons, List.pairwise_cons] at hw
      rw [List.pairwise_cons]
      exact ⟨fun q hq h1 h2 h3 => hw.2.1 q hq h1 h2 h3, hw.2.2⟩
    split
    · -- prev.hi.next = r.lo
      rename_i hnext
      by_cases hmax : prev.hi.id = maxV P
      · have hn := A.next_max hmax
        rw [hn] at hnext
        have hlen : prev.hi.len = r.lo.len := by rw [← hnext]
        have hone : r.lo.id = 1 := by rw [← hnext]
        obtain ⟨out, o1, o2, o3, o4, o6, o5⟩ := ih acc (prev.setTo r.hi) (hset hlen) (hsort _ (by
          intro q hq he
          have h1 := hs2'.1 q hq
          unfold sortLe at h1
          omega))
        refine ⟨out, o1, o2, o3, hmem out o4, hmemh out o6, ?_⟩
        intro hw k
        have hend : r.hi.id = maxV P := (List.pairwise_cons.1 hw).1 r (by simp) hlen hmax hone
        have hkk : key r.hi = key prev.hi := by
          unfold key; rw [hend, hmax, hlen, hvr.1]
        rw [o5 (hww hw hlen) k]
        simp only [List.mem_cons, exists_eq_or_imp]
        unfold inK
        simp only [Rng.setTo]
        constructor
        · rintro (h | h)
          · left; omega
          · right; right; exact h
        · rintro (h | h | h)
          · left; omega
          · left; omega
          · right; exact h
      · have hk := A.key_next hmax
        have hlen : prev.hi.len = r.lo.len := by rw [← hnext, A.next_len hmax]
        rw [hnext] at hk
        obtain ⟨out, o1, o2, o3, o4, o6, o5⟩ := ih acc (prev.setTo r.hi) (hset hlen) (hsort _ (by
          intro q hq he
          have h1 := hs2'.1 q hq
          unfold sortLe at h1
          omega))
        refine ⟨out, o1, o2, o3, hmem out o4, hmemh out o6, ?_⟩
        intro hw k
        rw [o5 (hww hw hlen) k]
        simp only [List.mem_cons, exists_eq_or_imp]
        unfold inK
        simp only [Rng.setTo]
        constructor
        · rintro (h | h)
          · omega
          · right; right; exact h
        · rintro (h | h | h)
          · left; omega
          · left; omega
          · right; exact h
    · rename_i hnext
      split
      · -- disjoint and not adjacent
        rename_i hless
        rw [less_iff] at hless
        have hgap : key prev.hi + 1 < key r.lo := by
          by_cases hmax : prev.hi.id = maxV P
          · rw [key_gap]
            rw [key_lt_iff] at hless
            rcases hless with h | ⟨h1, h2⟩
            · exact .inl h
            · exfalso
              rw [hmax, maxV_toNat] at h2
              have := r.lo.id.isLt
              omega
          · have hk := A.key_next hmax
            have : key prev.hi.next ≠ key r.lo := fun h => hnext (key_inj h)
            omega
        obtain ⟨out, o1, o2, o3, o4, o6, o5⟩ := ih (acc ++ [prev]) r (fun q hq => hv q (by simp [List.mem_cons.1 hq]))
          hs2
        refine ⟨prev :: out, by rw [o1]; simp, ?_, ?_, ?_, ?_, ?_⟩
        · rw [canonical_iff] at o2 ⊢
          refine ⟨?_, ?_⟩
          · intro q hq
            rcases List.mem_cons.1 hq with rfl | hq
            · exact hvp
            · exact o2.1 q hq
          · rw [List.pairwise_cons]
            exact ⟨fun q hq => by have := o3 q hq; omega, o2.2⟩
        · intro o ho
          rcases List.mem_cons.1 ho with rfl | ho
          · exact Nat.le_refl _
          · have := o3 o ho; omega
        · intro o ho
          rcases List.mem_cons.1 ho with rfl | ho
          · exact ⟨o, by simp, rfl⟩
          · obtain ⟨q, hq, he⟩ := o4 o ho
            exact ⟨q, List.mem_cons_of_mem _ hq, he⟩
        · intro o ho
          rcases List.mem_cons.1 ho with rfl | ho
          · exact ⟨o, by simp, rfl⟩
          · obtain ⟨q, hq, he⟩ := o6 o ho
            exact ⟨q, List.mem_cons_of_mem _ hq, he⟩
        · intro hw k
          rw [List.pairwise_cons] at hw
          have := o5 hw.2 k
          simp only [List.mem_cons, exists_eq_or_imp] at this ⊢
          rw [this]
      · rename_i hless
        rw [less_iff] at hless
        have hlen : prev.hi.len = r.lo.len := by
          have h1 : ¬ key r.lo < key prev.lo := by omega
          rw [key_lt_iff] at hless h1
          have := hvp.1
          omega
        split
        · rename_i hext
          rw [less_iff] at hext
          obtain ⟨out, o1, o2, o3, o4, o6, o5⟩ := ih acc (prev.setTo r.hi) (hset hlen) (hsort _ (by
            intro q hq he
            have h1 := hs2'.1 q hq
            unfold sortLe at h1
            omega))
          refine ⟨out, o1, o2, o3, hmem out o4, hmemh out o6, ?_⟩
          intro hw k
          rw [o5 (hww hw hlen) k]
          simp only [List.mem_cons, exists_eq_or_imp]
          unfold inK
          simp only [Rng.setTo]
          constructor
          · rintro (h | h)
            · omega
            · right; right; exact h
          · rintro (h | h | h)
            · left; omega
            · left; omega
            · right; exact h
        · rename_i hext
          rw [less_iff] at hext
          obtain ⟨out, o1, o2, o3, o4, o6, o5⟩ := ih acc prev
            (fun q hq => hv q (by rcases List.mem_cons.1 hq with h | h <;> simp [h]))
            (List.pairwise_cons.2 ⟨fun q hq => hs1 q (by simp [hq]), hs2'.2⟩)
          have hmono : ∀ q, q ∈ prev :: rs → q ∈ prev :: r :: rs := by
            intro q hq; rcases List.mem_cons.1 hq with h | h <;> simp [h]
          refine ⟨out, o1, o2, o3, ?_, ?_, ?_⟩
          · intro o ho
            obtain ⟨q, hq, he⟩ := o4 o ho
            exact ⟨q, hmono q hq, he⟩
          · intro o ho
            obtain ⟨q, hq, he⟩ := o6 o ho
            exact ⟨q, hmono q hq, he⟩
          · intro hw k
            rw [List.pairwise_cons, List.pairwise_cons] at hw
            rw [o5 (List.pairwise_cons.2 ⟨fun q hq => hw.1 q (by simp [hq]), hw.2.2⟩) k]
            simp only [List.mem_cons, exists_eq_or_imp]
            unfold inK
            constructor
            · rintro (h | h)
              · left; exact h
              · right; right; exact h
            · rintro (h | h | h)
              · left; exact h
              · left; omega
              · right; exact h

theorem mergeRanges_spec (A : Arith P) (rr : List (Rng P)) (hv : ∀ r ∈ rr, r.Valid) :
    ∃ out, mergeRanges rr = some out ∧ Canonical out ∧
      (∀ o ∈ out, ∃ r ∈ rr, o.lo = r.lo) ∧ (∀ o ∈ out, ∃ r ∈ rr, o.hi = r.hi) ∧
      (NoWrap rr → ∀ k, (∃ o ∈ out, inK o k) ↔ ∃ r ∈ rr, inK r k) := by
  unfold mergeRanges
  split
  · exact ⟨[], rfl, ⟨by simp, List.Pairwise.nil⟩, by simp, by simp, fun _ k => Iff.rfl⟩
  · rename_i r
    refine ⟨[r], rfl, ?_, by simp, by simp, fun _ k => Iff.rfl⟩
    rw [canonical_iff]
    exact ⟨hv, List.pairwise_singleton _ _⟩
  · have hp := sortRanges_perm rr
    have hs := sortRanges_sorted rr
    cases hsr : sortRanges rr with
    | nil =>
      rw [hsr] at hp
      have : rr = [] := hp.symm.eq_nil
      subst this
      exact ⟨[], rfl, ⟨by simp, List.Pairwise.nil⟩, by simp, by simp, fun _ k => Iff.rfl⟩
    | cons r rs =>
      rw [hsr] at hp hs
      simp only
      have hv' : ∀ q ∈ r :: rs, q.Valid := fun q hq => hv q (hp.mem_iff.1 hq)
      obtain ⟨out, o1, o2, _, o4, o6, o5⟩ := mergeLoop_spec A rs [] r hv' hs
      refine ⟨out, o1, o2, ?_, ?_, ?_⟩
      · intro o ho
        obtain ⟨q, hq, he⟩ := o4 o ho
        exact ⟨q, hp.mem_iff.1 hq, he⟩
      · intro o ho
        obtain ⟨q, hq, he⟩ := o6 o ho
        exact ⟨q, hp.mem_iff.1 hq, he⟩
      · intro hnw k
        have hw : (r :: rs).Pairwise wrapOk := by
          refine (List.Pairwise.and_mem.1 hs).imp ?_
          rintro a b ⟨ha, hb, hab⟩ h1 h2 h3
          by_cases hmax : b.hi.id = maxV P
          · exact hmax
          · exfalso
            refine hnw a (hp.mem_iff.1 ha) b (hp.mem_iff.1 hb) ⟨h1, ?_, h2, h3, hmax⟩
            have hva := hv' a ha
            have h4 : ¬ key b.lo < key a.lo := by unfold sortLe at hab; omega
            rw [key_lt_iff, h3, toNat_one A.pos] at h4
            have := hva.1
            omega
        rw [o5 hw k]
        constructor
        · rintro ⟨q, hq, h⟩; exact ⟨q, hp.mem_iff.1 hq, h⟩
        · rintro ⟨q, hq, h⟩; exact ⟨q, hp.mem_iff.2 hq, h⟩

end Verif.Id
