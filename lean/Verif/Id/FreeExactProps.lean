import Verif.Id.FreeProps

/-! What `RemoveFreePrefix` does in id64 (C40), where `Prev` is wrong at multiples of `2^32`. -/

namespace Verif.Id
variable {P : Pkg}

/-- the merge of ranges already in order changes nothing -/
theorem mergeRanges_canonical (A : Arith P) {rr : List (Rng P)} (hc : Canonical rr) :
    mergeRanges rr = some rr := by
  obtain ⟨out, h1, h2, _, _, h5⟩ := mergeRanges_spec A rr hc.1
  have h5' := h5 (canonical_noWrap A.pos hc)
  rw [h1, canonical_unique h2 hc]
  intro i
  rw [hasAny_iff h2.1, hasAny_iff hc.1]
  exact h5' (key i)

/-- what is left of `rin` when `r` inside it is removed -/
def leftOver (rin r : Rng P) : List (Rng P) :=
  (if key rin.lo < key r.lo then [⟨rin.lo, r.lo.prev⟩] else []) ++
    (if key r.hi < key rin.hi then [⟨r.hi.next, rin.hi⟩] else [])

theorem normLoop_one {r : Rng P} (hv : r.Valid) : ∀ (pre : List (Rng P)) (min : List (Rng P))
    {rin : Rng P} {post : List (Rng P)}, Canonical (pre ++ rin :: post) →
    key rin.lo ≤ key r.lo → key r.hi ≤ key rin.hi →
    normLoop min (pre ++ rin :: post) [r] = .ok (min ++ (pre ++ leftOver rin r ++ post)) := by
  have kr := hv.key_le
  have hpost : ∀ (min post : List (Rng P)), (∀ q ∈ post, q.Valid) → (∀ q ∈ post, key r.hi < key q.lo) →
      normLoop min post [r] = .ok (min ++ post) := by
    intro min post hvp hp
    cases post with
    | nil => unfold normLoop; simp
    | cons q post =>
      have : (!r.isValid || !q.isValid) = false := by
        rw [isValid_iff.2 hv, isValid_iff.2 (hvp q (by simp))]; rfl
      unfold normLoop
      simp only [this, Bool.false_eq_true, if_false]
      have hb : r.entirelyBefore q = true := less_iff.2 (hp q (by simp))
      simp only [hb, if_true]
      unfold normLoop
      rfl
  intro pre
  induction pre with
  | nil =>
    intro min rin post hc h1 h2
    rw [List.nil_append, canonical_iff] at hc
    obtain ⟨hvv, hg⟩ := hc
    rw [List.pairwise_cons] at hg
    have hval : (!r.isValid || !rin.isValid) = false := by
      rw [isValid_iff.2 hv, isValid_iff.2 (hvv rin (by simp))]; rfl
    have hp := fun min => hpost min post (fun q hq => hvv q (by simp [hq]))
      (fun q hq => by have := hg.1 q hq; omega)
    have n1 : ¬ (r.entirelyBefore rin = true) := by
      unfold Rng.entirelyBefore; rw [less_iff]; omega
    have n2 : ¬ (rin.entirelyBefore r = true) := by
      unfold Rng.entirelyBefore; rw [less_iff]; omega
    rw [List.nil_append]
    unfold normLoop leftOver
    simp only [hval, Bool.false_eq_true, if_false, n1, n2]
    have hcov : (rin.coveredBy r = true) ↔ key r.lo ≤ key rin.lo ∧ key rin.hi ≤ key r.hi := by
      unfold Rng.coveredBy; rw [Bool.and_eq_true, lessOrEq_iff, lessOrEq_iff]
    have hmid : (r.inMiddleOf rin = true) ↔ key rin.lo < key r.lo ∧ key r.hi < key rin.hi := by
      unfold Rng.inMiddleOf; rw [Bool.and_eq_true, less_iff, less_iff]
    have hst : (r.overlapsStartOf rin = true) ↔ key r.lo ≤ key rin.lo ∧ key r.hi < key rin.hi := by
      unfold Rng.overlapsStartOf; rw [Bool.and_eq_true, lessOrEq_iff, less_iff]
    have hen : (r.overlapsEndOf rin = true) ↔ key rin.lo < key r.lo ∧ key rin.hi ≤ key r.hi := by
      unfold Rng.overlapsEndOf; rw [Bool.and_eq_true, lessOrEq_iff, less_iff]
    simp only [hcov, hmid, hst, hen]
    by_cases a : key rin.lo < key r.lo <;> by_cases b : key r.hi < key rin.hi
    · have : ¬ key rin.hi ≤ key r.hi := by omega
      simp only [a, b, this, and_true, and_false, if_true, if_false]
      unfold normLoop
      simp [Rng.setFrom]
    · have e : key rin.hi ≤ key r.hi := by omega
      have e' : ¬ key r.lo ≤ key rin.lo := by omega
      simp only [a, b, e, e', and_true, and_false, if_true, if_false]
      rw [hp]
      simp
    · have : ¬ key rin.hi ≤ key r.hi := by omega
      have e' : key r.lo ≤ key rin.lo := by omega
      simp only [a, b, this, e', and_true, and_false, if_true, if_false]
      unfold normLoop
      simp [Rng.setFrom]
    · have e : key rin.hi ≤ key r.hi := by omega
      have e' : key r.lo ≤ key rin.lo := by omega
      simp only [a, b, e, e', and_true, if_true, if_false]
      rw [hp]
      simp
  | cons q pre ih =>
    intro min rin post hc h1 h2
    have hc0 := hc
    rw [List.cons_append, canonical_iff] at hc
    obtain ⟨hvv, hg⟩ := hc
    rw [List.pairwise_cons] at hg
    have hq := hg.1 rin (by simp)
    have kq := (hvv q (by simp)).key_le
    have hval : (!r.isValid || !q.isValid) = false := by
      rw [isValid_iff.2 hv, isValid_iff.2 (hvv q (by simp))]; rfl
    have n1 : ¬ (r.entirelyBefore q = true) := by
      unfold Rng.entirelyBefore; rw [less_iff]; omega
    have n2 : (q.entirelyBefore r = true) := by
      unfold Rng.entirelyBefore; rw [less_iff]; omega
    rw [List.cons_append]
    unfold normLoop
    simp only [hval, Bool.false_eq_true, if_false, n1, n2, if_true]
    rw [ih (min ++ [q]) ((canonical_iff _).2 ⟨fun x hx => hvv x (List.mem_cons_of_mem _ hx), hg.2⟩) h1 h2]
    simp

/-- a run of covered values lies in one range -/
theorem run_in_one {rr : List (Rng P)} (hc : Canonical rr) {a b : Nat} (hab : a ≤ b)
    (h : ∀ k, a ≤ k → k ≤ b → ∃ r ∈ rr, inK r k) :
    ∃ pre r post, rr = pre ++ r :: post ∧ key r.lo ≤ a ∧ b ≤ key r.hi := by
  obtain ⟨r, hr, h1⟩ := h a (Nat.le_refl _) hab
  obtain ⟨pre, post, e⟩ := List.append_of_mem hr
  refine ⟨pre, r, post, e, h1.1, Nat.le_of_not_lt fun hlt => ?_⟩
  have h1' : a ≤ key r.hi := h1.2
  obtain ⟨s, hs, h2⟩ := h (key r.hi + 1) (by omega) (by omega)
  have h2a : key s.lo ≤ key r.hi + 1 := h2.1
  have h2b : key r.hi + 1 ≤ key s.hi := h2.2
  rw [canonical_iff, e, List.pairwise_append, List.pairwise_cons] at hc
  obtain ⟨hv, _, ⟨hpost, _⟩, hpre⟩ := hc
  rw [e, List.mem_append, List.mem_cons] at hs
  rcases hs with hs | rfl | hs
  · have := hpre s hs r (by simp)
    have := (hv r (by simp)).key_le
    omega
  · omega
  · have := hpost s hs
    omega

/-- `RemoveFreePrefix` in general: the chosen block is cut out of the range it lies in -/
theorem removeFree_cut (A : Arith P) {s : IDSet P} {l : Nat} (hc : Canonical s.rr) {q : MyId P}
    (hb : bestOf l none s.rr = some (some q)) (hfree : FreeBlock s.rr l ⟨q.id, l⟩)
    (hpre : PrefOk (⟨q.id, l⟩ : MyId P)) {r : Rng P} (hr : rangeOfID (⟨q.id, l⟩ : MyId P) = some r) :
    ∃ pre rin post, s.rr = pre ++ rin :: post ∧ key rin.lo ≤ key r.lo ∧ key r.hi ≤ key rin.hi ∧
      s.removeFreePrefix l = .ok (some (⟨q.id, l⟩, ⟨pre ++ leftOver rin r ++ post⟩)) := by
  have hvr := rangeOfID_valid hpre hr
  obtain ⟨r', hr', hl1, hl2, hlo, hhi⟩ := rangeOfID_spec hpre
  rw [hr, Option.some.injEq] at hr'
  subst hr'
  obtain ⟨pre, rin, post, e, k1, k2⟩ := run_in_one hc hvr.key_le (fun k h1 h2 => by
    have hk : ∃ i : MyId P, i.len = P.W ∧ key i = k := by
      have hi := r.hi.id.isLt
      have hlt : k - P.W * (2 ^ P.W + 1) < 2 ^ P.W ∧ P.W * (2 ^ P.W + 1) ≤ k := by
        unfold key at h1 h2
        rw [hl1] at h1
        rw [hl2] at h2
        omega
      refine ⟨⟨BitVec.ofNat _ (k - P.W * (2 ^ P.W + 1)), P.W⟩, rfl, ?_⟩
      unfold key
      simp only [BitVec.toNat_ofNat, Nat.mod_eq_of_lt hlt.1]
      omega
    obtain ⟨i, hil, rfl⟩ := hk
    have hbl : Block (⟨q.id, l⟩ : MyId P) i := (rangeOfID_has hpre hr i).1 ((has_iff hvr i).2 ⟨h1, h2⟩)
    have := hfree.2.2 i.id hbl.2
    have hii : (⟨i.id, P.W⟩ : MyId P) = i := by rw [← hil]
    unfold ValueIn at this
    rw [hii] at this
    exact (hasAny_iff hc.1 i).1 this)
  refine ⟨pre, rin, post, e, k1, k2, ?_⟩
  obtain ⟨b0, hadd, hrem⟩ := removeFree_remove hc hr hvr
  have hn := normLoop_one hvr pre [] (e ▸ hc) k1 k2
  have hm : mergeRanges s.rr = some (pre ++ rin :: post) := by
    rw [mergeRanges_canonical A hc, e]
  have hout : mergeRanges [r] = some [r] := rfl
  unfold IDSet.removeFreePrefix
  simp only [hb, hadd]
  rw [hrem]
  simp only [Builder.ipSet, Builder.normalize, hm, hout, hn, List.nil_append]

/-- **C40, partial** Exactly what `RemoveFreePrefix` of id64 does to a set of ranges that `IDs` gets
right. With a length from 1 to 32 it fails iff no block of that length is free. Otherwise it returns
such a block `p`, at the start of the first of the tightest prefixes, and replaces the range `r` in
which the block lies: by what `r` has behind the block, and, unless the block is at the start of
`r`, a range from the start of `r` to `2^32 - 2`, wherever the block is. With a length from 33 to 64
it panics iff such a block is free. Missing: the part of `r` before the block, and the lengths from
33 on, which are wrong. -/
theorem C40_removeFreePrefix64_exact_partial (s : IDSet id64) (l : Nat) (h1 : 1 ≤ l) (hl : l ≤ 64)
    (hc : Canonical s.rr) (hf : FullLength s.rr) (hs : ∀ r ∈ s.rr, ¬ Misread r ∨ Whole r) :
    ((∀ p, ¬ FreeBlock s.rr l p) → s.removeFreePrefix l = .ok none) ∧
    ((∃ p, FreeBlock s.rr l p) → 32 < l → s.removeFreePrefix l = .panicNil) ∧
    ((∃ p, FreeBlock s.rr l p) → l ≤ 32 → ∃ p L q pre r post, FreeBlock s.rr l p ∧
      s.ids = some L ∧ Tightest l L q ∧ q.id = p.id ∧ s.rr = pre ++ r :: post ∧
      r.lo.id.toNat ≤ p.id.toNat ∧ p.id.toNat + (2 ^ (64 - l) - 1) ≤ r.hi.id.toNat ∧
      s.removeFreePrefix l = .ok (some (p, ⟨pre ++
        ((if r.lo.id.toNat < p.id.toNat then [rangeFrom r.lo.id 0xfffffffe] else []) ++
         (if p.id.toNat + (2 ^ (64 - l) - 1) < r.hi.id.toNat then
            [rangeFrom (BitVec.ofNat _ (p.id.toNat + 2 ^ (64 - l))) r.hi.id] else [])) ++ post⟩))) := by
  rcases removeFree_choice s l hl hc hf (idsOk64 hc hs) with ⟨hb, hno⟩ | ⟨q, L, hb, hL, ht, hfree⟩
  · have : s.removeFreePrefix l = .ok none := by unfold IDSet.removeFreePrefix; rw [hb]
    exact ⟨fun _ => this, fun ⟨p, hp⟩ => absurd hp (hno p), fun ⟨p, hp⟩ => absurd hp (hno p)⟩
  · refine ⟨fun hno => absurd hfree (hno _), fun _ h32 => ?_, fun _ h32 => ?_⟩
    · have hn : rangeOfID (⟨q.id, l⟩ : MyId id64) = none := by
        unfold rangeOfID
        rw [C30_mask64_violated.1 _ _ h32]
      unfold IDSet.removeFreePrefix
      simp only [hb, addSet_plain s.rr Builder.empty rfl hc.1]
      unfold Builder.removeId
      simp only [hn]
    · have hpre : PrefOk (⟨q.id, l⟩ : MyId id64) := prefOk64 h1 h32
      obtain ⟨r, hr, hl1, hl2, hlo, hhi⟩ := rangeOfID_spec hpre
      have hal := Nat.div_mul_cancel hfree.2.1.2
      have hal32 : q.id.toNat % 2 ^ 32 = 0 :=
        Nat.mod_eq_zero_of_dvd (Nat.dvd_trans (Nat.pow_dvd_pow 2 (show 32 ≤ 64 - l by omega)) hfree.2.1.2)
      change r.lo.id.toNat = q.id.toNat / 2 ^ (id64.W - l) * 2 ^ (id64.W - l) at hlo
      change r.hi.id.toNat = q.id.toNat / 2 ^ (id64.W - l) * 2 ^ (id64.W - l) +
        (2 ^ (id64.W - l) - 1) at hhi
      rw [hal] at hlo hhi
      change r.lo.id.toNat = q.id.toNat at hlo
      change r.hi.id.toNat = q.id.toNat + (2 ^ (64 - l) - 1) at hhi
      change r.lo.len = 64 at hl1
      change r.hi.len = 64 at hl2
      have hp := Nat.two_pow_pos (64 - l)
      obtain ⟨pre, rin, post, e, k1, k2, hres⟩ := removeFree_cut Arith64 hc hb hfree hpre hr
      have hmem : rin ∈ s.rr := by rw [e]; simp
      have hv := hc.1 rin hmem
      have f1 : rin.lo.len = 64 := hf rin hmem
      have f2 : rin.hi.len = 64 := hv.1 ▸ f1
      have c1 : (key rin.lo < key r.lo) ↔ rin.lo.id.toNat < q.id.toNat := by
        rw [key_lt_iff, f1, hl1, hlo]; omega
      have c2 : (key r.hi < key rin.hi) ↔ q.id.toNat + (2 ^ (64 - l) - 1) < rin.hi.id.toNat := by
        rw [key_lt_iff, f2, hl2, hhi]; omega
      have c3 : rin.lo.id.toNat ≤ q.id.toNat := by
        have : ¬ key r.lo < key rin.lo := by omega
        rw [key_lt_iff, f1, hl1, hlo] at this; omega
      have c4 : q.id.toNat + (2 ^ (64 - l) - 1) ≤ rin.hi.id.toNat := by
        have : ¬ key rin.hi < key r.hi := by omega
        rw [key_lt_iff, f2, hl2, hhi] at this; omega
      refine ⟨_, L, q, pre, rin, post, hfree, hL, ht, rfl, e, c3, c4, ?_⟩
      rw [hres]
      unfold leftOver
      have d1 : (if key rin.lo < key r.lo then [(⟨rin.lo, r.lo.prev⟩ : Rng id64)] else []) =
          (if rin.lo.id.toNat < q.id.toNat then [rangeFrom rin.lo.id 0xfffffffe] else []) := by
        by_cases h : rin.lo.id.toNat < q.id.toNat
        · rw [if_pos (c1.2 h), if_pos h]
          obtain ⟨_, _, hx⟩ := C29_exact_partial r.lo
          obtain ⟨x1, x2⟩ := hx (by omega)
          rw [hlo, if_pos hal32] at x2
          have : r.lo.prev = ⟨0xfffffffe, 64⟩ := by
            rw [hl1] at x1
            generalize r.lo.prev = z at x1 x2
            cases z
            simp only at x1 x2
            subst x1
            congr 1
            exact BitVec.eq_of_toNat_eq x2
          rw [this]
          unfold rangeFrom
          congr 2
          cases h' : rin.lo
          rw [h'] at f1
          simp only at f1
          rw [f1]
          rfl
        · rw [if_neg (fun x => h (c1.1 x)), if_neg h]
      have d2 : (if key r.hi < key rin.hi then [(⟨r.hi.next, rin.hi⟩ : Rng id64)] else []) =
          (if q.id.toNat + (2 ^ (64 - l) - 1) < rin.hi.id.toNat then
            [rangeFrom (BitVec.ofNat _ (q.id.toNat + 2 ^ (64 - l))) rin.hi.id] else []) := by
        by_cases h : q.id.toNat + (2 ^ (64 - l) - 1) < rin.hi.id.toNat
        · rw [if_pos (c2.2 h), if_pos h]
          have hlt := rin.hi.id.isLt
          have hmax : r.hi.id.toNat + 1 < 2 ^ id64.W := by omega
          obtain ⟨hx, _⟩ := C29_next_prev_partial (.inr (.inr rfl)) r.hi
          obtain ⟨x1, x2⟩ := hx hmax
          have : r.hi.next = ⟨BitVec.ofNat _ (q.id.toNat + 2 ^ (64 - l)), 64⟩ := by
            rw [hl2] at x2
            rw [hhi] at x1 hmax
            generalize r.hi.next = z at x1 x2
            cases z
            simp only at x1 x2
            subst x2
            congr 1
            apply BitVec.eq_of_toNat_eq
            rw [x1, BitVec.toNat_ofNat, Nat.mod_eq_of_lt (by omega)]
            omega
          rw [this]
          unfold rangeFrom
          congr 2
          cases h' : rin.hi
          rw [h'] at f2
          simp only at f2
          rw [f2]
          rfl
        · rw [if_neg (fun x => h (c2.1 x)), if_neg h]
      rw [d1, d2]

-- the values from 0x180000000 to 0x2ffffffff: the only block of length 32 is the upper half
example : Canonical [(rangeFrom 0x180000000 0x2ffffffff : Rng id64)] ∧
    FullLength [(rangeFrom 0x180000000 0x2ffffffff : Rng id64)] ∧
    (∀ r ∈ [(rangeFrom 0x180000000 0x2ffffffff : Rng id64)], ¬ Misread r ∨ Whole r) ∧
    FreeBlock [(rangeFrom 0x180000000 0x2ffffffff : Rng id64)] 32 ⟨0x200000000, 32⟩ := by
  refine ⟨⟨fun r hr => by rw [List.mem_singleton.1 hr]; unfold Rng.Valid rangeFrom; decide, by simp⟩, by simp [FullLength, rangeFrom], ?_, rfl,
    ⟨by decide, by decide⟩, ?_⟩
  · intro r hr
    rw [List.mem_singleton.1 hr]
    left
    intro h
    exact h.1 (by unfold SameHalf; decide)
  · intro x hx
    have hx' : x.toNat / 2 ^ 32 = 0x200000000 / 2 ^ 32 := hx
    refine ⟨_, List.mem_singleton.2 rfl, rfl, ?_, ?_⟩
    · show 0x180000000 ≤ x.toNat; omega
    · show x.toNat ≤ 0x2ffffffff; omega
-- what remains is a range whose end is before its start
example : (⟨0x200000000, 64⟩ : MyId id64).prev = ⟨0xfffffffe, 64⟩ ∧
    ¬ (rangeFrom 0x180000000 0xfffffffe : Rng id64).Valid := by
  refine ⟨by decide, ?_⟩
  unfold Rng.Valid rangeFrom
  decide

end Verif.Id
