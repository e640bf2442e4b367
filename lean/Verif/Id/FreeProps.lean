import Verif.Id.SetProps

/-! Theorems C40, C41, C66 and C67: prefixes of a set. -/

namespace Verif.Id
variable {P : Pkg}

/-! ### C41 -/

/-- the decomposition of every range of the set is right -/
def IdsOk (rr : List (Rng P)) : Prop :=
  ∀ r ∈ rr, ∃ L, r.ids = some L ∧ Tiles P.W (L.map toPair) r.lo.id.toNat (r.hi.id.toNat + 1) ∧
    Maximal P.W (L.map toPair) r.lo.id.toNat (r.hi.id.toNat + 1)

theorem valueIn_cons {r : Rng P} {rr : List (Rng P)} (h : r.lo.len = P.W) (x : BitVec P.W) :
    ValueIn (r :: rr) x ↔ (r.lo.id ≤ x ∧ x ≤ r.hi.id) ∨ ValueIn rr x := by
  unfold ValueIn HasAny
  simp only [List.mem_cons, exists_eq_or_imp, Rng.Has, h, true_and]

theorem idsAll_spec {rr : List (Rng P)} (hc : Canonical rr) (hf : FullLength rr) (ho : IdsOk rr) :
    ∃ L, idsAll rr = some L ∧ Lists L (ValueIn rr) ∧
      (∀ q : MyId P, q.len ≤ P.W → (∀ x, Covers q x → ValueIn rr x) →
        ∃ p ∈ L, ∀ x, Covers q x → Covers p x) := by
  induction rr with
  | nil =>
    refine ⟨[], rfl, ⟨by simp, .nil, ?_⟩, ?_⟩
    · intro x; simp [ValueIn, HasAny]
    · intro q _ h
      have := h q.id rfl
      simp [ValueIn, HasAny] at this
  | cons r rr ih =>
    have hc' := hc
    rw [canonical_iff] at hc'
    obtain ⟨hv, hg⟩ := hc'
    rw [List.pairwise_cons] at hg
    have hct : Canonical rr := (canonical_iff _).2 ⟨fun q hq => hv q (by simp [hq]), hg.2⟩
    have hft : FullLength rr := fun q hq => hf q (by simp [hq])
    have hot : IdsOk rr := fun q hq => ho q (by simp [hq])
    obtain ⟨M, m1, m2, m3⟩ := ih hct hft hot
    obtain ⟨L, l1, l2, l3⟩ := ho r List.mem_cons_self
    have hd := l2.decomposes
    have hmin := minimal_of l2 l3
    have hlen := hf r List.mem_cons_self
    have hvr := hv r List.mem_cons_self
    -- values of later ranges are beyond the end, with a gap
    have hlater : ∀ x, ValueIn rr x → r.hi.id.toNat + 1 < x.toNat := by
      rintro x ⟨q, hq, hx⟩
      have h1 := hg.1 q hq
      rw [key_gap] at h1
      have h2 : q.lo.id.toNat ≤ x.toNat := hx.2.1
      have h3 := hf q (by simp [hq])
      have := hvr.1
      omega
    refine ⟨L ++ M, by simp only [idsAll, l1, m1], ⟨?_, ?_, ?_⟩, ?_⟩
    · intro p hp
      rcases List.mem_append.1 hp with hp | hp
      · exact hd.aligned p hp
      · exact m2.aligned p hp
    · rw [List.pairwise_append]
      refine ⟨hd.ascending, m2.ascending, ?_⟩
      intro p hp q hq x y hx hy
      have h1 := (hd.cover x).1 ⟨p, hp, hx⟩
      have h2 := hlater y ((m2.cover y).1 ⟨q, hq, hy⟩)
      have h3 : x.toNat ≤ r.hi.id.toNat := h1.2
      show x.toNat < y.toNat
      omega
    · intro x
      rw [valueIn_cons hlen, ← hd.cover x, ← m2.cover x]
      constructor
      · rintro ⟨p, hp, hx⟩
        rcases List.mem_append.1 hp with hp | hp
        · exact .inl ⟨p, hp, hx⟩
        · exact .inr ⟨p, hp, hx⟩
      · rintro (⟨p, hp, hx⟩ | ⟨p, hp, hx⟩)
        · exact ⟨p, List.mem_append_left _ hp, hx⟩
        · exact ⟨p, List.mem_append_right _ hp, hx⟩
    · intro q hq hin
      -- the block lies on one side of the gap
      have hconv : ∀ x y z : BitVec P.W, Covers q x → Covers q y → x ≤ z → z ≤ y → Covers q z := by
        intro x y z hx hy h1 h2
        unfold Covers at *
        have h1' : x.toNat ≤ z.toNat := h1
        have h2' : z.toNat ≤ y.toNat := h2
        apply Nat.le_antisymm
        · rw [← hy]; exact Nat.div_le_div_right h2'
        · rw [← hx]; exact Nat.div_le_div_right h1'
      by_cases hside : ∀ x, Covers q x → r.lo.id ≤ x ∧ x ≤ r.hi.id
      · obtain ⟨p, hp, h⟩ := hmin.maximal q hq hside
        exact ⟨p, List.mem_append_left _ hp, h⟩
      · have hex : ∃ x, Covers q x ∧ ¬ (r.lo.id ≤ x ∧ x ≤ r.hi.id) := by
          refine Classical.byContradiction fun hno => hside fun x hx => ?_
          exact Classical.byContradiction fun h => hno ⟨x, hx, h⟩
        obtain ⟨x, hx, hxo⟩ := hex
        have hxl := hlater x (((valueIn_cons hlen x).1 (hin x hx)).resolve_left hxo)
        have hall : ∀ y, Covers q y → ValueIn rr y := by
          intro y hy
          rcases (valueIn_cons hlen y).1 (hin y hy) with h | h
          · exfalso
            -- the value after r.hi would be in the block
            have h2 : y.toNat ≤ r.hi.id.toNat := h.2
            have hxlt := x.isLt
            have e : (BitVec.ofNat P.W (r.hi.id.toNat + 1)).toNat = r.hi.id.toNat + 1 := by
              rw [BitVec.toNat_ofNat, Nat.mod_eq_of_lt (by omega)]
            have hz := hconv y x (BitVec.ofNat _ (r.hi.id.toNat + 1)) hy hx
              (by rw [BitVec.le_def, e]; omega) (by rw [BitVec.le_def, e]; omega)
            rcases (valueIn_cons hlen _).1 (hin _ hz) with h3 | h3
            · have : (BitVec.ofNat P.W (r.hi.id.toNat + 1)).toNat ≤ r.hi.id.toNat := h3.2
              omega
            · have := hlater _ h3
              omega
          · exact h
        obtain ⟨p, hp, h⟩ := m3 q hq hall
        exact ⟨p, List.mem_append_right _ hp, h⟩

theorem idsOk_good (G : Good P) {rr : List (Rng P)} (h : Canonical rr) : IdsOk rr := by
  intro r hr
  obtain ⟨L, h1, _, _, h4, h5⟩ := ids_spec (m0 := 0) (fun l _ => G.mask l) r (h.1 r hr).2 (Nat.zero_le _)
  exact ⟨L, h1, h4, h5⟩

theorem idsOk64 {rr : List (Rng id64)} (h : Canonical rr) (hs : ∀ r ∈ rr, ¬ Misread r ∨ Whole r) :
    IdsOk rr := by
  intro r hr
  obtain ⟨L, h1, _, h4, h5⟩ := ids64_spec r (h.1 r hr).2 (hs r hr)
  exact ⟨L, h1, h4, h5⟩

/-- **C41** (id16, id32) `IDs()` of a set (canonical by `C37`) lists aligned prefixes, ascending and
disjoint, that cover exactly the set. -/
theorem C41_ids_cover (hP : P = id16 ∨ P = id32) (s : IDSet P) (hc : Canonical s.rr)
    (hf : FullLength s.rr) : ∃ L, s.ids = some L ∧ Lists L (ValueIn s.rr) := by
  obtain ⟨L, h1, h2, _⟩ := idsAll_spec hc hf (idsOk_good (good_of hP) hc)
  exact ⟨L, h1, h2⟩

example : (⟨[rangeFrom 4 7, rangeFrom 9 10]⟩ : IDSet id16).ids =
    some [⟨4, 14⟩, ⟨9, 16⟩, ⟨10, 16⟩] := by decide
example : Canonical ([rangeFrom 4 7, rangeFrom 9 10] : List (Rng id16)) ∧
    FullLength ([rangeFrom 4 7, rangeFrom 9 10] : List (Rng id16)) := by
  unfold Canonical FullLength Rng.Valid
  decide

/-- **C41, violated** id64: the set `2^32 .. 2^64-1` is listed as the prefix of length 0, which
covers 0 as well. -/
theorem C41_ids64_violated :
    (⟨[rangeFrom 0x100000000 0xffffffffffffffff]⟩ : IDSet id64).ids = some [⟨0x100000000, 0⟩] ∧
    Covers (⟨0x100000000, 0⟩ : MyId id64) 0 ∧
    ¬ ValueIn [(rangeFrom 0x100000000 0xffffffffffffffff : Rng id64)] 0 := by
  refine ⟨by decide, C33_ids64_violated.2, ?_⟩
  rintro ⟨r, hr, h⟩
  rw [List.mem_singleton.1 hr] at h
  exact absurd h.2.1 (by decide)

/-- **C41, partial** id64, sets of ranges that `IDs` gets right (`C32_ids64_partial`). -/
theorem C41_ids64_partial (s : IDSet id64) (hc : Canonical s.rr) (hf : FullLength s.rr)
    (hs : ∀ r ∈ s.rr, ¬ Misread r ∨ Whole r) : ∃ L, s.ids = some L ∧ Lists L (ValueIn s.rr) := by
  obtain ⟨L, h1, h2, _⟩ := idsAll_spec hc hf (idsOk64 hc hs)
  exact ⟨L, h1, h2⟩

/-! ### C40 -/

/-- one candidate of the loop -/
def pick (l : Nat) (best : Option (MyId P)) (i : MyId P) : Option (MyId P) :=
  if i.len > l then best
  else match best with
    | none => some i
    | some b => if i.len > b.len then some i else best

theorem pick_stop {l : Nat} {b : MyId P} (hb : b.len = l) (L : List (MyId P)) :
    L.foldl (pick l) (some b) = some b := by
  induction L with
  | nil => rfl
  | cons i L ih =>
    rw [List.foldl_cons]
    have : pick l (some b) i = some b := by
      unfold pick
      by_cases h : i.len > l
      · simp [h]
      · have : ¬ i.len > b.len := by omega
        simp [h, this]
    rw [this, ih]

theorem bestIn_eq (l : Nat) (L : List (MyId P)) : ∀ best, bestIn l best L = L.foldl (pick l) best := by
  induction L with
  | nil => intro best; rfl
  | cons i L ih =>
    intro best
    unfold bestIn
    rw [List.foldl_cons]
    by_cases h : i.len > l
    · simp only [h, if_true]
      rw [ih]
      congr 1
      unfold pick
      simp [h]
    · simp only [h, if_false]
      cases best with
      | none =>
        have hp : pick l none i = some i := by unfold pick; simp [h]
        rw [hp]
        simp only [if_true]
        split
        · rename_i he
          rw [pick_stop he]
        · rw [ih]
      | some b =>
        by_cases hb : i.len > b.len
        · have hp : pick l (some b) i = some i := by unfold pick; simp [h, hb]
          rw [hp]
          simp only [hb, decide_true, if_true]
          split
          · rename_i he
            rw [pick_stop he]
          · rw [ih]
        · have hp : pick l (some b) i = some b := by unfold pick; simp [h, hb]
          rw [hp]
          simp only [hb, decide_false, Bool.false_eq_true, if_false]
          rw [ih]

theorem bestOf_eq (l : Nat) (rr : List (Rng P)) : ∀ best L, idsAll rr = some L →
    bestOf l best rr = some (L.foldl (pick l) best) := by
  induction rr with
  | nil => intro best L h; cases h; rfl
  | cons r rr ih =>
    intro best L h
    unfold idsAll at h
    cases h1 : r.ids with
    | none => simp only [h1] at h; cases h
    | some a =>
      cases h2 : idsAll rr with
      | none => simp only [h1, h2] at h; cases h
      | some b =>
        simp only [h1, h2, Option.some.injEq] at h
        subst h
        unfold bestOf
        simp only [h1]
        rw [ih _ _ h2, bestIn_eq, List.foldl_append]

/-- the first of the longest prefixes of length at most `l` -/
def Tightest (l : Nat) (L : List (MyId P)) (q : MyId P) : Prop :=
  ∃ A B, L = A ++ q :: B ∧ q.len ≤ l ∧ (∀ i ∈ A, i.len ≤ l → i.len < q.len) ∧
    (∀ i ∈ B, i.len ≤ l → i.len ≤ q.len)

theorem pick_fold (l : Nat) (L : List (MyId P)) :
    (L.foldl (pick l) none = none ∧ ∀ i ∈ L, l < i.len) ∨
    (∃ q, L.foldl (pick l) none = some q ∧ Tightest l L q) := by
  have key : ∀ n (L : List (MyId P)), L.length = n →
      (L.foldl (pick l) none = none ∧ ∀ i ∈ L, l < i.len) ∨
      (∃ q, L.foldl (pick l) none = some q ∧ Tightest l L q) := by
    intro n
    induction n with
    | zero =>
      intro L hL
      have : L = [] := List.eq_nil_of_length_eq_zero hL
      subst this
      exact .inl ⟨rfl, by simp⟩
    | succ n ih =>
      intro L hL
      have hne : L ≠ [] := by rintro rfl; simp at hL
      rw [← List.dropLast_concat_getLast hne]
      have hlen : L.dropLast.length = n := by rw [List.length_dropLast]; omega
      generalize L.dropLast = T at *
      generalize L.getLast hne = j at *
      rw [List.foldl_append]
      simp only [List.foldl_cons, List.foldl_nil]
      rcases ih T hlen with ⟨h1, h2⟩ | ⟨q, h1, A, B, hT, h3, h4, h5⟩
      · rw [h1]
        by_cases hj : j.len > l
        · left
          refine ⟨by unfold pick; simp [hj], ?_⟩
          intro i hi
          rcases List.mem_append.1 hi with hi | hi
          · exact h2 i hi
          · rw [List.mem_singleton.1 hi]; exact hj
        · right
          refine ⟨j, by unfold pick; simp [hj], T, [], rfl, by omega, ?_, by simp⟩
          intro i hi hle
          have := h2 i hi
          omega
      · rw [h1]
        right
        by_cases hj : j.len > l
        · refine ⟨q, by unfold pick; simp [hj], A, B ++ [j], by rw [hT]; simp, h3, h4, ?_⟩
          intro i hi hle
          rcases List.mem_append.1 hi with hi | hi
          · exact h5 i hi hle
          · rw [List.mem_singleton.1 hi] at hle; omega
        · by_cases hb : j.len > q.len
          · refine ⟨j, by unfold pick; simp [hj, hb], T, [], rfl, by omega, ?_, by simp⟩
            intro i hi hle
            rw [hT] at hi
            rcases List.mem_append.1 hi with hi | hi
            · have := h4 i hi hle; omega
            · rcases List.mem_cons.1 hi with rfl | hi
              · exact hb
              · have := h5 i hi hle; omega
          · refine ⟨q, by unfold pick; simp [hj, hb], A, B ++ [j], by rw [hT]; simp, h3, h4, ?_⟩
            intro i hi hle
            rcases List.mem_append.1 hi with hi | hi
            · exact h5 i hi hle
            · rw [List.mem_singleton.1 hi]; omega
  exact key _ L rfl

theorem removeFree_choice (s : IDSet P) (l : Nat) (hl : l ≤ P.W)
    (hc : Canonical s.rr) (hf : FullLength s.rr) (ho : IdsOk s.rr) :
    (bestOf l none s.rr = some none ∧ ∀ p, ¬ FreeBlock s.rr l p) ∨
    (∃ q L, bestOf l none s.rr = some (some q) ∧ s.ids = some L ∧ Tightest l L q ∧
      FreeBlock s.rr l ⟨q.id, l⟩) := by
  obtain ⟨L, h1, h2, h3⟩ := idsAll_spec hc hf ho
  have hb := bestOf_eq l s.rr none L h1
  rcases pick_fold l L with ⟨g1, g2⟩ | ⟨q, g1, g2⟩
  · left
    rw [g1] at hb
    refine ⟨hb, ?_⟩
    rintro p ⟨p1, p2, p3⟩
    obtain ⟨q, hq, hqc⟩ := h3 p p2.1 p3
    have hql := g2 q hq
    have hqa := h2.aligned q hq
    -- a block cannot be contained in a smaller one
    have hs := Nat.two_pow_pos (P.W - p.len)
    have hlt : 2 ^ (P.W - q.len) < 2 ^ (P.W - p.len) :=
      Nat.pow_lt_pow_right (by decide) (by have := hqa.1; rw [p1]; omega)
    have hpa := p2.2
    have hp0 : Covers p p.id := rfl
    have htop : p.id.toNat + 2 ^ (P.W - p.len) ≤ 2 ^ P.W := by
      have e : 2 ^ P.W = 2 ^ p.len * 2 ^ (P.W - p.len) := by
        rw [← Nat.pow_add, Nat.add_sub_cancel' p2.1]
      obtain ⟨v, hv⟩ := hpa
      have hplt := p.id.isLt
      rw [hv, e, Nat.mul_comm] at hplt
      have hv' : v < 2 ^ p.len := Nat.lt_of_mul_lt_mul_right hplt
      calc _ = (v + 1) * 2 ^ (P.W - p.len) := by rw [hv, Nat.add_mul, Nat.one_mul, Nat.mul_comm]
        _ ≤ 2 ^ p.len * 2 ^ (P.W - p.len) := Nat.mul_le_mul_right _ hv'
        _ = _ := e.symm
    have e : (BitVec.ofNat P.W (p.id.toNat + 2 ^ (P.W - p.len) - 1)).toNat =
        p.id.toNat + 2 ^ (P.W - p.len) - 1 := by
      rw [BitVec.toNat_ofNat, Nat.mod_eq_of_lt (by omega)]
    have hlast : Covers p (BitVec.ofNat _ (p.id.toNat + 2 ^ (P.W - p.len) - 1)) := by
      rw [covers_iff_blk hpa]
      unfold blk toPair
      rw [e]
      simp only
      omega
    have c1 := (covers_iff_blk hqa.2 _).1 (hqc _ hp0)
    have c2 := (covers_iff_blk hqa.2 _).1 (hqc _ hlast)
    unfold blk toPair at c1 c2
    rw [e] at c2
    simp only at c1 c2
    omega
  · right
    rw [g1] at hb
    obtain ⟨X, Y, hL, q1, q2, q3⟩ := g2
    have hqL : q ∈ L := by rw [hL]; simp
    have hqa := h2.aligned q hqL
    let p : MyId P := ⟨q.id, l⟩
    have hpa : Aligned p := ⟨hl, Nat.dvd_trans (Nat.pow_dvd_pow 2 (show P.W - l ≤ P.W - q.len by omega)) hqa.2⟩
    have hsub : ∀ x, Covers p x → Covers q x := by
      intro x hx
      exact div_pow_mono (j := P.W - l) (by omega) hx
    have hfree : FreeBlock s.rr l p :=
      ⟨rfl, hpa, fun x hx => (h2.cover x).1 ⟨q, hqL, hsub x hx⟩⟩
    exact ⟨q, L, hb, h1, ⟨X, Y, hL, q1, q2, q3⟩, hfree⟩

theorem addSet_plain (rr : List (Rng P)) : ∀ (b : Builder P), b.outs = [] → (∀ r ∈ rr, r.Valid) →
    b.addSet rr = .ok { b with ins := b.ins ++ rr } := by
  induction rr with
  | nil => intro b hb _; simp [Builder.addSet]
  | cons r rr ih =>
    intro b hb hv
    have : b.addRange r = .ok { b with ins := b.ins ++ [r] } := by
      unfold Builder.addRange
      simp [isValid_iff.2 (hv r List.mem_cons_self), hb]
    unfold Builder.addSet
    rw [this]
    simp only
    rw [ih ⟨b.ins ++ [r], b.outs, b.errs⟩ hb (fun q hq => hv q (by simp [hq]))]
    simp

/-- the removal of the chosen block -/
theorem removeFree_remove {s : IDSet P} {p : MyId P} {r : Rng P} (hc : Canonical s.rr)
    (hr : rangeOfID p = some r) (hvr : r.Valid) :
    ∃ b, (Builder.empty : Builder P).addSet s.rr = .ok b ∧ b.removeId p = .ok ⟨s.rr, [r], false⟩ := by
  refine ⟨_, addSet_plain s.rr Builder.empty rfl hc.1, ?_⟩
  unfold Builder.removeId
  simp only [hr, isValid_iff.2 hvr, if_true]
  unfold Builder.removeRange
  simp [isValid_iff.2 hvr, Builder.empty]

theorem removeFree_spec (A : Arith P) (s : IDSet P) (l : Nat) (hl : l ≤ P.W)
    (hc : Canonical s.rr) (hf : FullLength s.rr) (ho : IdsOk s.rr)
    (hal : ∀ p : MyId P, FreeBlock s.rr l p → PrefOk p ∧ SubOk P (blockStart p)) :
    (s.removeFreePrefix l = .ok none ∧ ∀ p, ¬ FreeBlock s.rr l p) ∨
    (∃ p s' L q, s.removeFreePrefix l = .ok (some (p, s')) ∧ FreeBlock s.rr l p ∧
      Canonical s'.rr ∧ (∀ i, HasAny s'.rr i ↔ HasAny s.rr i ∧ ¬ Block p i) ∧
      s.ids = some L ∧ Tightest l L q ∧ q.id = p.id) := by
  rcases removeFree_choice s l hl hc hf ho with ⟨hb, hno⟩ | ⟨q, L, hb, h1, ht, hfree⟩
  · left
    exact ⟨by unfold IDSet.removeFreePrefix; rw [hb], hno⟩
  · right
    obtain ⟨hpre, hsok⟩ := hal _ hfree
    obtain ⟨r, hr, _, _, hlo, _⟩ := rangeOfID_spec hpre
    have hvr := rangeOfID_valid hpre hr
    have hblo : blockStart (⟨q.id, l⟩ : MyId P) = r.lo.id := by
      unfold blockStart
      rw [← hlo]; simp
    obtain ⟨b0, hadd, hrem⟩ := removeFree_remove hc hr hvr
    have hinv : Inv (⟨s.rr, [r], false⟩ : Builder P) := ⟨hc.1, by simpa using hvr, by
      intro x hx
      rw [List.mem_singleton.1 hx, ← hblo]
      exact hsok⟩
    obtain ⟨m, m1, m2, m3⟩ := ipSet_spec A hinv
    have hnw : NoWrap [r] := by
      intro x hx y hy hw
      rw [List.mem_singleton.1 hx, List.mem_singleton.1 hy] at hw
      exact hw.2.2.2.2 hw.2.2.1
    refine ⟨⟨q.id, l⟩, ⟨m⟩, L, q, ?_, hfree, m2, ?_, h1, ht, rfl⟩
    · unfold IDSet.removeFreePrefix
      simp only [hb, hadd]
      rw [hrem]
      simp only [m1]
    · intro i
      show HasAny m i ↔ _
      rw [m3 ⟨canonical_noWrap A.pos hc, hnw⟩ i]
      unfold Builder.Mem
      show HasAny s.rr i ∧ ¬ HasAny [r] i ↔ _
      rw [hasAny_singleton, rangeOfID_has hpre hr]

/-- **C40** (id16, id32) For a set of full length ids and `l` up to the width, `RemoveFreePrefix(l)`
fails iff no aligned block of length `l` lies in the set; otherwise it returns such a block, at the
start of the first of the tightest prefixes of the set, and the set without the block. -/
theorem C40_removeFreePrefix (hP : P = id16 ∨ P = id32) (s : IDSet P) (l : Nat) (hl : l ≤ P.W)
    (hc : Canonical s.rr) (hf : FullLength s.rr) :
    (s.removeFreePrefix l = .ok none ∧ ∀ p, ¬ FreeBlock s.rr l p) ∨
    (∃ p s' L q, s.removeFreePrefix l = .ok (some (p, s')) ∧ FreeBlock s.rr l p ∧
      Canonical s'.rr ∧ (∀ i, HasAny s'.rr i ↔ HasAny s.rr i ∧ ¬ Block p i) ∧
      s.ids = some L ∧ Tightest l L q ∧ q.id = p.id) := by
  have G := good_of hP
  refine removeFree_spec (arith_of (hP.imp id Or.inl)) s l hl hc hf (idsOk_good G hc) ?_
  intro p h
  exact ⟨prefOk_good G h.2.1.1, subOk_good G _⟩

/-- **C40, violated** id64: `RemoveFreePrefix(33)` of the set of the values 0 to `2^31 - 1` panics,
although the block of length 33 at 0 lies in the set. -/
theorem C40_removeFreePrefix64_violated :
    (∃ e, (⟨[rangeFrom 0 0x7fffffff]⟩ : IDSet id64).removeFreePrefix 33 = e ∧ e = .panicNil) ∧
    FreeBlock [(rangeFrom 0 0x7fffffff : Rng id64)] 33 ⟨0, 33⟩ := by
  refine ⟨⟨_, rfl, ?_⟩, rfl, ⟨by decide, by decide⟩, ?_⟩
  · rfl
  · intro x hx
    refine ⟨_, List.mem_singleton.2 rfl, rfl, Nat.zero_le _, ?_⟩
    have hx' : x.toNat / 2 ^ 31 = 0 / 2 ^ 31 := hx
    show x.toNat ≤ 0x7fffffff
    omega

/-- **C40, partial** id64, for lengths 1 to 32, sets of ranges that `IDs` gets right, and where
no block of that length other than the one at 0 is free. Missing: other lengths (violated above) and
blocks starting elsewhere, whose predecessor `Prev` gets wrong (`C29_prev64_violated`). -/
theorem C40_removeFreePrefix64_partial (s : IDSet id64) (l : Nat) (h1 : 1 ≤ l) (hl : l ≤ 32)
    (hc : Canonical s.rr) (hf : FullLength s.rr) (hs : ∀ r ∈ s.rr, ¬ Misread r ∨ Whole r)
    (hlow : ∀ p, FreeBlock s.rr l p → p.id = 0) :
    (s.removeFreePrefix l = .ok none ∧ ∀ p, ¬ FreeBlock s.rr l p) ∨
    (∃ p s' L q, s.removeFreePrefix l = .ok (some (p, s')) ∧ FreeBlock s.rr l p ∧
      Canonical s'.rr ∧ (∀ i, HasAny s'.rr i ↔ HasAny s.rr i ∧ ¬ Block p i) ∧
      s.ids = some L ∧ Tightest l L q ∧ q.id = p.id) := by
  refine removeFree_spec Arith64 s l (by show l ≤ 64; omega) hc hf (idsOk64 hc hs) ?_
  intro p h
  refine ⟨prefOk64 (by rw [h.1]; exact h1) (by rw [h.1]; exact hl), fun h0 => absurd ?_ h0⟩
  unfold blockStart
  rw [hlow p h]
  simp

-- 0..4 and 8..15: length 14 fits exactly at 0, length 13 at 8, length 12 does not fit
example : (⟨[rangeFrom 0 4, rangeFrom 8 15]⟩ : IDSet id16).ids =
    some [⟨0, 14⟩, ⟨4, 16⟩, ⟨8, 13⟩] := by decide
example : (match (⟨[rangeFrom 0 4, rangeFrom 8 15]⟩ : IDSet id16).removeFreePrefix 12 with
    | .ok none => true | _ => false) = true := by decide
example : FreeBlock ([rangeFrom 0 4, rangeFrom 8 15] : List (Rng id16)) 13 ⟨8, 13⟩ := by
  refine ⟨rfl, ⟨by decide, by decide⟩, fun x hx => ⟨rangeFrom 8 15, by simp, rfl, ?_⟩⟩
  have hx' : x.toNat / 2 ^ 3 = 8 / 2 ^ 3 := hx
  constructor
  · show 8 ≤ x.toNat; omega
  · show x.toNat ≤ 15; omega

/-! ### C66, C67 -/

/-- **C66, violated** (all packages) `AddId` and `RemoveId` of a prefix longer than the width call a
method of a nil interface. -/
theorem C66_long_prefix_violated (hP : P = id16 ∨ P = id32 ∨ P = id64) (s : Builder P) (p : MyId P)
    (h : P.W < p.len) : s.step (.addId p) = .panicNil ∧ s.step (.removeId p) = .panicNil := by
  have hn : rangeOfID p = none := by
    unfold rangeOfID
    rcases hP with rfl | rfl | rfl
    · rw [(C30_mask (.inl rfl) p p.len).1 h]
    · rw [(C30_mask (.inr rfl) p p.len).1 h]
    · have h' : 64 < p.len := h
      rw [C30_mask64_violated.1 p p.len (by omega)]
  simp only [Builder.step, Builder.addId, Builder.removeId, hn, and_self]

/-- **C67, violated** (id16, id32) `RemoveFreePrefix` with a length above the width panics for every
non-empty set. -/
theorem C67_long_length_violated (hP : P = id16 ∨ P = id32) (s : IDSet P) (l : Nat) (hl : P.W < l)
    (hc : Canonical s.rr) (hf : FullLength s.rr) (hne : s.rr ≠ []) :
    s.removeFreePrefix l = .panicNil := by
  obtain ⟨L, h1, h2, _⟩ := idsAll_spec hc hf (idsOk_good (good_of hP) hc)
  have hb := bestOf_eq l s.rr none L h1
  rcases pick_fold l L with ⟨g1, g2⟩ | ⟨q, g1, _⟩
  · exfalso
    obtain ⟨r, hr⟩ := List.exists_mem_of_ne_nil _ hne
    obtain ⟨p, hp, _⟩ := (h2.cover r.lo.id).2 ⟨r, hr, (hf r hr).symm, Nat.le_refl _, (hc.1 r hr).2⟩
    have a := (h2.aligned p hp).1
    have b := g2 p hp
    omega
  · rw [g1] at hb
    have hadd : ∃ b, (Builder.empty : Builder P).addSet s.rr = .ok b := by
      obtain ⟨b, h, _⟩ := addSet_spec (arith_of (hP.imp id Or.inl)) excl_false s.rr inv_empty hc.1
      exact ⟨b, h⟩
    obtain ⟨b, hadd⟩ := hadd
    have hrem : b.removeId ⟨q.id, l⟩ = .panicNil :=
      (C66_long_prefix_violated (hP.imp id Or.inl) b ⟨q.id, l⟩ hl).2
    unfold IDSet.removeFreePrefix
    simp only [hb, hadd]
    rw [hrem]

/-- **C67, partial** An empty set yields no prefix and no panic, whatever the length. -/
theorem C67_long_length_partial (l : Nat) :
    (⟨[]⟩ : IDSet P).removeFreePrefix l = .ok none := rfl

end Verif.Id
