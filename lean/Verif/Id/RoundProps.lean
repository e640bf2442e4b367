import Verif.Id.SetExactProps
import Verif.Id.FreeProps

/-!
Property C127: a set can be taken apart and put together again.
-/

namespace Verif.Id
variable {P : Pkg}

/-! ### Specification -/

/-- after these calls on a new builder `IPSet` returns the set with these ranges, and no error -/
def Gives (ops : List (Op P)) (rr : List (Rng P)) : Prop :=
  ∃ s s', Builder.empty.run ops = .ok s ∧ s.ipSet = .ok (s', ⟨rr⟩, false)

/-- the two lists have the same members, in any order and any number of times -/
def SameMembers {α : Type} (l m : List α) : Prop := ∀ x, x ∈ l ↔ x ∈ m

/-! ### Proof -/

theorem merged_iff {l : List (Rng P)} (h : ∀ L m, ¬ Cut l L m) (i : MyId P) : Merged l i ↔ HasAny l i := by
  constructor
  · rintro ⟨r, h1, h2, _⟩; exact ⟨r, h1, h2⟩
  · rintro ⟨r, h1, h2⟩; exact ⟨r, h1, h2, fun m hm => absurd hm (h _ m)⟩

theorem cut_same {l l' : List (Rng P)} (h : SameMembers l l') {L m : Nat} : Cut l L m ↔ Cut l' L m := by
  unfold Cut; simp only [h _]

theorem hasAny_same {l l' : List (Rng P)} (h : SameMembers l l') (i : MyId P) : HasAny l i ↔ HasAny l' i := by
  unfold HasAny; simp only [h _]

theorem canonical_noCut {l : List (Rng P)} (h : Canonical l) (L m : Nat) : ¬ Cut l L m := by
  rintro ⟨⟨a, ha, a1, a2, a3⟩, ⟨b, hb, b1, b2, b3, _⟩, _⟩
  have hne : a ≠ b := by rintro rfl; omega
  have hva := h.1 a ha
  have hvb := h.1 b hb
  have hla := hva.1
  have hlb := hvb.1
  have hb' : b.lo.id.toNat ≤ b.hi.id.toNat := hvb.2
  have key : ∀ {x y : Rng P}, (x.hi.len < y.lo.len ∨ (x.hi.len = y.lo.len ∧ x.hi.id.toNat + 1 < y.lo.id.toNat)) →
      x = a ∧ y = b ∨ x = b ∧ y = a → False := by
    rintro x y hxy (⟨rfl, rfl⟩ | ⟨rfl, rfl⟩)
    · rcases hxy with h1 | ⟨_, h1⟩ <;> omega
    · rcases hxy with h1 | ⟨_, h1⟩ <;> omega
  rcases List.pairwise_iff_getElem.1 h.2 with hp
  obtain ⟨i, hi, rfl⟩ := List.getElem_of_mem ha
  obtain ⟨j, hj, rfl⟩ := List.getElem_of_mem hb
  rcases Nat.lt_trichotomy i j with hij | hij | hij
  · exact key (hp i j hi hj hij) (.inl ⟨rfl, rfl⟩)
  · subst hij; exact hne rfl
  · exact key (hp j i hj hi hij) (.inr ⟨rfl, rfl⟩)

theorem steps_adds : ∀ (rs I : List (Rng P)), (∀ r ∈ rs, r.Valid) → Steps I [] (rs.map .add) (I ++ rs) [] := by
  intro rs
  induction rs with
  | nil => intro I _; rw [List.append_nil]; exact .nil
  | cons r rs ih =>
    intro I hv
    have := ih (I ++ [r]) (fun q hq => hv q (by simp [hq]))
    rw [List.append_assoc] at this
    exact .cons (.add (hv r (by simp))) this

theorem gives_of (A : Arith P) {ops : List (Op P)} (ha : ∀ op ∈ ops, op.Allowed) (hb : ∀ op ∈ ops, ¬ op.Bad) {I O m : List (Rng P)}
    (hs : Steps [] [] (ops.flatMap Op.prims) I O) (hm : Norm I O m) : Gives ops m := by
  obtain ⟨s, s', set, err, h1, h2, h3⟩ := exact_of A ops ha
  have : m = set.rr := (h3 m).1 ⟨I, O, hs, hm⟩
  subst this
  obtain ⟨t, t', set', err', _, _, _, g1, g2, g3, _⟩ := invalid_reported A ops ha
  rw [h1] at g1; cases g1
  rw [h2] at g2; cases g2
  have herr : err = false := by
    cases err with
    | false => rfl
    | true =>
      obtain ⟨a, op, b, e, hbad, _⟩ := g3.1 rfl
      exact absurd hbad (hb op (by rw [e]; simp))
  subst herr
  exact ⟨s, s', h1, h2⟩

theorem prims_adds (l : List (Rng P)) : (l.map Op.addRange).flatMap Op.prims = l.map Prim.add := by
  induction l with
  | nil => rfl
  | cons r l ih => rw [List.map_cons, List.flatMap_cons, ih]; rfl

theorem prims_addIds (l : List (MyId P)) : (l.map Op.addId).flatMap Op.prims = (l.map blockRng).map Prim.add := by
  induction l with
  | nil => rfl
  | cons r l ih => rw [List.map_cons, List.flatMap_cons, ih]; rfl

/-- what is added are ranges that together have the members of the set -/
theorem gives_adds (A : Arith P) {ops : List (Op P)} (ha : ∀ op ∈ ops, op.Allowed) (hb : ∀ op ∈ ops, ¬ op.Bad) {rs rr : List (Rng P)}
    (hp : ops.flatMap Op.prims = rs.map .add) (hv : ∀ r ∈ rs, r.Valid) (hcut : ∀ L m, ¬ Cut rs L m) (hc : Canonical rr)
    (hs : ∀ i, HasAny rs i ↔ HasAny rr i) : Gives ops rr := by
  have h1 := steps_adds rs [] hv
  rw [← hp] at h1
  refine gives_of A ha hb h1 ⟨hc, fun i => ?_⟩
  rw [List.nil_append, merged_iff hcut, hs]
  simp [Merged]

theorem normLoop_self {rr : List (Rng P)} (hc : Canonical rr) (acc : List (Rng P)) : normLoop acc rr rr = .ok acc := by
  rw [canonical_iff] at hc
  induction rr with
  | nil => unfold normLoop; rfl
  | cons r rs ih =>
    have hr : r.Valid := hc.1 r (by simp)
    have hk : ¬ key r.hi < key r.lo := by
      have : r.lo.id.toNat ≤ r.hi.id.toNat := hr.2
      rw [key_lt_iff, hr.1]
      show ¬ (_ ∨ _ ∧ r.hi.id < r.lo.id)
      rw [BitVec.lt_def]
      omega
    have hvr : r.isValid = true := isValid_iff.2 hr
    have heb : r.entirelyBefore r = false := by
      unfold Rng.entirelyBefore
      rw [Bool.eq_false_iff]
      exact fun h => hk (less_iff.1 h)
    have hcb : r.coveredBy r = true := by
      unfold Rng.coveredBy
      rw [Bool.and_eq_true, lessOrEq_iff, lessOrEq_iff]
      exact ⟨Nat.le_refl _, Nat.le_refl _⟩
    have h1 : normLoop acc (r :: rs) (r :: rs) = normLoop acc rs (r :: rs) := by
      rw [normLoop]; simp [hvr, heb, hcb]
    rw [h1]
    have hc' := List.pairwise_cons.1 hc.2
    cases rs with
    | nil => unfold normLoop; rfl
    | cons q qs =>
      have hq : q.isValid = true := isValid_iff.2 (hc.1 q (by simp))
      have hrq : r.entirelyBefore q = true := by
        unfold Rng.entirelyBefore
        rw [less_iff]
        have := hc'.1 q (by simp)
        omega
      have h2 : normLoop acc (q :: qs) (r :: q :: qs) = normLoop acc (q :: qs) (q :: qs) := by
        rw [normLoop]; simp [hvr, hq, hrq]
      rw [h2]
      exact ih ⟨fun x hx => hc.1 x (by simp [hx]), hc'.2⟩

theorem addSet_run {rr : List (Rng P)} (hv : ∀ r ∈ rr, r.Valid) : ∀ I, (⟨I, [], false⟩ : Builder P).addSet rr = .ok ⟨I ++ rr, [], false⟩ := by
  induction rr with
  | nil => intro I; simp [Builder.addSet]
  | cons r rr ih =>
    intro I
    have hr : r.isValid = true := isValid_iff.2 (hv r (by simp))
    have h1 : (⟨I, [], false⟩ : Builder P).addRange r = .ok ⟨I ++ [r], [], false⟩ := by
      simp [Builder.addRange, hr]
    unfold Builder.addSet
    rw [h1]
    show Builder.addSet ⟨I ++ [r], [], false⟩ rr = _
    rw [ih (fun q hq => hv q (by simp [hq]))]
    simp

/-- what is removed are ranges that together have the members of the set -/
theorem gives_removes (A : Arith P) {ops : List (Op P)} {rs rr : List (Rng P)}
    (hrun : ∀ I O, (⟨I, O, false⟩ : Builder P).run ops = .ok ⟨I, O ++ rs, false⟩) (hv : ∀ r ∈ rs, r.Valid) (hw : NoWrap rs) (hc : Canonical rr)
    (hs : ∀ i, HasAny rs i ↔ HasAny rr i) : Gives (.addSet rr :: ops) [] := by
  have h1 : (Builder.empty : Builder P).run (.addSet rr :: ops) = .ok ⟨rr, rs, false⟩ := by
    unfold Builder.run
    show (match (⟨[], [], false⟩ : Builder P).addSet rr with | .ok s => s.run ops | e => e) = _
    rw [addSet_run hc.1]
    show Builder.run ⟨[] ++ rr, [], false⟩ ops = _
    rw [hrun]; rfl
  refine ⟨_, ⟨[], [], false⟩, h1, ?_⟩
  obtain ⟨out, m1, m2, _, _, m5⟩ := mergeRanges_spec A rs hv
  have hout : out = rr := by
    refine canonical_unique m2 hc fun i => ?_
    rw [← hs i, hasAny_iff m2.1, hasAny_iff hv]
    exact m5 hw (key i)
  subst hout
  have m0 : mergeRanges out = some out := by
    obtain ⟨out', k1, k2, _, _, k5⟩ := mergeRanges_spec A out hc.1
    have : out' = out := canonical_unique k2 hc fun i => by
      rw [hasAny_iff k2.1, hasAny_iff hc.1]
      exact k5 (canonical_noWrap A.pos hc) (key i)
    rw [k1, this]
  unfold Builder.ipSet Builder.normalize
  simp only [m0, m1, normLoop_self hc]

theorem removes_run {l : List (Rng P)} (hv : ∀ r ∈ l, r.Valid) :
    ∀ I O, (⟨I, O, false⟩ : Builder P).run (l.map .removeRange) = .ok ⟨I, O ++ l, false⟩ := by
  induction l with
  | nil => intro I O; simp [Builder.run]
  | cons r l ih =>
    intro I O
    have hr : r.isValid = true := isValid_iff.2 (hv r (by simp))
    have h1 : (⟨I, O, false⟩ : Builder P).step (.removeRange r) = .ok ⟨I, O ++ [r], false⟩ := by
      simp [Builder.step, Builder.removeRange, hr]
    rw [List.map_cons]
    unfold Builder.run
    rw [h1]
    show Builder.run ⟨I, O ++ [r], false⟩ _ = _
    rw [ih (fun q hq => hv q (by simp [hq]))]
    simp

theorem removeIds_run {l : List (MyId P)} (hv : ∀ p ∈ l, PrefOk p) :
    ∀ I O, (⟨I, O, false⟩ : Builder P).run (l.map .removeId) = .ok ⟨I, O ++ l.map blockRng, false⟩ := by
  induction l with
  | nil => intro I O; simp [Builder.run]
  | cons p l ih =>
    intro I O
    have hp := hv p (by simp)
    have hr : (blockRng p).isValid = true := isValid_iff.2 (rangeOfID_valid hp (rangeOfID_block hp))
    have h1 : (⟨I, O, false⟩ : Builder P).step (.removeId p) = .ok ⟨I, O ++ [blockRng p], false⟩ := by
      simp [Builder.step, Builder.removeId, rangeOfID_block hp, Builder.removeRange, hr]
    rw [List.map_cons]
    unfold Builder.run
    rw [h1]
    show Builder.run ⟨I, O ++ [blockRng p], false⟩ _ = _
    rw [ih (fun q hq => hv q (by simp [hq]))]
    simp

/-- no two ranges of the kind that `merge` gets wrong -/
def NoPair (l : List (Rng P)) : Prop :=
  ∀ a ∈ l, ∀ b ∈ l, a.lo.id.toNat ≤ 1 → a.hi.id.toNat + 1 = 2 ^ P.W → b.lo.id.toNat = 1 → b.hi.id.toNat + 1 < 2 ^ P.W → False

theorem NoPair.noCut {l : List (Rng P)} (h : NoPair l) (L m : Nat) : ¬ Cut l L m := by
  rintro ⟨⟨a, ha, _, a2, a3⟩, ⟨b, hb, _, b2, b3, _⟩, _⟩
  exact h a ha b hb a2 a3 b2 b3

theorem NoPair.noWrap (hW : 1 < P.W) {l : List (Rng P)} (h : NoPair l) : NoWrap l := by
  rintro a ha b hb ⟨_, h2, h3, h4, h5⟩
  have hpos := Nat.two_pow_pos P.W
  refine h a ha b hb h2 (by rw [h3, maxV_toNat]; omega) (by rw [h4]; exact toNat_one hW) ?_
  have hlt := b.hi.id.isLt
  have : b.hi.id.toNat ≠ 2 ^ P.W - 1 := fun e => h5 (BitVec.eq_of_toNat_eq (by rw [e, maxV_toNat]))
  omega

theorem noWrap_same {l l' : List (Rng P)} (h : SameMembers l l') (hw : NoWrap l') : NoWrap l :=
  fun a ha b hb => hw a ((h a).1 ha) b ((h b).1 hb)

/-- the ranges of the prefixes of a list: valid, not cut, and with the members of the set -/
theorem blocks_ok (hW : 1 < P.W) {rr : List (Rng P)} (hf : FullLength rr) {L l : List (MyId P)} (hl : Lists L (ValueIn rr))
    (hs : SameMembers l L) (hpre : ∀ p ∈ L, PrefOk p) :
    (∀ r ∈ l.map blockRng, r.Valid) ∧ NoPair (l.map blockRng) ∧ ∀ i, HasAny (l.map blockRng) i ↔ HasAny rr i := by
  have hhas : ∀ p ∈ l, ∀ i, (blockRng p).Has i ↔ Block p i := fun p hp i => rangeOfID_has (hpre p ((hs p).1 hp)) (rangeOfID_block (hpre p ((hs p).1 hp))) i
  have hval : ∀ p ∈ l, (blockRng p).Valid := fun p hp => rangeOfID_valid (hpre p ((hs p).1 hp)) (rangeOfID_block (hpre p ((hs p).1 hp)))
  refine ⟨fun r hr => ?_, ?_, fun i => ?_⟩
  · obtain ⟨p, hp, rfl⟩ := List.mem_map.1 hr
    exact hval p hp
  · intro a ha b hb a2 a3 b2 b3
    obtain ⟨p, hp, rfl⟩ := List.mem_map.1 ha
    obtain ⟨q, hq, rfl⟩ := List.mem_map.1 hb
    have hone : (1 : BitVec P.W).toNat = 1 := by
      show (BitVec.ofNat P.W 1).toNat = 1
      rw [BitVec.toNat_ofNat]
      exact Nat.mod_eq_of_lt (Nat.one_lt_two_pow (by omega))
    have hqv := hval q hq
    have hpow : 2 ^ 2 ≤ 2 ^ P.W := Nat.pow_le_pow_right (by decide) hW
    have c1 : Covers p 1 := ((hhas p hp ⟨1, P.W⟩).1 ⟨rfl, by rw [BitVec.le_def, hone]; exact a2, by rw [BitVec.le_def, hone]; omega⟩).2
    have c2 : Covers q 1 := ((hhas q hq ⟨1, P.W⟩).1 ⟨rfl, by rw [BitVec.le_def, hone]; omega, by
      have : (blockRng q).lo.id.toNat ≤ (blockRng q).hi.id.toNat := hqv.2
      rw [BitVec.le_def, hone]; omega⟩).2
    have hne : p ≠ q := by rintro rfl; omega
    obtain ⟨i, hi, hpi⟩ := List.getElem_of_mem ((hs p).1 hp)
    obtain ⟨j, hj, hqj⟩ := List.getElem_of_mem ((hs q).1 hq)
    have hpw := List.pairwise_iff_getElem.1 hl.ascending
    rcases Nat.lt_trichotomy i j with hij | hij | hij
    · have := hpw i j hi hj hij 1 1 (hpi ▸ c1) (hqj ▸ c2)
      exact absurd this (by rw [BitVec.lt_def]; omega)
    · subst hij; exact hne (hpi.symm.trans hqj)
    · have := hpw j i hj hi hij 1 1 (hqj ▸ c2) (hpi ▸ c1)
      exact absurd this (by rw [BitVec.lt_def]; omega)
  · have hcov := hl.cover i.id
    constructor
    · rintro ⟨r, hr, h⟩
      obtain ⟨p, hp, rfl⟩ := List.mem_map.1 hr
      obtain ⟨h1, h2⟩ := (hhas p hp i).1 h
      have := hcov.1 ⟨p, (hs p).1 hp, h2⟩
      unfold ValueIn at this
      rw [← h1] at this
      exact this
    · intro h
      have hi : i.len = P.W := by
        obtain ⟨r, hr, h⟩ := h
        rw [h.1, hf r hr]
      obtain ⟨p, hp, h2⟩ := hcov.2 (by unfold ValueIn; rw [← hi]; exact h)
      exact ⟨_, List.mem_map.2 ⟨p, (hs p).2 hp, rfl⟩, (hhas p ((hs p).2 hp) i).2 ⟨hi, h2⟩⟩

/-! ### C127 -/

/-- **C127** (all packages) The ranges of a set, added to a new builder in any order with `AddRange`, or all at once with
`AddSet`, give the set again. -/
theorem C127_ranges (hP : P = id16 ∨ P = id32 ∨ P = id64) {rr : List (Rng P)} (hc : Canonical rr) :
    (∀ l, SameMembers l rr → Gives (l.map .addRange) rr) ∧ Gives [.addSet rr] rr := by
  have A := arith_of hP
  refine ⟨fun l hl => ?_, ?_⟩
  · refine gives_adds A ?_ ?_ (prims_adds l) (fun r hr => hc.1 r ((hl r).1 hr)) (fun L m h => canonical_noCut hc L m ((cut_same hl).1 h)) hc
      (hasAny_same hl)
    · intro op ho
      obtain ⟨r, _, rfl⟩ := List.mem_map.1 ho
      trivial
    · intro op ho
      obtain ⟨r, hr, rfl⟩ := List.mem_map.1 ho
      exact fun h => h (hc.1 r ((hl r).1 hr))
  · refine gives_adds A (rs := rr) ?_ ?_ (by simp [Op.prims]) hc.1 (canonical_noCut hc) hc (fun i => Iff.rfl)
    · intro op ho
      rw [List.mem_singleton.1 ho]
      exact hc.1
    · intro op ho
      rw [List.mem_singleton.1 ho]
      exact fun h => h

/-- **C127** (all packages) The texts of the ranges of a set of ids of full length, in any order, can all be parsed, and
the ranges parsed give the set again. -/
theorem C127_texts (hP : P = id16 ∨ P = id32 ∨ P = id64) {rr : List (Rng P)} (hc : Canonical rr) (hf : FullLength rr)
    {ts : List (List UInt8)} (ht : SameMembers ts (rr.map Rng.string)) :
    ∃ l : List (Rng P), ts.map parseRange = l.map some ∧ Gives (l.map .addRange) rr := by
  have hr : ∀ r ∈ rr, parseRange r.string = some r := by
    intro r hr
    have h1 := hf r hr
    have h2 := (hc.1 r hr).1
    have : r = rangeFrom r.lo.id r.hi.id := by
      obtain ⟨⟨a, n⟩, ⟨b, k⟩⟩ := r
      have h1 : n = P.W := h1
      have h2 : n = k := h2
      subst h2; subst h1; rfl
    rw [this]
    exact (C34_parseRange hP).1 _ _
  have key : ∀ ts : List (List UInt8), (∀ t ∈ ts, ∃ r ∈ rr, r.string = t) →
      ∃ l : List (Rng P), ts.map parseRange = l.map some ∧ (∀ r ∈ l, r ∈ rr) ∧ ∀ r ∈ rr, r.string ∈ ts → r ∈ l := by
    intro ts
    induction ts with
    | nil => intro _; exact ⟨[], rfl, by simp, by simp⟩
    | cons t ts ih =>
      intro h
      obtain ⟨l, h1, h2, h3⟩ := ih (fun t ht => h t (by simp [ht]))
      obtain ⟨r, hr1, hr2⟩ := h t (by simp)
      refine ⟨r :: l, by rw [List.map_cons, List.map_cons, ← hr2, hr r hr1, h1], ?_, ?_⟩
      · intro x hx
        rcases List.mem_cons.1 hx with rfl | hx
        · exact hr1
        · exact h2 x hx
      · intro x hx hxt
        rcases List.mem_cons.1 hxt with hxt | hxt
        · have := hr x hx
          rw [hxt, ← hr2, hr r hr1] at this
          rw [Option.some.inj this]
          exact List.mem_cons_self
        · exact List.mem_cons_of_mem _ (h3 x hx hxt)
  obtain ⟨l, h1, h2, h3⟩ := key ts (fun t h => List.mem_map.1 ((ht t).1 h))
  exact ⟨l, h1, (C127_ranges hP hc).1 l (fun r => ⟨h2 r, fun h => h3 r h ((ht _).2 (List.mem_map.2 ⟨r, h, rfl⟩))⟩)⟩

theorem prefOk_of (hP : P = id16 ∨ P = id32) {p : MyId P} (h : Aligned p) : PrefOk p :=
  Op.Fits.allowed (good_of hP) (op := .addId p) h.1

/-- **C127, partial** (id16, id32) The prefixes that `IDs` of a set of ids of full length lists, added to a new builder in
any order, give the set again. -/
theorem C127_ids_partial (hP : P = id16 ∨ P = id32) {rr : List (Rng P)} (hc : Canonical rr) (hf : FullLength rr) :
    ∃ L, (⟨rr⟩ : IDSet P).ids = some L ∧ ∀ l, SameMembers l L → Gives (l.map .addId) rr := by
  have A := arith_of (hP.imp id Or.inl)
  obtain ⟨L, h1, h2⟩ := C41_ids_cover hP ⟨rr⟩ hc hf
  refine ⟨L, h1, fun l hl => ?_⟩
  have hpre : ∀ p ∈ L, PrefOk p := fun p hp => prefOk_of hP (h2.aligned p hp)
  obtain ⟨b1, b2, b3⟩ := blocks_ok A.pos hf h2 hl hpre
  refine gives_adds A ?_ ?_ (prims_addIds l) b1 b2.noCut hc b3
  · intro op ho
    obtain ⟨p, hp, rfl⟩ := List.mem_map.1 ho
    exact hpre p ((hl p).1 hp)
  · intro op ho
    obtain ⟨p, hp, rfl⟩ := List.mem_map.1 ho
    exact fun h => h

/-- **C127, partial** (id64) The same for sets of ranges that `IDs` gets right, if the prefixes have lengths from 1 to 32.
Missing: longer prefixes (`C127_ids64_violated`), and the ranges that `IDs` gets wrong (`C41_ids64_violated`). -/
theorem C127_ids64_partial {rr : List (Rng id64)} (hc : Canonical rr) (hf : FullLength rr) (hs : ∀ r ∈ rr, ¬ Misread r ∨ Whole r) :
    ∃ L, (⟨rr⟩ : IDSet id64).ids = some L ∧ ((∀ p ∈ L, 1 ≤ p.len ∧ p.len ≤ 32) → ∀ l, SameMembers l L → Gives (l.map .addId) rr) := by
  obtain ⟨L, h1, h2⟩ := C41_ids64_partial ⟨rr⟩ hc hf hs
  refine ⟨L, h1, fun hlen l hl => ?_⟩
  have hpre : ∀ p ∈ L, PrefOk p := fun p hp => Op.Fits64.allowed (op := .addId p) (hlen p hp)
  obtain ⟨b1, b2, b3⟩ := blocks_ok Arith64.pos hf h2 hl hpre
  refine gives_adds Arith64 ?_ ?_ (prims_addIds l) b1 b2.noCut hc b3
  · intro op ho
    obtain ⟨p, hp, rfl⟩ := List.mem_map.1 ho
    exact hpre p ((hl p).1 hp)
  · intro op ho
    obtain ⟨p, hp, rfl⟩ := List.mem_map.1 ho
    exact fun h => h

/-- **C127** (all packages) Taking all ranges of a set away again, in any order, leaves nothing. -/
theorem C127_removed (hP : P = id16 ∨ P = id32 ∨ P = id64) {rr : List (Rng P)} (hc : Canonical rr) :
    ∀ l, SameMembers l rr → Gives (.addSet rr :: l.map .removeRange) [] := by
  have A := arith_of hP
  intro l hl
  have hv : ∀ r ∈ l, r.Valid := fun r hr => hc.1 r ((hl r).1 hr)
  exact gives_removes A (removes_run hv) hv (noWrap_same hl (canonical_noWrap A.pos hc)) hc (hasAny_same hl)

/-- **C127, partial** (id16, id32) Taking all prefixes that `IDs` lists away, in any order, leaves nothing. -/
theorem C127_removed_ids_partial (hP : P = id16 ∨ P = id32) {rr : List (Rng P)} (hc : Canonical rr) (hf : FullLength rr) :
    ∃ L, (⟨rr⟩ : IDSet P).ids = some L ∧ ∀ l, SameMembers l L → Gives (.addSet rr :: l.map .removeId) [] := by
  have A := arith_of (hP.imp id Or.inl)
  obtain ⟨L, h1, h2⟩ := C41_ids_cover hP ⟨rr⟩ hc hf
  refine ⟨L, h1, fun l hl => ?_⟩
  have hpre : ∀ p ∈ L, PrefOk p := fun p hp => prefOk_of hP (h2.aligned p hp)
  obtain ⟨b1, b2, b3⟩ := blocks_ok A.pos hf h2 hl hpre
  exact gives_removes A (removeIds_run fun p hp => hpre p ((hl p).1 hp)) b1 (b2.noWrap A.pos) hc b3

/-- **C127, partial** (id64) The same for sets of ranges that `IDs` gets right, if the prefixes have lengths from 1 to 32.
Missing: as for `C127_ids64_partial`. -/
theorem C127_removed_ids64_partial {rr : List (Rng id64)} (hc : Canonical rr) (hf : FullLength rr) (hs : ∀ r ∈ rr, ¬ Misread r ∨ Whole r) :
    ∃ L, (⟨rr⟩ : IDSet id64).ids = some L ∧
      ((∀ p ∈ L, 1 ≤ p.len ∧ p.len ≤ 32) → ∀ l, SameMembers l L → Gives (.addSet rr :: l.map .removeId) []) := by
  obtain ⟨L, h1, h2⟩ := C41_ids64_partial ⟨rr⟩ hc hf hs
  refine ⟨L, h1, fun hlen l hl => ?_⟩
  have hpre : ∀ p ∈ L, PrefOk p := fun p hp => Op.Fits64.allowed (op := .addId p) (hlen p hp)
  obtain ⟨b1, b2, b3⟩ := blocks_ok Arith64.pos hf h2 hl hpre
  exact gives_removes Arith64 (removeIds_run fun p hp => hpre p ((hl p).1 hp)) b1 (b2.noWrap Arith64.pos) hc b3

/-- **C127, violated** (id64) `IDs` of the set of 5 lists 5/64, and `AddId` of this prefix panics. -/
theorem C127_ids64_violated :
    (⟨[rangeFrom 5 5]⟩ : IDSet id64).ids = some [⟨5, 64⟩] ∧ (Builder.empty : Builder id64).run [.addId ⟨5, 64⟩] = .panicNil :=
  ⟨by decide, rfl⟩

-- 4-7 and 9-65535: the largest value is in the set
example : Canonical ([rangeFrom 4 7, rangeFrom 9 65535] : List (Rng id16)) ∧
    FullLength ([rangeFrom 4 7, rangeFrom 9 65535] : List (Rng id16)) := by
  unfold Canonical FullLength Rng.Valid
  decide
example : (⟨[rangeFrom 4 7, rangeFrom 9 16]⟩ : IDSet id16).ids = some [⟨4, 14⟩, ⟨9, 16⟩, ⟨10, 15⟩, ⟨12, 14⟩, ⟨16, 16⟩] := by decide
-- the texts from the last range to the first
example (rr : List (Rng id16)) : SameMembers (rr.map Rng.string).reverse (rr.map Rng.string) := fun _ => List.mem_reverse
-- 2^32 .. 2^33 - 1
example : (⟨[rangeFrom 0x100000000 0x1ffffffff]⟩ : IDSet id64).ids = some [⟨0x100000000, 32⟩] := by decide
example : ∀ r ∈ ([rangeFrom 0x100000000 0x1ffffffff] : List (Rng id64)), ¬ Misread r ∨ Whole r := by
  intro r hr
  rw [List.mem_singleton.1 hr]
  exact .inl fun h => h.1 (by unfold SameHalf; decide)

end Verif.Id
