import Verif.Id.Builder

/-! What `mergeRanges` computes exactly, `Next` of the largest value being 1. -/

namespace Verif.Id
variable {P : Pkg}

/-! ### specification -/

/-- Among the ranges of length `L` of the list, one that starts at 0 or 1 ends at the largest value
and one that starts at 1 ends below it; `m` is the largest such end. -/
def Cut (l : List (Rng P)) (L m : Nat) : Prop :=
  (∃ a ∈ l, a.lo.len = L ∧ a.lo.id.toNat ≤ 1 ∧ a.hi.id.toNat + 1 = 2 ^ P.W) ∧
  (∃ b ∈ l, b.lo.len = L ∧ b.lo.id.toNat = 1 ∧ b.hi.id.toNat + 1 < 2 ^ P.W ∧ b.hi.id.toNat = m) ∧
  ∀ b ∈ l, b.lo.len = L → b.lo.id.toNat = 1 → b.hi.id.toNat + 1 < 2 ^ P.W → b.hi.id.toNat ≤ m

/-- The ids a list of ranges counts for: its members, except that if the list is `Cut` at `m` the
ranges that start at 0 or 1 count up to `m` only. -/
def Merged (l : List (Rng P)) (i : MyId P) : Prop :=
  ∃ r ∈ l, r.Has i ∧ ∀ m, Cut l i.len m → r.lo.id.toNat ≤ 1 → i.id.toNat ≤ m

/-! ### merging -/

theorem merged_of_mem_iff {l l' : List (Rng P)} (h : ∀ r, r ∈ l ↔ r ∈ l') (i : MyId P) :
    Merged l i ↔ Merged l' i := by
  unfold Merged Cut
  simp only [h]

theorem cut_singleton (r : Rng P) (L m : Nat) : ¬ Cut [r] L m := by
  rintro ⟨⟨a, ha, _, _, h1⟩, ⟨b, hb, _, _, h2, _⟩, _⟩
  rw [List.mem_singleton] at ha hb
  subst ha; subst hb
  omega

theorem merged_singleton (r : Rng P) (i : MyId P) : Merged [r] i ↔ r.Has i := by
  unfold Merged
  constructor
  · rintro ⟨q, hq, h, _⟩
    rw [List.mem_singleton] at hq
    subst hq; exact h
  · intro h
    exact ⟨r, by simp, h, fun m hm => absurd hm (cut_singleton _ _ _)⟩

theorem sortLe_nat {a b : Rng P} (ha : a.Valid) (hb : b.Valid) : sortLe a b ↔
    a.lo.len < b.lo.len ∨ (a.lo.len = b.lo.len ∧ (a.lo.id.toNat < b.lo.id.toNat ∨
      (a.lo.id.toNat = b.lo.id.toNat ∧ b.hi.id.toNat ≤ a.hi.id.toNat))) := by
  have e : (key a.lo = key b.lo) ↔ ¬ key a.lo < key b.lo ∧ ¬ key b.lo < key a.lo := by omega
  have e2 : key b.hi ≤ key a.hi ↔ ¬ key a.hi < key b.hi := by omega
  unfold sortLe
  rw [e, e2, key_lt_iff, key_lt_iff, key_lt_iff, ← ha.1, ← hb.1]
  omega

/-- a cut needs two ranges starting at 0 or 1 -/
theorem no_cut {l : List (Rng P)} {L : Nat} {p : Rng P}
    (h : ∀ q ∈ l, q.lo.len = L → q.lo.id.toNat ≤ 1 → q.hi.id.toNat = p.hi.id.toNat) (m : Nat) : ¬ Cut l L m := by
  rintro ⟨⟨a, ha, a1, a2, a3⟩, ⟨b, hb, b1, b2, b3, _⟩, _⟩
  have h1 := h a ha a1 a2
  have h2 := h b hb b1 (by omega)
  omega

theorem merge_extend {prev r : Rng P} {rs : List (Rng P)} (hv : ∀ q ∈ prev :: r :: rs, q.Valid)
    (hs : (prev :: r :: rs).Pairwise sortLe) (hl : prev.lo.len = r.lo.len)
    (h1 : prev.hi.id.toNat + 1 < 2 ^ P.W) (h2 : r.lo.id.toNat ≤ prev.hi.id.toNat + 1)
    (h3 : prev.hi.id.toNat ≤ r.hi.id.toNat) (i : MyId P) :
    Merged (prev.setTo r.hi :: rs) i ↔ Merged (prev :: r :: rs) i := by
  have vp : prev.Valid := hv prev (by simp)
  have vr : r.Valid := hv r (by simp)
  have lp : prev.lo.id.toNat ≤ prev.hi.id.toNat := vp.2
  have lr : r.lo.id.toNat ≤ r.hi.id.toNat := vr.2
  rw [List.pairwise_cons, List.pairwise_cons] at hs
  have hpr := (sortLe_nat vp vr).1 (hs.1 r (by simp))
  have hrq : ∀ q ∈ rs, r.lo.len < q.lo.len ∨ (r.lo.len = q.lo.len ∧ (r.lo.id.toNat < q.lo.id.toNat ∨
      (r.lo.id.toNat = q.lo.id.toNat ∧ q.hi.id.toNat ≤ r.hi.id.toNat))) :=
    fun q hq => (sortLe_nat vr (hv q (by simp [hq]))).1 (hs.2.1 q hq)
  have hcut : ∀ L m, Cut (prev.setTo r.hi :: rs) L m ↔ Cut (prev :: r :: rs) L m := by
    intro L m
    unfold Cut
    simp only [List.mem_cons, exists_eq_or_imp, forall_eq_or_imp, Rng.setTo]
    grind
  have hno : i.len = r.lo.len → 2 ≤ r.lo.id.toNat → ∀ m, ¬ Cut (prev :: r :: rs) i.len m := by
    intro e1 e2
    apply no_cut (p := prev)
    intro q hq q1 q2
    rcases List.mem_cons.1 hq with rfl | hq
    · rfl
    · rcases List.mem_cons.1 hq with rfl | hq
      · omega
      · have := hrq q hq; omega
  unfold Merged
  simp only [hcut, List.mem_cons, exists_eq_or_imp]
  unfold Rng.Has
  simp only [Rng.setTo, BitVec.le_def]
  grind

theorem merge_wrap {prev r : Rng P} {rs : List (Rng P)} (hv : ∀ q ∈ prev :: r :: rs, q.Valid)
    (hs : (prev :: r :: rs).Pairwise sortLe) (hl : prev.lo.len = r.lo.len)
    (h1 : prev.hi.id.toNat + 1 = 2 ^ P.W) (h2 : r.lo.id.toNat = 1) (i : MyId P) :
    Merged (prev.setTo r.hi :: rs) i ↔ Merged (prev :: r :: rs) i := by
  have vp : prev.Valid := hv prev (by simp)
  have vr : r.Valid := hv r (by simp)
  have lp : prev.lo.id.toNat ≤ prev.hi.id.toNat := vp.2
  have lr : r.lo.id.toNat ≤ r.hi.id.toNat := vr.2
  have ltr := r.hi.id.isLt
  rw [List.pairwise_cons, List.pairwise_cons] at hs
  have hpr := (sortLe_nat vp vr).1 (hs.1 r (by simp))
  have hrq : ∀ q ∈ rs, r.lo.len < q.lo.len ∨ (r.lo.len = q.lo.len ∧ (r.lo.id.toNat < q.lo.id.toNat ∨
      (r.lo.id.toNat = q.lo.id.toNat ∧ q.hi.id.toNat ≤ r.hi.id.toNat))) :=
    fun q hq => (sortLe_nat vr (hv q (by simp [hq]))).1 (hs.2.1 q hq)
  have hli := i.id.isLt
  by_cases hm : r.hi.id.toNat + 1 = 2 ^ P.W
  · have hcut : ∀ L m, Cut (prev.setTo r.hi :: rs) L m ↔ Cut (prev :: r :: rs) L m := by
      intro L m
      unfold Cut
      simp only [List.mem_cons, exists_eq_or_imp, forall_eq_or_imp, Rng.setTo]
      grind
    unfold Merged
    simp only [hcut, List.mem_cons, exists_eq_or_imp]
    unfold Rng.Has
    simp only [Rng.setTo, BitVec.le_def]
    grind
  · by_cases hi : i.len = r.lo.len
    · have hno : ∀ m, ¬ Cut (prev.setTo r.hi :: rs) i.len m := by
        rintro m ⟨⟨a, ha, a1, a2, a3⟩, _⟩
        rcases List.mem_cons.1 ha with rfl | ha
        · exact hm a3
        · have := hrq a ha; omega
      have hyes : ∀ m, Cut (prev :: r :: rs) i.len m ↔ m = r.hi.id.toNat := by
        intro m
        unfold Cut
        simp only [List.mem_cons, exists_eq_or_imp, forall_eq_or_imp]
        grind
      unfold Merged
      simp only [hno, hyes, List.mem_cons, exists_eq_or_imp]
      unfold Rng.Has
      simp only [Rng.setTo, BitVec.le_def]
      grind
    · have hcut : ∀ m, Cut (prev.setTo r.hi :: rs) i.len m ↔ Cut (prev :: r :: rs) i.len m := by
        intro m
        unfold Cut
        simp only [List.mem_cons, exists_eq_or_imp, forall_eq_or_imp, Rng.setTo]
        grind
      unfold Merged
      simp only [hcut, List.mem_cons, exists_eq_or_imp]
      unfold Rng.Has
      simp only [Rng.setTo, BitVec.le_def]
      grind

theorem merge_skip {prev r : Rng P} {rs : List (Rng P)} (hv : ∀ q ∈ prev :: r :: rs, q.Valid)
    (hs : (prev :: r :: rs).Pairwise sortLe) (hl : prev.lo.len = r.lo.len)
    (h1 : prev.hi.id.toNat + 1 = 2 ^ P.W → r.lo.id.toNat ≠ 1)
    (h3 : r.hi.id.toNat ≤ prev.hi.id.toNat) (i : MyId P) :
    Merged (prev :: rs) i ↔ Merged (prev :: r :: rs) i := by
  have vp : prev.Valid := hv prev (by simp)
  have vr : r.Valid := hv r (by simp)
  have lp : prev.lo.id.toNat ≤ prev.hi.id.toNat := vp.2
  have lr : r.lo.id.toNat ≤ r.hi.id.toNat := vr.2
  rw [List.pairwise_cons, List.pairwise_cons] at hs
  have hpr := (sortLe_nat vp vr).1 (hs.1 r (by simp))
  have hrq : ∀ q ∈ rs, r.lo.len < q.lo.len ∨ (r.lo.len = q.lo.len ∧ (r.lo.id.toNat < q.lo.id.toNat ∨
      (r.lo.id.toNat = q.lo.id.toNat ∧ q.hi.id.toNat ≤ r.hi.id.toNat))) :=
    fun q hq => (sortLe_nat vr (hv q (by simp [hq]))).1 (hs.2.1 q hq)
  have ltp := prev.hi.id.isLt
  have hno : i.len = r.lo.len → 2 ≤ r.lo.id.toNat → ∀ m, ¬ Cut (prev :: r :: rs) i.len m := by
    intro e1 e2
    apply no_cut (p := prev)
    intro q hq q1 q2
    rcases List.mem_cons.1 hq with rfl | hq
    · rfl
    · rcases List.mem_cons.1 hq with rfl | hq
      · omega
      · have := hrq q hq; omega
  have hcut : ∀ L m, Cut (prev :: rs) L m ↔ Cut (prev :: r :: rs) L m := by
    intro L m
    unfold Cut
    simp only [List.mem_cons, exists_eq_or_imp, forall_eq_or_imp]
    grind
  unfold Merged
  simp only [hcut, List.mem_cons, exists_eq_or_imp]
  unfold Rng.Has
  simp only [BitVec.le_def]
  grind

theorem merge_apart {prev r : Rng P} {rs : List (Rng P)} (hv : ∀ q ∈ prev :: r :: rs, q.Valid)
    (hs : (prev :: r :: rs).Pairwise sortLe)
    (h1 : prev.lo.len < r.lo.len ∨ (prev.lo.len = r.lo.len ∧ prev.hi.id.toNat + 1 < r.lo.id.toNat))
    (i : MyId P) :
    prev.Has i ∨ Merged (r :: rs) i ↔ Merged (prev :: r :: rs) i := by
  have vp : prev.Valid := hv prev (by simp)
  have vr : r.Valid := hv r (by simp)
  have lp : prev.lo.id.toNat ≤ prev.hi.id.toNat := vp.2
  have lr : r.lo.id.toNat ≤ r.hi.id.toNat := vr.2
  rw [List.pairwise_cons, List.pairwise_cons] at hs
  have hrq : ∀ q ∈ rs, r.lo.len < q.lo.len ∨ (r.lo.len = q.lo.len ∧ (r.lo.id.toNat < q.lo.id.toNat ∨
      (r.lo.id.toNat = q.lo.id.toNat ∧ q.hi.id.toNat ≤ r.hi.id.toNat))) :=
    fun q hq => (sortLe_nat vr (hv q (by simp [hq]))).1 (hs.2.1 q hq)
  have hno : ∀ m, ¬ Cut (prev :: r :: rs) prev.lo.len m := by
    apply no_cut (p := prev)
    intro q hq q1 q2
    rcases List.mem_cons.1 hq with rfl | hq
    · rfl
    · rcases List.mem_cons.1 hq with rfl | hq
      · omega
      · have := hrq q hq; omega
  have hno' : ∀ m, ¬ Cut (r :: rs) prev.lo.len m := by
    apply no_cut (p := prev)
    intro q hq q1 q2
    rcases List.mem_cons.1 hq with rfl | hq
    · omega
    · have := hrq q hq; omega
  have hcut : ∀ L m, L ≠ prev.lo.len → (Cut (r :: rs) L m ↔ Cut (prev :: r :: rs) L m) := by
    intro L m hL
    unfold Cut
    simp only [List.mem_cons, exists_eq_or_imp, forall_eq_or_imp]
    grind
  unfold Merged
  by_cases hi : i.len = prev.lo.len
  · simp only [hi, hno, hno', false_imp_iff, implies_true, and_true, List.mem_cons, exists_eq_or_imp]
  · simp only [fun m => hcut i.len m hi, List.mem_cons, exists_eq_or_imp]
    unfold Rng.Has
    grind

theorem mergeLoop_merged (A : Arith P) (rs : List (Rng P)) :
    ∀ (acc : List (Rng P)) (prev : Rng P),
      (∀ r ∈ prev :: rs, r.Valid) → (prev :: rs).Pairwise sortLe →
      ∃ out, mergeLoop acc prev rs = some (acc ++ out) ∧
        ∀ i, HasAny out i ↔ Merged (prev :: rs) i := by
  induction rs with
  | nil =>
    intro acc prev hv _
    refine ⟨[prev], rfl, fun i => ?_⟩
    rw [hasAny_singleton, merged_singleton]
  | cons r rs ih =>
    intro acc prev hv hs
    have vp := hv prev List.mem_cons_self
    have vr := hv r (by simp)
    have hs0 := hs
    rw [List.pairwise_cons] at hs
    obtain ⟨hs1, hs2⟩ := hs
    have hs2' := List.pairwise_cons.1 hs2
    have hpr := (sortLe_nat vp vr).1 (hs1 r (by simp))
    have lp : prev.lo.id.toNat ≤ prev.hi.id.toNat := vp.2
    have lr : r.lo.id.toNat ≤ r.hi.id.toNat := vr.2
    have ltp := prev.hi.id.isLt
    have ltr := r.hi.id.isLt
    have ltr' := r.lo.id.isLt
    have hone := toNat_one A.pos
    unfold mergeLoop
    have hval : (!r.isValid) = false := by
      have := isValid_iff.2 vr; simp [this]
    simp only [hval, Bool.false_eq_true, if_false]
    have vset : prev.lo.len = r.lo.len → (∀ q ∈ prev.setTo r.hi :: rs, q.Valid) := by
      intro hlen q hq
      rcases List.mem_cons.1 hq with rfl | hq
      · refine ⟨by show prev.lo.len = r.hi.len; rw [hlen, vr.1], ?_⟩
        show prev.lo.id.toNat ≤ r.hi.id.toNat
        omega
      · exact hv q (by simp [hq])
    have sset : prev.lo.len = r.lo.len → (prev.setTo r.hi :: rs).Pairwise sortLe := by
      intro hlen
      rw [List.pairwise_cons]
      refine ⟨?_, hs2'.2⟩
      intro q hq
      have h1 := (sortLe_nat vr (hv q (by simp [hq]))).1 (hs2'.1 q hq)
      rw [sortLe_nat (vset hlen _ (by simp)) (hv q (by simp [hq]))]
      show prev.lo.len < q.lo.len ∨ (prev.lo.len = q.lo.len ∧ (prev.lo.id.toNat < q.lo.id.toNat ∨
      (prev.lo.id.toNat = q.lo.id.toNat ∧ q.hi.id.toNat ≤ r.hi.id.toNat)))
      omega
    split
    · rename_i hnext
      by_cases hmax : prev.hi.id = maxV P
      · rw [A.next_max hmax] at hnext
        have hlen : prev.lo.len = r.lo.len := by rw [← hnext]; exact vp.1
        have e1 : r.lo.id.toNat = 1 := by rw [← hnext]; exact hone
        have e2 : prev.hi.id.toNat + 1 = 2 ^ P.W := by rw [hmax, maxV_toNat]; omega
        obtain ⟨out, o1, o2⟩ := ih acc (prev.setTo r.hi) (vset hlen) (sset hlen)
        exact ⟨out, o1, fun i => (o2 i).trans (merge_wrap hv hs0 hlen e2 e1 i)⟩
      · have e2 := ne_max_iff.1 hmax
        rw [A.next_eq hmax] at hnext
        have hlen : prev.lo.len = r.lo.len := by rw [← hnext]; exact vp.1
        have e1 : r.lo.id.toNat = prev.hi.id.toNat + 1 := by
          rw [← hnext]
          show (prev.hi.id + 1).toNat = _
          rw [BitVec.toNat_add, hone, Nat.mod_eq_of_lt e2]
        obtain ⟨out, o1, o2⟩ := ih acc (prev.setTo r.hi) (vset hlen) (sset hlen)
        exact ⟨out, o1, fun i => (o2 i).trans
          (merge_extend hv hs0 hlen e2 (by omega) (by omega) i)⟩
    · rename_i hnext
      have hnx : prev.lo.len = r.lo.len →
          (prev.hi.id.toNat + 1 = 2 ^ P.W → r.lo.id.toNat ≠ 1) ∧
          r.lo.id.toNat ≠ prev.hi.id.toNat + 1 := by
        intro hlen
        constructor
        · intro h1 h2
          apply hnext
          rw [A.next_max (BitVec.eq_of_toNat_eq (by rw [maxV_toNat]; omega)), ← vp.1, hlen]
          rw [show (1 : BitVec P.W) = r.lo.id from BitVec.eq_of_toNat_eq (by rw [h2]; exact hone)]
        · intro h1
          apply hnext
          have hmax : prev.hi.id ≠ maxV P := ne_max_iff.2 (by omega)
          rw [A.next_eq hmax, ← vp.1, hlen]
          rw [show prev.hi.id + 1 = r.lo.id from BitVec.eq_of_toNat_eq (by
            rw [BitVec.toNat_add, hone, Nat.mod_eq_of_lt (by omega), h1])]
      split
      · rename_i hless
        rw [less_iff, key_lt_iff, ← vp.1] at hless
        obtain ⟨out, o1, o2⟩ := ih (acc ++ [prev]) r (fun q hq => hv q (by simp [List.mem_cons.1 hq])) hs2
        refine ⟨prev :: out, by rw [o1]; simp, fun i => ?_⟩
        rw [← merge_apart hv hs0 (by
          rcases hless with h | ⟨h1, h2⟩
          · exact .inl h
          · have := hnx h1; exact .inr ⟨h1, by omega⟩) i, ← o2 i]
        rw [show prev :: out = [prev] ++ out from rfl, hasAny_append, hasAny_singleton]
      · rename_i hless
        rw [less_iff, key_lt_iff, ← vp.1] at hless
        have hlen : prev.lo.len = r.lo.len := by omega
        split
        · rename_i hext
          rw [less_iff, key_lt_iff, ← vp.1, ← vr.1] at hext
          obtain ⟨out, o1, o2⟩ := ih acc (prev.setTo r.hi) (vset hlen) (sset hlen)
          exact ⟨out, o1, fun i => (o2 i).trans
            (merge_extend hv hs0 hlen (by omega) (by omega) (by omega) i)⟩
        · rename_i hext
          rw [less_iff, key_lt_iff, ← vp.1, ← vr.1] at hext
          obtain ⟨out, o1, o2⟩ := ih acc prev
            (fun q hq => hv q (by rcases List.mem_cons.1 hq with h | h <;> simp [h]))
            (List.pairwise_cons.2 ⟨fun q hq => hs1 q (by simp [hq]), hs2'.2⟩)
          exact ⟨out, o1, fun i => (o2 i).trans
            (merge_skip hv hs0 hlen (hnx hlen).1 (by omega) i)⟩

theorem mergeRanges_merged (A : Arith P) (rr : List (Rng P)) (hv : ∀ r ∈ rr, r.Valid) :
    ∃ out, mergeRanges rr = some out ∧ ∀ i, HasAny out i ↔ Merged rr i := by
  unfold mergeRanges
  split
  · exact ⟨[], rfl, fun i => by simp [HasAny, Merged]⟩
  · rename_i r
    exact ⟨[r], rfl, fun i => by rw [hasAny_singleton, merged_singleton]⟩
  · have hp := sortRanges_perm rr
    have hs := sortRanges_sorted rr
    cases hsr : sortRanges rr with
    | nil =>
      rw [hsr] at hp
      have : rr = [] := hp.symm.eq_nil
      subst this
      exact ⟨[], rfl, fun i => by simp [HasAny, Merged]⟩
    | cons r rs =>
      rw [hsr] at hp hs
      obtain ⟨out, o1, o2⟩ := mergeLoop_merged A rs [] r (fun q hq => hv q (hp.mem_iff.1 hq)) hs
      exact ⟨out, o1, fun i => (o2 i).trans (merged_of_mem_iff (fun q => hp.mem_iff) i)⟩

end Verif.Id
