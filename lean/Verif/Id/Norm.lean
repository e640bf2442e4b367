import Verif.Id.Set

/-! `normalize` and the operations of the set builder. -/

namespace Verif.Id
variable {P : Pkg}

/-- the ends produced by `normLoop`: an end of an input, or next to an end of a removed range -/
def EndsOk (ins outs out : List (Rng P)) : Prop :=
  ∀ o ∈ out,
    ((∃ r ∈ ins, o.lo = r.lo) ∨ (∃ r ∈ outs, r.hi.id ≠ maxV P ∧ o.lo = r.hi.next)) ∧
    ((∃ r ∈ ins, o.hi = r.hi) ∨ (∃ r ∈ outs, r.lo.id ≠ 0 ∧ SubOk P r.lo.id ∧ o.hi = r.lo.prev))

theorem normLoop_spaced (A : Arith P) {g : Nat} (hg : g ≤ 1) : ∀ (n : Nat) (ins outs min : List (Rng P)),
    ins.length + outs.length ≤ n → Spaced g ins → Spaced g outs →
    (∀ r ∈ outs, SubOk P r.lo.id) →
    ∃ out, normLoop min ins outs = .ok (min ++ out) ∧ Spaced g out ∧
      (∀ o ∈ out, ∃ i ∈ ins, key i.lo ≤ key o.lo) ∧
      EndsOk ins outs out ∧
      (∀ k, (∃ o ∈ out, inK o k) ↔ (∃ i ∈ ins, inK i k) ∧ ¬ ∃ r ∈ outs, inK r k) := by
  intro n
  induction n with
  | zero =>
    intro ins outs min hn _ _ _
    have : ins = [] := List.eq_nil_of_length_eq_zero (by omega)
    subst this
    exact ⟨[], by unfold normLoop; simp, ⟨by simp, .nil⟩, by simp, by simp [EndsOk], by simp⟩
  | succ n ih =>
    intro ins outs min hn ci co hsub
    match ins, outs with
    | [], _ =>
      exact ⟨[], by unfold normLoop; simp, ⟨by simp, .nil⟩, by simp, by simp [EndsOk], by simp⟩
    | rin :: ins, [] =>
      refine ⟨rin :: ins, by unfold normLoop; rfl, ci, fun o ho => ⟨o, ho, Nat.le_refl _⟩, ?_, by simp⟩
      intro o ho
      exact ⟨.inl ⟨o, ho, rfl⟩, .inl ⟨o, ho, rfl⟩⟩
    | rin :: ins, rout :: outs =>
      have ci0 := ci
      have co0 := co
      obtain ⟨vi, gi⟩ := ci
      obtain ⟨vo, go⟩ := co
      rw [List.pairwise_cons] at gi go
      have vin := vi rin List.mem_cons_self
      have vout := vo rout List.mem_cons_self
      have ki := vin.key_le
      have ko := vout.key_le
      have cti : Spaced g ins := ⟨fun r hr => vi r (by simp [hr]), gi.2⟩
      have cto : Spaced g outs := ⟨fun r hr => vo r (by simp [hr]), go.2⟩
      have hsub' : ∀ r ∈ outs, SubOk P r.lo.id := fun r hr => hsub r (by simp [hr])
      have hso := hsub rout List.mem_cons_self
      simp only [List.length_cons] at hn
      -- later elements are further right
      have li : ∀ i ∈ ins, key rin.hi + g < key i.lo := gi.1
      have lo' : ∀ i ∈ outs, key rout.hi + g < key i.lo := go.1
      have hval : (!rout.isValid || !rin.isValid) = false := by
        rw [isValid_iff.2 vin, isValid_iff.2 vout]; rfl
      unfold normLoop
      simp only [hval, Bool.false_eq_true, if_false]
      split
      · -- rout entirely before rin
        rename_i h
        unfold Rng.entirelyBefore at h
        rw [less_iff] at h
        obtain ⟨out, o1, o2, o3, o4, o5⟩ := ih (rin :: ins) outs min (by simp only [List.length_cons]; omega) ci0 cto hsub'
        refine ⟨out, o1, o2, o3, ?_, ?_⟩
        · intro o ho
          obtain ⟨a, b⟩ := o4 o ho
          refine ⟨a.imp id ?_, b.imp id ?_⟩
          · rintro ⟨r, hr, h⟩; exact ⟨r, by simp [hr], h⟩
          · rintro ⟨r, hr, h⟩; exact ⟨r, by simp [hr], h⟩
        · intro k
          rw [o5 k]
          constructor
          · rintro ⟨⟨i, hi, hk⟩, hno⟩
            refine ⟨⟨i, hi, hk⟩, ?_⟩
            rintro ⟨r, hr, hrk⟩
            rcases List.mem_cons.1 hr with rfl | hr
            · have : key rin.lo ≤ key i.lo := by
                rcases List.mem_cons.1 hi with rfl | hi
                · exact Nat.le_refl _
                · have := li i hi; omega
              unfold inK at hk hrk
              omega
            · exact hno ⟨r, hr, hrk⟩
          · rintro ⟨hi, hno⟩
            exact ⟨hi, fun ⟨r, hr, hrk⟩ => hno ⟨r, by simp [hr], hrk⟩⟩
      · rename_i h1
        unfold Rng.entirelyBefore at h1
        rw [less_iff] at h1
        split
        · -- rin entirely before rout
          rename_i h
          unfold Rng.entirelyBefore at h
          rw [less_iff] at h
          obtain ⟨out, o1, o2, o3, o4, o5⟩ := ih ins (rout :: outs) (min ++ [rin]) (by simp only [List.length_cons]; omega) cti co0 hsub
          refine ⟨rin :: out, by rw [o1]; simp, ?_, ?_, ?_, ?_⟩
          · refine ⟨?_, List.pairwise_cons.2 ⟨?_, o2.2⟩⟩
            · intro r hr
              rcases List.mem_cons.1 hr with rfl | hr
              · exact vin
              · exact o2.1 r hr
            · intro o ho
              obtain ⟨i, hi, hk⟩ := o3 o ho
              have := li i hi
              omega
          · intro o ho
            rcases List.mem_cons.1 ho with rfl | ho
            · exact ⟨o, by simp, Nat.le_refl _⟩
            · obtain ⟨i, hi, hk⟩ := o3 o ho
              exact ⟨i, by simp [hi], hk⟩
          · intro o ho
            rcases List.mem_cons.1 ho with rfl | ho
            · exact ⟨.inl ⟨o, by simp, rfl⟩, .inl ⟨o, by simp, rfl⟩⟩
            · obtain ⟨a, b⟩ := o4 o ho
              refine ⟨a.imp ?_ id, b.imp ?_ id⟩
              · rintro ⟨r, hr, h⟩; exact ⟨r, by simp [hr], h⟩
              · rintro ⟨r, hr, h⟩; exact ⟨r, by simp [hr], h⟩
          · intro k
            have hout : ∀ r ∈ rout :: outs, key rin.hi < key r.lo := by
              intro r hr
              rcases List.mem_cons.1 hr with rfl | hr
              · exact h
              · have := lo' r hr; omega
            constructor
            · rintro ⟨o, ho, hk⟩
              rcases List.mem_cons.1 ho with rfl | ho
              · refine ⟨⟨o, by simp, hk⟩, ?_⟩
                rintro ⟨r, hr, hrk⟩
                have := hout r hr
                unfold inK at hk hrk
                omega
              · obtain ⟨⟨i, hi, hk'⟩, hno⟩ := (o5 k).1 ⟨o, ho, hk⟩
                exact ⟨⟨i, by simp [hi], hk'⟩, hno⟩
            · rintro ⟨⟨i, hi, hk⟩, hno⟩
              rcases List.mem_cons.1 hi with rfl | hi
              · exact ⟨i, by simp, hk⟩
              · obtain ⟨o, ho, hk'⟩ := (o5 k).2 ⟨⟨i, hi, hk⟩, hno⟩
                exact ⟨o, by simp [ho], hk'⟩
        · rename_i h2
          unfold Rng.entirelyBefore at h2
          rw [less_iff] at h2
          -- the ranges overlap, so the lengths agree
          have hlen : rin.lo.len = rout.lo.len := by
            rw [key_lt_iff] at h1 h2
            have := vin.1
            have := vout.1
            omega
          have hlen1 := vin.1
          have hlen2 := vout.1
          split
          · -- covered
            rename_i h
            unfold Rng.coveredBy at h
            rw [Bool.and_eq_true, lessOrEq_iff, lessOrEq_iff] at h
            obtain ⟨out, o1, o2, o3, o4, o5⟩ := ih ins (rout :: outs) min (by simp only [List.length_cons]; omega) cti co0 hsub
            refine ⟨out, o1, o2, ?_, ?_, ?_⟩
            · intro o ho
              obtain ⟨i, hi, hk⟩ := o3 o ho
              exact ⟨i, by simp [hi], hk⟩
            · intro o ho
              obtain ⟨a, b⟩ := o4 o ho
              refine ⟨a.imp ?_ id, b.imp ?_ id⟩
              · rintro ⟨r, hr, h⟩; exact ⟨r, by simp [hr], h⟩
              · rintro ⟨r, hr, h⟩; exact ⟨r, by simp [hr], h⟩
            · intro k
              rw [o5 k]
              constructor
              · rintro ⟨⟨i, hi, hk⟩, hno⟩
                exact ⟨⟨i, by simp [hi], hk⟩, hno⟩
              · rintro ⟨⟨i, hi, hk⟩, hno⟩
                rcases List.mem_cons.1 hi with rfl | hi
                · exfalso
                  apply hno
                  refine ⟨rout, by simp, ?_⟩
                  unfold inK at hk ⊢
                  omega
                · exact ⟨⟨i, hi, hk⟩, hno⟩
          · rename_i h3
            unfold Rng.coveredBy at h3
            rw [Bool.and_eq_true, lessOrEq_iff, lessOrEq_iff] at h3
            -- facts for cutting after rout
            have hnext : key rout.hi < key rin.hi →
                rout.hi.id ≠ maxV P ∧ key rout.hi.next = key rout.hi + 1 ∧
                (rin.setFrom rout.hi.next).Valid := by
              intro h
              have hne : rout.hi.id ≠ maxV P := by
                rw [ne_max_iff]
                rw [key_lt_iff] at h
                have := rin.hi.id.isLt
                omega
              have hk := A.key_next hne
              refine ⟨hne, hk, valid_of_key ?_ ?_⟩
              · show rout.hi.next.len = rin.hi.len
                rw [A.next_len hne]; omega
              · show key rout.hi.next ≤ key rin.hi
                omega
            -- facts for cutting before rout
            have hprev : key rin.lo < key rout.lo →
                rout.lo.id ≠ 0 ∧ key rout.lo.prev + 1 = key rout.lo ∧
                (⟨rin.lo, rout.lo.prev⟩ : Rng P).Valid := by
              intro h
              have hne : rout.lo.id ≠ 0 := by
                intro h0
                rw [key_lt_iff, h0] at h
                simp at h
                omega
              have hk := key_prev A.pos hso hne
              refine ⟨hne, hk, valid_of_key ?_ ?_⟩
              · show rin.lo.len = rout.lo.prev.len
                rw [prev_len hne]; omega
              · show key rin.lo ≤ key rout.lo.prev
                omega
            have hcut : key rout.hi < key rin.hi → Spaced g (rin.setFrom rout.hi.next :: ins) := by
              intro h
              obtain ⟨_, _, hv⟩ := hnext h
              refine ⟨?_, List.pairwise_cons.2 ⟨li, gi.2⟩⟩
              intro r hr
              rcases List.mem_cons.1 hr with rfl | hr
              · exact hv
              · exact vi r (by simp [hr])
            split
            · -- in the middle
              rename_i h
              unfold Rng.inMiddleOf at h
              rw [Bool.and_eq_true, less_iff, less_iff] at h
              obtain ⟨n1, n2, n3⟩ := hnext h.2
              obtain ⟨p1, p2, p3⟩ := hprev h.1
              obtain ⟨out, o1, o2, o3, o4, o5⟩ := ih (rin.setFrom rout.hi.next :: ins) outs
                (min ++ [⟨rin.lo, rout.lo.prev⟩]) (by simp only [List.length_cons]; omega) (hcut h.2) cto hsub'
              have hlow : ∀ o ∈ out, key rout.hi + 1 ≤ key o.lo := by
                intro o ho
                obtain ⟨i, hi, hk⟩ := o3 o ho
                rcases List.mem_cons.1 hi with rfl | hi
                · have : key (rin.setFrom rout.hi.next).lo = key rout.hi + 1 := n2
                  omega
                · have := li i hi; omega
              refine ⟨⟨rin.lo, rout.lo.prev⟩ :: out, by rw [o1]; simp, ?_, ?_, ?_, ?_⟩
              · refine ⟨?_, List.pairwise_cons.2 ⟨?_, o2.2⟩⟩
                · intro r hr
                  rcases List.mem_cons.1 hr with rfl | hr
                  · exact p3
                  · exact o2.1 r hr
                · intro o ho
                  have := hlow o ho
                  show key rout.lo.prev + g < key o.lo
                  omega
              · intro o ho
                rcases List.mem_cons.1 ho with rfl | ho
                · exact ⟨rin, by simp, Nat.le_refl _⟩
                · have := hlow o ho
                  exact ⟨rin, by simp, by omega⟩
              · intro o ho
                rcases List.mem_cons.1 ho with rfl | ho
                · exact ⟨.inl ⟨rin, by simp, rfl⟩, .inr ⟨rout, by simp, p1, hso, rfl⟩⟩
                · obtain ⟨a, b⟩ := o4 o ho
                  refine ⟨?_, ?_⟩
                  · rcases a with ⟨r, hr, h⟩ | ⟨r, hr, h⟩
                    · rcases List.mem_cons.1 hr with rfl | hr
                      · exact .inr ⟨rout, by simp, n1, h⟩
                      · exact .inl ⟨r, by simp [hr], h⟩
                    · exact .inr ⟨r, by simp [hr], h⟩
                  · rcases b with ⟨r, hr, h⟩ | ⟨r, hr, h⟩
                    · rcases List.mem_cons.1 hr with rfl | hr
                      · exact .inl ⟨rin, by simp, h⟩
                      · exact .inl ⟨r, by simp [hr], h⟩
                    · exact .inr ⟨r, by simp [hr], h⟩
              · intro k
                simp only [List.mem_cons, exists_eq_or_imp] at o5 ⊢
                have := o5 k
                have e1 : inK (⟨rin.lo, rout.lo.prev⟩ : Rng P) k ↔ key rin.lo ≤ k ∧ k < key rout.lo := by
                  unfold inK; simp only; omega
                have e2 : inK (rin.setFrom rout.hi.next) k ↔ key rout.hi < k ∧ k ≤ key rin.hi := by
                  show (key rout.hi.next ≤ k ∧ k ≤ key rin.hi) ↔ _
                  omega
                rw [this, e1, e2]
                have i1 : ∀ i, i ∈ ins → inK i k → key rin.hi < k := by
                  intro i hi hk; have := li i hi; unfold inK at hk; omega
                have i2 : ∀ i, i ∈ outs → inK i k → key rout.hi < k := by
                  intro i hi hk; have := lo' i hi; unfold inK at hk; omega
                constructor
                · rintro (hk | ⟨hk, hno⟩)
                  · refine ⟨.inl (by unfold inK; omega), ?_⟩
                    rintro (hr | ⟨r, hr, hrk⟩)
                    · unfold inK at hr; omega
                    · have := i2 r hr hrk; omega
                  · have hgt : key rout.hi < k := by
                      rcases hk with hk | ⟨i, hi, hk⟩
                      · exact hk.1
                      · have := i1 i hi hk; omega
                    refine ⟨?_, ?_⟩
                    · rcases hk with hk | hk
                      · left; unfold inK; omega
                      · exact .inr hk
                    · rintro (hr | hr)
                      · unfold inK at hr; omega
                      · exact hno hr
                · rintro ⟨hk, hno⟩
                  rw [not_or] at hno
                  unfold inK at hno hk
                  rcases hk with hk | hk
                  · by_cases hlt : k < key rout.lo
                    · left; omega
                    · right; exact ⟨.inl (by omega), hno.2⟩
                  · right; exact ⟨.inr hk, hno.2⟩
            · rename_i h4
              unfold Rng.inMiddleOf at h4
              rw [Bool.and_eq_true, less_iff, less_iff] at h4
              split
              · -- overlaps the start
                rename_i h
                unfold Rng.overlapsStartOf at h
                rw [Bool.and_eq_true, lessOrEq_iff, less_iff] at h
                obtain ⟨n1, n2, n3⟩ := hnext h.2
                obtain ⟨out, o1, o2, o3, o4, o5⟩ := ih (rin.setFrom rout.hi.next :: ins) outs
                  min (by simp only [List.length_cons]; omega) (hcut h.2) cto hsub'
                refine ⟨out, o1, o2, ?_, ?_, ?_⟩
                · intro o ho
                  obtain ⟨i, hi, hk⟩ := o3 o ho
                  rcases List.mem_cons.1 hi with rfl | hi
                  · refine ⟨rin, by simp, ?_⟩
                    have : key (rin.setFrom rout.hi.next).lo = key rout.hi + 1 := n2
                    omega
                  · exact ⟨i, by simp [hi], hk⟩
                · intro o ho
                  obtain ⟨a, b⟩ := o4 o ho
                  refine ⟨?_, ?_⟩
                  · rcases a with ⟨r, hr, h⟩ | ⟨r, hr, h⟩
                    · rcases List.mem_cons.1 hr with rfl | hr
                      · exact .inr ⟨rout, by simp, n1, h⟩
                      · exact .inl ⟨r, by simp [hr], h⟩
                    · exact .inr ⟨r, by simp [hr], h⟩
                  · rcases b with ⟨r, hr, h⟩ | ⟨r, hr, h⟩
                    · rcases List.mem_cons.1 hr with rfl | hr
                      · exact .inl ⟨rin, by simp, h⟩
                      · exact .inl ⟨r, by simp [hr], h⟩
                    · exact .inr ⟨r, by simp [hr], h⟩
                · intro k
                  simp only [List.mem_cons, exists_eq_or_imp] at o5 ⊢
                  have e2 : inK (rin.setFrom rout.hi.next) k ↔ key rout.hi < k ∧ k ≤ key rin.hi := by
                    show (key rout.hi.next ≤ k ∧ k ≤ key rin.hi) ↔ _
                    omega
                  rw [o5 k, e2]
                  have i1 : ∀ i, i ∈ ins → inK i k → key rin.hi < k := by
                    intro i hi hk; have := li i hi; unfold inK at hk; omega
                  constructor
                  · rintro ⟨hk, hno⟩
                    have hgt : key rout.hi < k := by
                      rcases hk with hk | ⟨i, hi, hk⟩
                      · exact hk.1
                      · have := i1 i hi hk; omega
                    refine ⟨?_, ?_⟩
                    · rcases hk with hk | hk
                      · left; unfold inK; omega
                      · exact .inr hk
                    · rintro (hr | hr)
                      · unfold inK at hr; omega
                      · exact hno hr
                  · rintro ⟨hk, hno⟩
                    rw [not_or] at hno
                    unfold inK at hno hk
                    refine ⟨?_, hno.2⟩
                    rcases hk with hk | hk
                    · left; omega
                    · exact .inr hk
              · rename_i h5
                unfold Rng.overlapsStartOf at h5
                rw [Bool.and_eq_true, lessOrEq_iff, less_iff] at h5
                have h6 : rout.overlapsEndOf rin = true := by
                  unfold Rng.overlapsEndOf
                  rw [Bool.and_eq_true, lessOrEq_iff, less_iff]
                  omega
                have h6' := h6
                unfold Rng.overlapsEndOf at h6'
                rw [Bool.and_eq_true, lessOrEq_iff, less_iff] at h6'
                simp only [h6, if_true]
                obtain ⟨p1, p2, p3⟩ := hprev h6'.1
                obtain ⟨out, o1, o2, o3, o4, o5⟩ := ih ins (rout :: outs)
                  (min ++ [⟨rin.lo, rout.lo.prev⟩]) (by simp only [List.length_cons]; omega) cti co0 hsub
                refine ⟨⟨rin.lo, rout.lo.prev⟩ :: out, by rw [o1]; simp, ?_, ?_, ?_, ?_⟩
                · refine ⟨?_, List.pairwise_cons.2 ⟨?_, o2.2⟩⟩
                  · intro r hr
                    rcases List.mem_cons.1 hr with rfl | hr
                    · exact p3
                    · exact o2.1 r hr
                  · intro o ho
                    obtain ⟨i, hi, hk⟩ := o3 o ho
                    have := li i hi
                    show key rout.lo.prev + g < key o.lo
                    omega
                · intro o ho
                  rcases List.mem_cons.1 ho with rfl | ho
                  · exact ⟨rin, by simp, Nat.le_refl _⟩
                  · obtain ⟨i, hi, hk⟩ := o3 o ho
                    exact ⟨i, by simp [hi], hk⟩
                · intro o ho
                  rcases List.mem_cons.1 ho with rfl | ho
                  · exact ⟨.inl ⟨rin, by simp, rfl⟩, .inr ⟨rout, by simp, p1, hso, rfl⟩⟩
                  · obtain ⟨a, b⟩ := o4 o ho
                    refine ⟨a.imp ?_ id, b.imp ?_ id⟩
                    · rintro ⟨r, hr, h⟩; exact ⟨r, by simp [hr], h⟩
                    · rintro ⟨r, hr, h⟩; exact ⟨r, by simp [hr], h⟩
                · intro k
                  simp only [List.mem_cons, exists_eq_or_imp] at o5 ⊢
                  have e1 : inK (⟨rin.lo, rout.lo.prev⟩ : Rng P) k ↔ key rin.lo ≤ k ∧ k < key rout.lo := by
                    unfold inK; simp only; omega
                  rw [o5 k, e1]
                  have i2 : ∀ i, i ∈ outs → inK i k → key rout.hi < k := by
                    intro i hi hk; have := lo' i hi; unfold inK at hk; omega
                  constructor
                  · rintro (hk | ⟨hk, hno⟩)
                    · refine ⟨.inl (by unfold inK; omega), ?_⟩
                      rintro (hr | ⟨r, hr, hrk⟩)
                      · unfold inK at hr; omega
                      · have := i2 r hr hrk; omega
                    · exact ⟨.inr hk, hno⟩
                  · rintro ⟨hk, hno⟩
                    rcases hk with hk | hk
                    · left
                      rw [not_or] at hno
                      unfold inK at hk hno
                      omega
                    · exact .inr ⟨hk, hno⟩

theorem normLoop_spec (A : Arith P) : ∀ (n : Nat) (ins outs min : List (Rng P)),
    ins.length + outs.length ≤ n → Canonical ins → Canonical outs →
    (∀ r ∈ outs, SubOk P r.lo.id) →
    ∃ out, normLoop min ins outs = .ok (min ++ out) ∧ Canonical out ∧
      (∀ o ∈ out, ∃ i ∈ ins, key i.lo ≤ key o.lo) ∧
      EndsOk ins outs out ∧
      (∀ k, (∃ o ∈ out, inK o k) ↔ (∃ i ∈ ins, inK i k) ∧ ¬ ∃ r ∈ outs, inK r k) := by
  intro n ins outs min hn ci co hsub
  obtain ⟨out, h1, h2, h3⟩ := normLoop_spaced A (Nat.le_refl 1) n ins outs min hn
    ((canonical_iff _).1 ci) ((canonical_iff _).1 co) hsub
  exact ⟨out, h1, (canonical_iff _).2 h2, h3⟩

end Verif.Id
