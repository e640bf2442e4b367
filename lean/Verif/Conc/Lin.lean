import Verif.Conc.Trace

/-!
Linearization points: calls that take effect at one of their atomic calls, or at their return.
-/

namespace Verif.Conc
variable {κ κ₀ σ ρ ρ₀ : Type}

/-- the calls `L`, executed one after the other as `St` allows, lead from `m` to `m'` -/
inductive SRuns (St : σ → κ → σ → ρ → Prop) : σ → List (Nat × κ × ρ) → σ → Prop
  | nil (m) : SRuns St m [] m
  | cons {m m' m'' n c r L} : St m c m' r → SRuns St m' L m'' → SRuns St m ((n, c, r) :: L) m''

theorem SRuns.append {St : σ → κ → σ → ρ → Prop} {m m' m'' : σ} {L L' : List (Nat × κ × ρ)} (h : SRuns St m L m')
    (h' : SRuns St m' L' m'') : SRuns St m (L ++ L') m'' := by
  induction h with
  | nil => exact h'
  | cons hs _ ih => exact .cons hs (ih h')

theorem SRuns.snoc {St : σ → κ → σ → ρ → Prop} {m m' m'' : σ} {L : List (Nat × κ × ρ)} {n : Nat} {c : κ} {r : ρ}
    (h : SRuns St m L m') (hs : St m' c m'' r) : SRuns St m (L ++ [(n, c, r)]) m'' :=
  h.append (.cons hs (.nil _))

/-- `P c d`: a call `c` that still has to do `d` has not taken effect. Either an atomic call or the
return is the moment when it does. `J` holds of the memory at all times. -/
structure LinPts (code : κ → Client κ₀ ρ₀ σ ρ) (sem : σ → κ₀ → σ × ρ₀) (see : σ → σ → Prop) (J : σ → Prop)
    (St : σ → κ → σ → ρ → Prop) (P : κ → Client κ₀ ρ₀ σ ρ → Prop) : Prop where
  start : ∀ c, P c (code c)
  call : ∀ {c x k m}, P c (.call x k) → J m → J (sem m x).1 ∧
    (((sem m x).1 = m ∧ P c (k (sem m x).2)) ∨ ∃ r, St m c (sem m x).1 r ∧ k (sem m x).2 = .ret r)
  peek : ∀ {c k m s}, P c (.peek k) → J m → see m s → P c (k s)
  ret : ∀ {c r m}, P c (.ret r) → J m → St m c m r

/-- the calls `L` are those of the history `H`, in an order that respects real time -/
structure Orders (H : List (Ev κ ρ)) (L : List (Nat × κ × ρ)) : Prop where
  nodup : (L.map (·.1)).Nodup
  inv : ∀ x ∈ L, Ev.inv x.1 x.2.1 ∈ H
  ret : ∀ n r, Ev.ret n r ∈ H → ∃ c, (n, c, r) ∈ L
  order : ∀ a b, Before H a b → b ∈ L.map (·.1) → List.Sublist [a, b] (L.map (·.1))

theorem before_snoc_ret {H : List (Ev κ ρ)} {a b n : Nat} {r : ρ} (h : Before (H ++ [Ev.ret n r]) a b) : Before H a b := by
  obtain ⟨r', c', hs⟩ := h
  rcases sublist_snoc_of_ne hs with h | ⟨_, h⟩
  · exact ⟨r', c', h⟩
  · cases h

/-- a new call takes effect last -/
theorem Orders.snoc {H : List (Ev κ ρ)} {L : List (Nat × κ × ρ)} (h : Orders H L) {n : Nat} {c : κ} {r : ρ}
    (hi : Ev.inv n c ∈ H) (hn : n ∉ L.map (·.1)) : Orders H (L ++ [(n, c, r)]) := by
  refine ⟨?_, ?_, ?_, ?_⟩
  · rw [List.map_append, List.nodup_append]
    refine ⟨h.nodup, by simp, ?_⟩
    intro a ha b hb hab
    simp only [List.map_cons, List.map_nil, List.mem_cons, List.not_mem_nil, or_false] at hb
    subst hab hb
    exact hn ha
  · intro x hx
    rcases List.mem_append.1 hx with hx | hx
    · exact h.inv x hx
    · simp only [List.mem_cons, List.not_mem_nil, or_false] at hx
      subst hx
      exact hi
  · intro i r' hr
    obtain ⟨c', hc'⟩ := h.ret i r' hr
    exact ⟨c', List.mem_append_left _ hc'⟩
  · intro a b hb hm
    rw [List.map_append] at hm ⊢
    rcases List.mem_append.1 hm with hm | hm
    · exact (h.order a b hb hm).trans (List.sublist_append_left _ _)
    · simp only [List.map_cons, List.map_nil, List.mem_cons, List.not_mem_nil, or_false] at hm
      subst hm
      obtain ⟨r', c', hs⟩ := hb
      obtain ⟨c'', hc''⟩ := h.ret a r' (hs.subset (by simp))
      have : a ∈ L.map (·.1) := List.mem_map.2 ⟨_, hc'', rfl⟩
      exact List.Sublist.append (l₁ := [a]) (List.singleton_sublist.2 this) (List.Sublist.refl _)

theorem Orders.doRet {H : List (Ev κ ρ)} {L : List (Nat × κ × ρ)} (h : Orders H L) {n : Nat} {c : κ} {r : ρ}
    (hn : (n, c, r) ∈ L) : Orders (H ++ [Ev.ret n r]) L := by
  refine ⟨h.nodup, fun x hx => List.mem_append_left _ (h.inv x hx), ?_, fun a b hb => h.order a b (before_snoc_ret hb)⟩
  intro i r' hr
  rcases List.mem_append.1 hr with hr | hr
  · exact h.ret i r' hr
  · simp only [List.mem_cons, List.not_mem_nil, or_false] at hr
    cases hr
    exact ⟨c, hn⟩

theorem Orders.doInv {H : List (Ev κ ρ)} {L : List (Nat × κ × ρ)} (h : Orders H L) {n : Nat} {c : κ}
    (hn : n ∉ L.map (·.1)) : Orders (H ++ [Ev.inv n c]) L := by
  refine ⟨h.nodup, fun x hx => List.mem_append_left _ (h.inv x hx), ?_, ?_⟩
  · intro i r' hr
    rcases List.mem_append.1 hr with hr | hr
    · exact h.ret i r' hr
    · simp at hr
  · rintro a b ⟨r', c', hs⟩ hm
    rcases sublist_snoc_of_ne hs with h1 | ⟨_, h1⟩
    · exact h.order a b ⟨r', c', h1⟩ hm
    · cases h1
      exact absurd hm hn

/-- With linearization points, the calls of an execution can be ordered. -/
theorem LinPts.order {code : κ → Client κ₀ ρ₀ σ ρ} {sem : σ → κ₀ → σ × ρ₀} {see : σ → σ → Prop} {J : σ → Prop}
    {St : σ → κ → σ → ρ → Prop} {P : κ → Client κ₀ ρ₀ σ ρ → Prop} (hp : LinPts code sem see J St P) {m₀ : σ}
    (hJ : J m₀) {a : ACfg κ κ₀ ρ₀ σ ρ} {G H} (h : AExec code sem see m₀ a G H) :
    ∃ L, Orders H L ∧ SRuns St m₀ L a.mem := by
  suffices hh : ∃ L, Orders H L ∧ SRuns St m₀ L a.mem ∧ J a.mem ∧
      ∀ (n : Nat) (c : κ) (d : Client κ₀ ρ₀ σ ρ), a.th[n]? = some (c, some d) →
        (n ∉ L.map (·.1) ∧ P c d) ∨ ∃ r, d = .ret r ∧ (n, c, r) ∈ L by
    obtain ⟨L, h1, h2, _⟩ := hh
    exact ⟨L, h1, h2⟩
  induction h with
  | init =>
    refine ⟨[], ⟨by simp, by simp, by simp, by simp⟩, .nil _, hJ, by simp⟩
  | @step g G H _ _ _ h0 hs ih =>
    obtain ⟨L, ho, hr, hj, ht⟩ := ih
    have hF := h0.facts
    cases hs with
    | @inv m th c =>
      simp only [Option.toList_some] at *
      have hnew : th.length ∉ L.map (·.1) := by
        intro hm
        obtain ⟨x, hx, hxe⟩ := List.mem_map.1 hm
        obtain ⟨o, hox⟩ := (hF.inv _ _).1 (ho.inv x hx)
        have := (List.getElem?_eq_some_iff.1 hox).1
        simp only at this
        omega
      refine ⟨L, ho.doInv hnew, hr, hj, ?_⟩
      intro n c' d hd
      by_cases hi : n < th.length
      · rw [List.getElem?_append_left hi] at hd
        exact ht n c' d hd
      · rw [List.getElem?_append_right (by omega)] at hd
        have hlt := (List.getElem?_eq_some_iff.1 hd).1
        simp only [List.length_singleton] at hlt
        have hz : n - th.length = 0 := by omega
        rw [hz] at hd
        cases hd
        have : n = th.length := by omega
        subst this
        exact .inl ⟨hnew, hp.start _⟩
    | @ret m th n c r hn =>
      simp only [Option.toList_some] at *
      have hother : ∀ L' : List (Nat × κ × ρ), (∀ x, x ∈ L' ↔ x ∈ L ∨ x = (n, c, r)) →
          ∀ (i : Nat) (c' : κ) (d : Client κ₀ ρ₀ σ ρ), (th.set n (c, none))[i]? = some (c', some d) →
          (i ∉ L'.map (·.1) ∧ P c' d) ∨ ∃ r, d = .ret r ∧ (i, c', r) ∈ L' := by
        intro L' hL' i c' d hd
        rcases getElem?_set_cases hd with ⟨rfl, h1⟩ | ⟨hi, h1⟩
        · cases h1
        · rcases ht i c' d h1 with ⟨h2, h3⟩ | ⟨r', h2, h3⟩
          · refine .inl ⟨?_, h3⟩
            intro hm
            obtain ⟨x, hx, hxe⟩ := List.mem_map.1 hm
            rcases (hL' x).1 hx with hx | rfl
            · exact h2 (List.mem_map.2 ⟨x, hx, hxe⟩)
            · exact hi hxe.symm
          · exact .inr ⟨r', h2, (hL' _).2 (.inl h3)⟩
      rcases ht n c _ hn with ⟨h1, h2⟩ | ⟨r', h1, h2⟩
      · refine ⟨L ++ [(n, c, r)], ?_, hr.snoc (hp.ret h2 hj), hj, hother _ (by simp)⟩
        exact (ho.snoc ((hF.inv n c).2 ⟨_, hn⟩) h1).doRet (c := c) (by simp)
      · cases h1
        refine ⟨L, ho.doRet h2, hr, hj, hother _ ?_⟩
        intro x
        constructor
        · exact .inl
        · rintro (h | rfl)
          · exact h
          · exact h2
    | @call m th n c x k hn =>
      simp only [Option.toList_none, List.append_nil] at *
      rcases ht n c _ hn with ⟨h1, h2⟩ | ⟨r', h1, h2⟩
      · obtain ⟨hj', h3 | ⟨r, h3, h4⟩⟩ := hp.call h2 hj
        · refine ⟨L, ho, by rw [h3.1]; exact hr, hj', ?_⟩
          intro i c' d hd
          rcases getElem?_set_cases hd with ⟨rfl, h5⟩ | ⟨_, h5⟩
          · cases h5
            exact .inl ⟨h1, h3.2⟩
          · exact ht i c' d h5
        · refine ⟨L ++ [(n, c, r)], ho.snoc ((hF.inv n c).2 ⟨_, hn⟩) h1, hr.snoc h3, hj', ?_⟩
          intro i c' d hd
          rcases getElem?_set_cases hd with ⟨rfl, h5⟩ | ⟨hi, h5⟩
          · cases h5
            exact .inr ⟨r, h4, by simp⟩
          · rcases ht i c' d h5 with ⟨h6, h7⟩ | ⟨r', h6, h7⟩
            · refine .inl ⟨?_, h7⟩
              rw [List.map_append, List.mem_append]
              rintro (h | h)
              · exact h6 h
              · simp only [List.map_cons, List.map_nil, List.mem_cons, List.not_mem_nil, or_false] at h
                exact hi h
            · exact .inr ⟨r', h6, List.mem_append_left _ h7⟩
      · cases h1
    | @peek m th n c k s hn hs =>
      simp only [Option.toList_none, List.append_nil] at *
      refine ⟨L, ho, hr, hj, ?_⟩
      intro i c' d hd
      rcases getElem?_set_cases hd with ⟨rfl, h5⟩ | ⟨_, h5⟩
      · cases h5
        rcases ht i c _ hn with ⟨h1, h2⟩ | ⟨r', h1, h2⟩
        · exact .inl ⟨h1, hp.peek h2 hj hs⟩
        · cases h1
      · exact ht i c' d h5

end Verif.Conc
