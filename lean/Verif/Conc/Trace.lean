import Verif.Conc.Sim

/-! What the order of the atomic calls of an execution says about the history. -/

namespace Verif.Conc
variable {κ κ₀ σ ρ ρ₀ β : Type}

/-- the atomic calls `G`, executed one after the other from `m`, give these replies and lead to `m'` -/
inductive Runs (sem : σ → κ₀ → σ × ρ₀) : σ → List (Nat × κ₀ × ρ₀) → σ → Prop
  | nil (m) : Runs sem m [] m
  | cons {m m' n c G} : Runs sem (sem m c).1 G m' → Runs sem m ((n, c, (sem m c).2) :: G) m'

theorem Runs.append {sem : σ → κ₀ → σ × ρ₀} {m m' m'' : σ} {G G' : List (Nat × κ₀ × ρ₀)} (h : Runs sem m G m')
    (h' : Runs sem m' G' m'') : Runs sem m (G ++ G') m'' := by
  induction h with
  | nil => exact h'
  | cons _ ih => exact .cons (ih h')

theorem Runs.split {sem : σ → κ₀ → σ × ρ₀} : ∀ (G : List (Nat × κ₀ × ρ₀)) {m m'' : σ} {G' : List (Nat × κ₀ × ρ₀)},
    Runs sem m (G ++ G') m'' → ∃ m', Runs sem m G m' ∧ Runs sem m' G' m''
  | [], m, _, _, h => ⟨m, .nil m, h⟩
  | _ :: G, _, _, _, h => by
    cases h with
    | cons h =>
      obtain ⟨m', h1, h2⟩ := Runs.split G h
      exact ⟨m', .cons h1, h2⟩

/-- `d` makes the calls `l`, with these replies, and goes on as `d'` -/
inductive Client.Path : Client κ₀ ρ₀ σ ρ → List (κ₀ × ρ₀) → Client κ₀ ρ₀ σ ρ → Prop
  | nil (d) : Path d [] d
  | call {c k r l d} : Path (k r) l d → Path (.call c k) ((c, r) :: l) d
  | peek {k s l d} : Path (k s) l d → Path (.peek k) l d

theorem Client.Path.snoc {d d' : Client κ₀ ρ₀ σ ρ} {l : List (κ₀ × ρ₀)} {c : κ₀} {k : ρ₀ → Client κ₀ ρ₀ σ ρ}
    (h : d.Path l d') (hd : d' = .call c k) (r : ρ₀) : d.Path (l ++ [(c, r)]) (k r) := by
  induction h with
  | nil d => subst hd; exact .call (.nil _)
  | call _ ih => exact .call (ih hd)
  | peek _ ih => exact .peek (ih hd)

theorem Client.Path.snocPeek {d d' : Client κ₀ ρ₀ σ ρ} {l : List (κ₀ × ρ₀)} {k : σ → Client κ₀ ρ₀ σ ρ}
    (h : d.Path l d') (hd : d' = .peek k) (s : σ) : d.Path l (k s) := by
  induction h with
  | nil d => subst hd; exact .peek (.nil _)
  | call _ ih => exact .call (ih hd)
  | peek _ ih => exact .peek (ih hd)

/-- the atomic calls of call number `n` -/
def callsOf (G : List (Nat × κ₀ × ρ₀)) (n : Nat) : List (κ₀ × ρ₀) :=
  (G.filter fun e => e.1 == n).map (·.2)

theorem callsOf_snoc (G : List (Nat × κ₀ × ρ₀)) (n i : Nat) (x : κ₀ × ρ₀) :
    callsOf (G ++ [(n, x)]) i = if i = n then callsOf G i ++ [x] else callsOf G i := by
  unfold callsOf
  rw [List.filter_append, List.map_append]
  by_cases h : i = n
  · subst h; simp
  · rw [if_neg h]
    have : (n == i) = false := by simp; exact fun h' => h h'.symm
    simp [this]

theorem mem_callsOf {G : List (Nat × κ₀ × ρ₀)} {n : Nat} {x : κ₀ × ρ₀} : x ∈ callsOf G n ↔ (n, x) ∈ G := by
  unfold callsOf
  constructor
  · intro h
    obtain ⟨e, he, rfl⟩ := List.mem_map.1 h
    obtain ⟨h1, h2⟩ := List.mem_filter.1 he
    have : e.1 = n := by simpa using h2
    subst this
    exact h1
  · intro h
    exact List.mem_map.2 ⟨(n, x), List.mem_filter.2 ⟨h, by simp⟩, rfl⟩

/-- the facts about an execution -/
structure Facts (code : κ → Client κ₀ ρ₀ σ ρ) (sem : σ → κ₀ → σ × ρ₀) (m₀ : σ) (a : ACfg κ κ₀ ρ₀ σ ρ)
    (G : List (Nat × κ₀ × ρ₀)) (H : List (Ev κ ρ)) : Prop where
  /-- the atomic calls are executed one after the other -/
  runs : Runs sem m₀ G a.mem
  /-- only calls that have started make atomic calls -/
  bound : ∀ e ∈ G, e.1 < a.th.length
  inv : ∀ n c, Ev.inv n c ∈ H ↔ ∃ o, a.th[n]? = some (c, o)
  /-- the atomic calls of a running call -/
  path : ∀ (n : Nat) (c : κ) (d : Client κ₀ ρ₀ σ ρ), a.th[n]? = some (c, some d) → (code c).Path (callsOf G n) d
  /-- the atomic calls of a call that has returned, and its reply -/
  ret : ∀ (n : Nat) (c : κ) (r : ρ), a.th[n]? = some (c, none) → Ev.ret n r ∈ H → (code c).Path (callsOf G n) (.ret r)
  retd : ∀ n r, Ev.ret n r ∈ H → ∃ c, a.th[n]? = some (c, none)
  /-- a call that returned before another started made its atomic calls earlier -/
  order : ∀ n n', Before H n n' → ∀ x y, x.1 = n' → y.1 = n → ¬ [x, y].Sublist G

theorem sublist_snoc_of_ne {A : Type} {x y z : A} {l : List A} (h : List.Sublist [x, y] (l ++ [z])) :
    List.Sublist [x, y] l ∨ (x ∈ l ∧ y = z) := by
  rw [List.sublist_append_iff] at h
  obtain ⟨l1, l2, h1, h2, h3⟩ := h
  match l1, l2 with
  | [], l2 =>
    simp only [List.nil_append] at h1
    subst h1
    have := h3.length_le
    simp at this
  | [u], l2 =>
    simp only [List.cons_append, List.nil_append, List.cons.injEq] at h1
    obtain ⟨rfl, h1⟩ := h1
    subst h1
    have h3' := h3.subset
    have : y ∈ [z] := h3' (by simp)
    simp only [List.mem_cons, List.not_mem_nil, or_false] at this
    exact .inr ⟨h2.subset (by simp), this⟩
  | [u, v], l2 =>
    simp only [List.cons_append, List.nil_append, List.cons.injEq] at h1
    obtain ⟨rfl, rfl, _⟩ := h1
    exact .inl h2
  | u :: v :: w :: l1, l2 => simp at h1

theorem AExec.facts {code : κ → Client κ₀ ρ₀ σ ρ} {sem : σ → κ₀ → σ × ρ₀} {see : σ → σ → Prop} {m₀ : σ}
    {a : ACfg κ κ₀ ρ₀ σ ρ} {G H} (h : AExec code sem see m₀ a G H) : Facts code sem m₀ a G H := by
  induction h with
  | init =>
    refine ⟨.nil _, by simp, by simp, by simp, by simp, by simp, ?_⟩
    rintro n n' _ x y _ _ hs
    cases hs
  | @step _ G H _ _ _ _ hs ih =>
    cases hs with
    | @inv m th c =>
      simp only [Option.toList_none, Option.toList_some, List.append_nil]
      have hget : ∀ (n : Nat) y, (th ++ [(c, some (code c))])[n]? = some y →
          th[n]? = some y ∨ (n = th.length ∧ y = (c, some (code c))) := by
        intro i z hz
        by_cases hi : i < th.length
        · rw [List.getElem?_append_left hi] at hz; exact .inl hz
        · rw [List.getElem?_append_right (by omega)] at hz
          have hlt := (List.getElem?_eq_some_iff.1 hz).1
          simp only [List.length_singleton] at hlt
          have : i - th.length = 0 := by omega
          rw [this] at hz
          cases hz
          exact .inr ⟨by omega, rfl⟩
      have hget' : ∀ (n : Nat) y, th[n]? = some y → (th ++ [(c, some (code c))])[n]? = some y := by
        intro n y hy
        rw [List.getElem?_append_left (List.getElem?_eq_some_iff.1 hy).1]
        exact hy
      have hretH : ∀ n r, Ev.ret n r ∈ H ++ [Ev.inv th.length c] → Ev.ret n r ∈ H := by
        intro n r h
        rcases List.mem_append.1 h with h | h
        · exact h
        · simp at h
      refine ⟨ih.runs, ?_, ?_, ?_, ?_, ?_, ?_⟩
      · intro e he
        have := ih.bound e he
        simp only [List.length_append, List.length_singleton] at this ⊢
        omega
      · intro n c'
        constructor
        · intro h
          rcases List.mem_append.1 h with h | h
          · obtain ⟨o, ho⟩ := (ih.inv n c').1 h
            exact ⟨o, hget' n _ ho⟩
          · simp only [List.mem_cons, List.not_mem_nil, or_false] at h
            cases h
            exact ⟨some (code c), by simp⟩
        · rintro ⟨o, ho⟩
          rcases hget n _ ho with h | ⟨rfl, h⟩
          · exact List.mem_append_left _ ((ih.inv n c').2 ⟨o, h⟩)
          · cases h
            exact List.mem_append_right _ (by simp)
      · intro n c' d hd
        rcases hget n _ hd with h | ⟨rfl, h⟩
        · exact ih.path n c' d h
        · cases h
          have : callsOf G th.length = [] := by
            unfold callsOf
            rw [List.map_eq_nil_iff, List.filter_eq_nil_iff]
            intro e he
            have := ih.bound e he
            simp only [beq_iff_eq] at this ⊢
            omega
          rw [this]
          exact .nil _
      · intro n c' r hd hr
        rcases hget n _ hd with h | ⟨rfl, h⟩
        · exact ih.ret n c' r h (hretH n r hr)
        · cases h
      · intro n r hr
        obtain ⟨c', hc'⟩ := ih.retd n r (hretH n r hr)
        exact ⟨c', hget' n _ hc'⟩
      · rintro n n' ⟨r, c', hs⟩ x y hx hy hxy
        rcases sublist_snoc_of_ne hs with h | ⟨_, h⟩
        · exact ih.order n n' ⟨r, c', h⟩ x y hx hy hxy
        · cases h
          have := ih.bound x (hxy.subset (by simp))
          simp only at this
          omega
    | @ret m th n c r hn =>
      simp only [Option.toList_none, Option.toList_some, List.append_nil]
      refine ⟨ih.runs, ?_, ?_, ?_, ?_, ?_, ?_⟩
      · intro e he
        have := ih.bound e he
        simpa using this
      · intro i c'
        constructor
        · intro h
          rcases List.mem_append.1 h with h | h
          · obtain ⟨o, ho⟩ := (ih.inv i c').1 h
            simp only at ho
            by_cases hi : i = n
            · subst hi
              rw [hn] at ho
              cases ho
              exact ⟨none, by simp only; rw [List.getElem?_set_self', hn]; rfl⟩
            · exact ⟨o, by simp only; rw [List.getElem?_set_ne (fun h => hi h.symm)]; exact ho⟩
          · simp at h
        · rintro ⟨o, ho⟩
          rcases getElem?_set_cases ho with ⟨rfl, h⟩ | ⟨_, h⟩
          · cases h
            exact List.mem_append_left _ ((ih.inv i _).2 ⟨_, hn⟩)
          · exact List.mem_append_left _ ((ih.inv i c').2 ⟨o, h⟩)
      · intro i c' d hd
        rcases getElem?_set_cases hd with ⟨rfl, h⟩ | ⟨_, h⟩
        · cases h
        · exact ih.path i c' d h
      · intro i c' r' hd hr
        rcases getElem?_set_cases hd with ⟨rfl, h⟩ | ⟨hi, h⟩
        · cases h
          rcases List.mem_append.1 hr with h | h
          · obtain ⟨c', hc'⟩ := ih.retd i r' h
            simp only at hc'
            rw [hn] at hc'
            cases hc'
          · simp only [List.mem_cons, List.not_mem_nil, or_false] at h
            cases h
            exact ih.path i _ _ hn
        · rcases List.mem_append.1 hr with h' | h'
          · exact ih.ret i c' r' h h'
          · simp only [List.mem_cons, List.not_mem_nil, or_false] at h'
            cases h'
            exact absurd rfl hi
      · intro i r' hr
        by_cases hi : i = n
        · subst hi
          exact ⟨c, by simp only; rw [List.getElem?_set_self', hn]; rfl⟩
        · rcases List.mem_append.1 hr with h' | h'
          · obtain ⟨c', hc'⟩ := ih.retd i r' h'
            exact ⟨c', by simp only; rw [List.getElem?_set_ne (fun h => hi h.symm)]; exact hc'⟩
          · simp only [List.mem_cons, List.not_mem_nil, or_false] at h'
            cases h'
            exact absurd rfl hi
      · rintro i i' ⟨r', c', hs⟩ x y hx hy hxy
        rcases sublist_snoc_of_ne hs with h | ⟨_, h⟩
        · exact ih.order i i' ⟨r', c', h⟩ x y hx hy hxy
        · cases h
    | @call m th n c x k hn =>
      simp only [Option.toList_none, Option.toList_some, List.append_nil]
      refine ⟨ih.runs.append (.cons (.nil _)), ?_, ?_, ?_, ?_, ?_, ?_⟩
      · intro e he
        simp only [List.length_set]
        rcases List.mem_append.1 he with h | h
        · exact ih.bound e h
        · simp only [List.mem_cons, List.not_mem_nil, or_false] at h
          subst h
          exact (List.getElem?_eq_some_iff.1 hn).1
      · intro i c'
        rw [ih.inv]
        constructor
        · rintro ⟨o, ho⟩
          simp only at ho
          by_cases hi : i = n
          · subst hi
            rw [hn] at ho
            cases ho
            exact ⟨_, by simp only; rw [List.getElem?_set_self', hn]; rfl⟩
          · exact ⟨o, by simp only; rw [List.getElem?_set_ne (fun h => hi h.symm)]; exact ho⟩
        · rintro ⟨o, ho⟩
          rcases getElem?_set_cases ho with ⟨rfl, h⟩ | ⟨_, h⟩
          · cases h
            exact ⟨_, hn⟩
          · exact ⟨o, h⟩
      · intro i c' d hd
        rw [callsOf_snoc]
        rcases getElem?_set_cases hd with ⟨rfl, h⟩ | ⟨hi, h⟩
        · cases h
          rw [if_pos rfl]
          exact (ih.path i _ _ hn).snoc rfl _
        · rw [if_neg hi]
          exact ih.path i c' d h
      · intro i c' r' hd hr
        rw [callsOf_snoc]
        rcases getElem?_set_cases hd with ⟨rfl, h⟩ | ⟨hi, h⟩
        · cases h
        · rw [if_neg hi]
          exact ih.ret i c' r' h hr
      · intro i r' hr
        obtain ⟨c', hc'⟩ := ih.retd i r' hr
        simp only at hc'
        by_cases hi : i = n
        · subst hi
          rw [hn] at hc'
          cases hc'
        · exact ⟨c', by simp only; rw [List.getElem?_set_ne (fun h => hi h.symm)]; exact hc'⟩
      · intro i i' hb u v hu hv huv
        rcases sublist_snoc_of_ne huv with h | ⟨_, h⟩
        · exact ih.order i i' hb u v hu hv h
        · subst h
          simp only at hv
          subst hv
          obtain ⟨r, c', hs⟩ := hb
          obtain ⟨c'', hc''⟩ := ih.retd n r (hs.subset (by simp))
          simp only at hc''
          rw [hn] at hc''
          cases hc''
    | @peek m th n c k s hn _ =>
      simp only [Option.toList_none, List.append_nil]
      refine ⟨ih.runs, ?_, ?_, ?_, ?_, ?_, ih.order⟩
      · intro e he
        simp only [List.length_set]
        exact ih.bound e he
      · intro i c'
        rw [ih.inv]
        constructor
        · rintro ⟨o, ho⟩
          simp only at ho
          by_cases hi : i = n
          · subst hi
            rw [hn] at ho
            cases ho
            exact ⟨_, by simp only; rw [List.getElem?_set_self', hn]; rfl⟩
          · exact ⟨o, by simp only; rw [List.getElem?_set_ne (fun h => hi h.symm)]; exact ho⟩
        · rintro ⟨o, ho⟩
          rcases getElem?_set_cases ho with ⟨rfl, h⟩ | ⟨_, h⟩
          · cases h
            exact ⟨_, hn⟩
          · exact ⟨o, h⟩
      · intro i c' d hd
        rcases getElem?_set_cases hd with ⟨rfl, h⟩ | ⟨hi, h⟩
        · cases h
          exact (ih.path i _ _ hn).snocPeek rfl _
        · exact ih.path i c' d h
      · intro i c' r' hd hr
        rcases getElem?_set_cases hd with ⟨rfl, h⟩ | ⟨hi, h⟩
        · cases h
        · exact ih.ret i c' r' h hr
      · intro i r' hr
        obtain ⟨c', hc'⟩ := ih.retd i r' hr
        simp only at hc'
        by_cases hi : i = n
        · subst hi
          rw [hn] at hc'
          cases hc'
        · exact ⟨c', by simp only; rw [List.getElem?_set_ne (fun h => hi h.symm)]; exact hc'⟩

/-- a call that has returned: its atomic calls -/
theorem Facts.returned {code : κ → Client κ₀ ρ₀ σ ρ} {sem : σ → κ₀ → σ × ρ₀} {m₀ : σ} {a : ACfg κ κ₀ ρ₀ σ ρ}
    {G : List (Nat × κ₀ × ρ₀)} {H : List (Ev κ ρ)} (h : Facts code sem m₀ a G H) {n : Nat} {c : κ} {r : ρ}
    (hi : Ev.inv n c ∈ H) (hr : Ev.ret n r ∈ H) : (code c).Path (callsOf G n) (.ret r) := by
  obtain ⟨o, ho⟩ := (h.inv n c).1 hi
  obtain ⟨c', hc'⟩ := h.retd n r hr
  rw [ho] at hc'
  cases hc'
  exact h.ret n c r ho hr

/-- an atomic call belongs to a call that has started -/
theorem Facts.started {code : κ → Client κ₀ ρ₀ σ ρ} {sem : σ → κ₀ → σ × ρ₀} {m₀ : σ} {a : ACfg κ κ₀ ρ₀ σ ρ}
    {G : List (Nat × κ₀ × ρ₀)} {H : List (Ev κ ρ)} (h : Facts code sem m₀ a G H)
    (hret : ∀ n c, a.th[n]? = some (c, none) → ∃ r, Ev.ret n r ∈ H) {n : Nat} {x : κ₀ × ρ₀}
    (hx : (n, x) ∈ G) : ∃ c d, Ev.inv n c ∈ H ∧ (code c).Path (callsOf G n) d := by
  have hb : n < a.th.length := h.bound _ hx
  rcases hy : a.th[n] with ⟨c, _ | d⟩
  · have hy' : a.th[n]? = some (c, none) := by rw [List.getElem?_eq_getElem hb, hy]
    obtain ⟨r, hr⟩ := hret n c hy'
    exact ⟨c, _, (h.inv n c).2 ⟨_, hy'⟩, h.ret n c r hy' hr⟩
  · have hy' : a.th[n]? = some (c, some d) := by rw [List.getElem?_eq_getElem hb, hy]
    exact ⟨c, d, (h.inv n c).2 ⟨_, hy'⟩, h.path n c d hy'⟩

theorem AExec.hasRet {code : κ → Client κ₀ ρ₀ σ ρ} {sem : σ → κ₀ → σ × ρ₀} {see : σ → σ → Prop} {m₀ : σ}
    {a : ACfg κ κ₀ ρ₀ σ ρ} {G H} (h : AExec code sem see m₀ a G H) :
    ∀ (n : Nat) (c : κ), a.th[n]? = some (c, none) → ∃ r, Ev.ret n r ∈ H := by
  induction h with
  | init => simp
  | step _ hs ih =>
    intro n c hn
    cases hs with
    | @inv m th c' =>
      simp only at hn
      by_cases hi : n < th.length
      · rw [List.getElem?_append_left hi] at hn
        obtain ⟨r, hr⟩ := ih n c hn
        exact ⟨r, List.mem_append_left _ hr⟩
      · rw [List.getElem?_append_right (by omega)] at hn
        have := List.mem_of_getElem? hn
        simp at this
    | @ret m th i c' r hi =>
      rcases getElem?_set_cases hn with ⟨rfl, h⟩ | ⟨_, h⟩
      · exact ⟨r, List.mem_append_right _ (by simp)⟩
      · obtain ⟨r, hr⟩ := ih n c h
        exact ⟨r, List.mem_append_left _ hr⟩
    | call hi =>
      rcases getElem?_set_cases hn with ⟨rfl, h⟩ | ⟨_, h⟩
      · cases h
      · obtain ⟨r, hr⟩ := ih n c h
        exact ⟨r, List.mem_append_left _ hr⟩
    | peek hi _ =>
      rcases getElem?_set_cases hn with ⟨rfl, h⟩ | ⟨_, h⟩
      · cases h
      · obtain ⟨r, hr⟩ := ih n c h
        exact ⟨r, List.mem_append_left _ hr⟩

end Verif.Conc
