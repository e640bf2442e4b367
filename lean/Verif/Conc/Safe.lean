import Verif.Conc.Sim

/-! Programs made of critical sections have no data race, and without nested read locks no deadlock. -/

namespace Verif.Conc
variable {κ κ₀ σ ρ ρ₀ β : Type}

/-- a program that only uses calls in `S`, and peeks only if `pk` -/
inductive Client.Uses (S : κ₀ → Prop) (pk : Prop) : Client κ₀ ρ₀ σ ρ → Prop
  | ret (r) : Uses S pk (.ret r)
  | call {c k} : S c → (∀ r, Uses S pk (k r)) → Uses S pk (.call c k)
  | peek {k} : pk → (∀ s, Uses S pk (k s)) → Uses S pk (.peek k)

theorem AExec.uses {S : κ₀ → Prop} {pk : Prop} {code : κ → Client κ₀ ρ₀ σ ρ} {sem : σ → κ₀ → σ × ρ₀}
    {see : σ → σ → Prop} {m₀ : σ} (hc : ∀ c, (code c).Uses S pk) {a : ACfg κ κ₀ ρ₀ σ ρ} {G H}
    (h : AExec code sem see m₀ a G H) : ∀ y ∈ a.th, ∀ d, y.2 = some d → d.Uses S pk := by
  induction h with
  | init => simp
  | step _ hs ih =>
    cases hs with
    | inv c =>
      intro y hy d hd
      rcases List.mem_append.1 hy with h | h
      · exact ih y h d hd
      · simp only [List.mem_cons, List.not_mem_nil, or_false] at h
        subst h
        cases hd
        exact hc c
    | ret hx =>
      intro y hy d hd
      rcases mem_set_cases hy with rfl | ⟨i, _, h2⟩
      · cases hd
      · exact ih y (List.mem_of_getElem? h2) d hd
    | call hx =>
      intro y hy d hd
      rcases mem_set_cases hy with rfl | ⟨i, _, h2⟩
      · cases hd
        have := ih _ (List.mem_of_getElem? hx) _ rfl
        cases this with
        | call _ h => exact h _
      · exact ih y (List.mem_of_getElem? h2) d hd
    | peek hx _ =>
      intro y hy d hd
      rcases mem_set_cases hy with rfl | ⟨i, _, h2⟩
      · cases hd
        have := ih _ (List.mem_of_getElem? hx) _ rfl
        cases this with
        | peek _ h => exact h _
      · exact ih y (List.mem_of_getElem? h2) d hd

/-- without peeks there are no data races -/
theorem Rel.no_race {meth : κ₀ → Prog σ ρ₀} {sem : σ → κ₀ → σ × ρ₀} (hm : Sections meth sem)
    {g : Cfg κ σ ρ} {a : ACfg κ κ₀ ρ₀ σ ρ} (h : Rel meth g a)
    (hu : ∀ y ∈ a.th, ∀ d, y.2 = some d → d.Uses (fun _ => True) False) : ¬ Race g := by
  obtain ⟨m, th⟩ := g
  obtain ⟨am, ath⟩ := a
  rintro ⟨i, j, x, y, hij, hx, hy, ⟨w, k, hw⟩, ha⟩
  simp only at hx hy
  -- the writer holds the lock
  have hout : ∀ {d : Client κ₀ ρ₀ σ ρ} {c}, (c, some d) ∈ ath →
      (∀ w k, Client.compile meth d ≠ .write w k) ∧ ∀ k, Client.compile meth d ≠ .read k := by
    intro d c hd
    have := hu _ hd d rfl
    rcases compile_cases hm d with ⟨r, rfl⟩ | ⟨k, rfl⟩ | ⟨k, hk⟩ | ⟨k, hk⟩
    · exact ⟨(fun _ _ h => nomatch h), (fun _ h => nomatch h)⟩
    · cases this; contradiction
    · rw [hk]; exact ⟨(fun _ _ h => nomatch h), (fun _ h => nomatch h)⟩
    · rw [hk]; exact ⟨(fun _ _ h => nomatch h), (fun _ h => nomatch h)⟩
  have hxh : x.wr = .held := by
    obtain ⟨z, hz, hT⟩ := h.get hx
    cases hT with
    | done => cases hw
    | out => injection hw with hw; exact absurd hw ((hout (List.mem_of_getElem? hz)).1 _ _)
    | waiting _ => cases hw
    | reading hr => injection hw with hw; subst hw; cases hr
    | writing _ => rfl
  have hno := h.alone x (List.mem_of_getElem? hx) hxh
  obtain ⟨z, hz, hT⟩ := h.get hy
  cases hT with
  | done => rcases ha with ⟨_, h⟩ | ⟨_, _, h⟩ <;> cases h
  | out =>
    rcases ha with ⟨_, h⟩ | ⟨_, _, h⟩
    · injection h with h; exact (hout (List.mem_of_getElem? hz)).2 _ h
    · injection h with h; exact (hout (List.mem_of_getElem? hz)).1 _ _ h
  | waiting _ => rcases ha with ⟨_, h⟩ | ⟨_, _, h⟩ <;> cases h
  | reading _ => exact absurd (hno _ (List.mem_of_getElem? hy)) (by simp)
  | writing _ => exact hij (h.excl i j _ _ hx hy (by rw [hxh]; simp) (by simp))

/-! ### Deadlock -/

/-- a method under the read lock that does not take it a second time -/
def Flat (p : Prog σ ρ₀) : Prop := ∀ k, p = .rlock k → ∀ m, ∃ q, InR1 m q k

theorem InR1.bind {m : σ} {q p : Prog σ β} (h : InR1 m q p) (f : β → Prog σ ρ) :
    InR1 m (q.bind f) (p.bind f) := by
  induction h with
  | read _ ih => exact .read ih
  | last => exact .last

/-- readers hold one read lock, and take no other -/
def FlatReaders (g : Cfg κ σ ρ) : Prop :=
  ∀ x ∈ g.th, ∀ p, x.prog = some p → x.rd ≠ 0 → x.rd = 1 ∧ ∃ q, InR1 g.mem q p

theorem FlatReaders.set {m : σ} {th : List (Thread κ σ ρ)} (h : FlatReaders ⟨m, th⟩) {n : Nat} {x : Thread κ σ ρ}
    (hx : ∀ p, x.prog = some p → x.rd ≠ 0 → x.rd = 1 ∧ ∃ q, InR1 m q p) : FlatReaders ⟨m, th.set n x⟩ := by
  intro y hy
  rcases mem_set_cases hy with rfl | ⟨i, _, h2⟩
  · exact hx
  · exact h y (List.mem_of_getElem? h2)

theorem FlatReaders.step {S : κ₀ → Prop} {pk : Prop} {meth : κ₀ → Prog σ ρ₀} {sem : σ → κ₀ → σ × ρ₀}
    (hm : Sections meth sem) (hS : ∀ c, S c → Flat (meth c)) {code : κ → Client κ₀ ρ₀ σ ρ} {g g' : Cfg κ σ ρ}
    {a : ACfg κ κ₀ ρ₀ σ ρ} {e : Option (Ev κ ρ)} (hf : FlatReaders g) (h : Rel meth g a)
    (hu : ∀ y ∈ a.th, ∀ d, y.2 = some d → d.Uses S pk)
    (hs : Step (fun c => (code c).compile meth) g e g') : FlatReaders g' := by
  obtain ⟨am, ath⟩ := a
  cases hs with
  | @inv m th c =>
    intro y hy
    rcases List.mem_append.1 hy with h | h
    · exact hf y h
    · simp only [List.mem_cons, List.not_mem_nil, or_false] at h
      subst h
      intro p _ h2
      exact absurd rfl h2
  | ret hx => exact hf.set (fun p hp _ => nomatch hp)
  | read hx =>
    refine hf.set (fun p hp hr => ?_)
    obtain ⟨h1, q, h2⟩ := hf _ (List.mem_of_getElem? hx) _ rfl hr
    cases hp
    cases h2 with
    | read h2 => exact ⟨h1, q, h2⟩
  | @write m th n c w k rd wr hx =>
    -- nobody reads
    have hno : NoReader th := by
      obtain ⟨y, hy, hT⟩ := h.get hx
      generalize hp : (⟨c, some (.write w k), rd, wr⟩ : Thread κ σ ρ) = x at hT
      cases hT with
      | done => cases hp
      | @out c' d =>
        injection hp with h1 h2 h3 h4
        injection h2 with h2
        rcases compile_cases hm d with ⟨r', rfl⟩ | ⟨k', rfl⟩ | ⟨k', hk⟩ | ⟨k', hk⟩
        · cases h2
        · cases h2
        · rw [hk] at h2; cases h2
        · rw [hk] at h2; cases h2
      | waiting _ => cases hp
      | reading hr => injection hp with _ h2; injection h2 with h2; subst h2; cases hr
      | writing _ =>
        injection hp with h1 h2 h3 h4
        subst h4
        exact h.alone _ (List.mem_of_getElem? hx) rfl
    intro y hy p hp hr
    rcases mem_set_cases hy with rfl | ⟨i, _, h2⟩
    · exact absurd (hno _ (List.mem_of_getElem? hx)) hr
    · exact absurd (hno _ (List.mem_of_getElem? h2)) hr
  | @rlock m th n c k rd wr hx hno =>
    obtain ⟨y, hy, hT⟩ := h.get hx
    generalize hp : (⟨c, some (.rlock k), rd, wr⟩ : Thread κ σ ρ) = x at hT
    cases hT with
    | done => cases hp
    | @out c' d =>
      injection hp with h1 h2 h3 h4
      subst h1 h3
      injection h2 with h2
      refine hf.set (fun p hp _ => ⟨rfl, ?_⟩)
      cases hp
      have huse := hu _ (List.mem_of_getElem? hy) d rfl
      cases d with
      | ret r => cases h2
      | peek f => cases h2
      | call x f =>
        cases huse with
        | call hx' _ =>
          rcases hm x with ⟨k0, h0, _⟩ | ⟨k0, h0, _⟩
          · rw [Client.compile, h0] at h2
            cases h2
            obtain ⟨q, hq⟩ := hS x hx' k0 h0 m
            exact ⟨_, hq.bind _⟩
          · rw [Client.compile, h0] at h2; cases h2
    | waiting _ => cases hp
    | reading hr =>
      injection hp with h1 h2 h3 h4
      injection h2 with h2
      subst h2
      obtain ⟨_, q, h2⟩ := hf _ (List.mem_of_getElem? hx) _ rfl (by rw [h3]; simp)
      cases h2
    | writing hr => injection hp with _ h2; injection h2 with h2; subst h2; cases hr
  | @runlock m th n c k rd wr hx =>
    refine hf.set (fun p hp hr => ?_)
    obtain ⟨h1, _⟩ := hf _ (List.mem_of_getElem? hx) _ rfl (by simp)
    simp only [Nat.reduceEqDiff] at h1
    exact absurd h1 hr
  | wait hx _ =>
    refine hf.set (fun p hp hr => ?_)
    obtain ⟨_, q, h2⟩ := hf _ (List.mem_of_getElem? hx) _ rfl hr
    cases h2
  | lock hx _ =>
    refine hf.set (fun p hp hr => ?_)
    obtain ⟨_, q, h2⟩ := hf _ (List.mem_of_getElem? hx) _ rfl hr
    cases h2
  | unlock hx =>
    refine hf.set (fun p hp hr => ?_)
    obtain ⟨_, q, h2⟩ := hf _ (List.mem_of_getElem? hx) _ rfl hr
    cases h2

/-- without nested read locks, some call in progress can always make a step -/
theorem Rel.moves {meth : κ₀ → Prog σ ρ₀} {sem : σ → κ₀ → σ × ρ₀} (hm : Sections meth sem)
    {code : κ → Prog σ ρ} {g : Cfg κ σ ρ} {a : ACfg κ κ₀ ρ₀ σ ρ} (h : Rel meth g a)
    (hf : FlatReaders g) {n : Nat} (hn : g.Pending n) : Moves code g := by
  obtain ⟨m, th⟩ := g
  obtain ⟨am, ath⟩ := a
  by_cases hheld : ∃ x ∈ th, x.wr = .held
  · obtain ⟨x, hx, hw⟩ := hheld
    obtain ⟨i, hi⟩ := List.getElem?_of_mem hx
    obtain ⟨y, hy, hT⟩ := h.get hi
    cases hT with
    | done => cases hw
    | out => cases hw
    | waiting _ => cases hw
    | reading _ => cases hw
    | writing hp =>
      cases hp with
      | read _ => exact ⟨_, _, .read hi, fun _ _ h => nomatch h⟩
      | write _ => exact ⟨_, _, .write hi, fun _ _ h => nomatch h⟩
      | last => exact ⟨_, _, .unlock hi, fun _ _ h => nomatch h⟩
  · by_cases hrd : ∃ x ∈ th, x.rd ≠ 0
    · obtain ⟨x, hx, hr⟩ := hrd
      obtain ⟨i, hi⟩ := List.getElem?_of_mem hx
      obtain ⟨y, hy, hT⟩ := h.get hi
      cases hT with
      | done => exact absurd rfl hr
      | out => exact absurd rfl hr
      | waiting _ => exact absurd rfl hr
      | reading hp =>
        obtain ⟨_, q, h2⟩ := hf _ hx _ rfl hr
        cases h2 with
        | read _ => exact ⟨_, _, .read hi, fun _ _ h => nomatch h⟩
        | last => exact ⟨_, _, .runlock hi, fun _ _ h => nomatch h⟩
      | writing _ => exact absurd rfl hr
    · have hno : NoReader th := fun x hx => Classical.byContradiction fun h => hrd ⟨x, hx, h⟩
      by_cases hwait : ∃ x ∈ th, x.wr = .waiting
      · obtain ⟨x, hx, hw⟩ := hwait
        obtain ⟨i, hi⟩ := List.getElem?_of_mem hx
        obtain ⟨y, hy, hT⟩ := h.get hi
        cases hT with
        | done => cases hw
        | out => cases hw
        | waiting _ => exact ⟨_, _, .lock hi hno, fun _ _ h => nomatch h⟩
        | reading _ => cases hw
        | writing _ => cases hw
      · have hnw : NoWriter th := by
          intro x hx
          cases hw : x.wr with
          | none => rfl
          | waiting => exact absurd ⟨x, hx, hw⟩ hwait
          | held => exact absurd ⟨x, hx, hw⟩ hheld
        obtain ⟨x, p, hx, hp⟩ := hn
        simp only at hx
        obtain ⟨y, hy, hT⟩ := h.get hx
        cases hT with
        | done => cases hp
        | @out c d =>
          rcases compile_cases hm d with ⟨r', rfl⟩ | ⟨k', rfl⟩ | ⟨k', hk⟩ | ⟨k', hk⟩
          · exact ⟨_, _, .ret hx, fun _ _ h => nomatch h⟩
          · exact ⟨_, _, .read hx, fun _ _ h => nomatch h⟩
          · rw [hk] at hx; exact ⟨_, _, .rlock hx hnw, fun _ _ h => nomatch h⟩
          · rw [hk] at hx; exact ⟨_, _, .wait hx hnw, fun _ _ h => nomatch h⟩
        | waiting _ => exact absurd ⟨_, List.mem_of_getElem? hx, rfl⟩ hwait
        | reading _ => exact absurd (hno _ (List.mem_of_getElem? hx)) (by simp)
        | writing _ => exact absurd ⟨_, List.mem_of_getElem? hx, rfl⟩ hheld

theorem no_race {meth : κ₀ → Prog σ ρ₀} {sem : σ → κ₀ → σ × ρ₀} (hm : Sections meth sem)
    {code : κ → Client κ₀ ρ₀ σ ρ} (hc : ∀ c, (code c).Uses (fun _ => True) False) {m₀ : σ} {g : Cfg κ σ ρ}
    {H : List (Ev κ ρ)} (h : Exec (fun c => (code c).compile meth) m₀ g H) : ¬ Race g := by
  obtain ⟨a, G, h1, h2⟩ := sim hm h
  exact h2.no_race hm (h1.uses hc)

theorem no_deadlock {S : κ₀ → Prop} {pk : Prop} {meth : κ₀ → Prog σ ρ₀} {sem : σ → κ₀ → σ × ρ₀}
    (hm : Sections meth sem) (hS : ∀ c, S c → Flat (meth c)) {code : κ → Client κ₀ ρ₀ σ ρ}
    (hc : ∀ c, (code c).Uses S pk) {m₀ : σ} {g : Cfg κ σ ρ} {H : List (Ev κ ρ)}
    (h : Exec (fun c => (code c).compile meth) m₀ g H) : ¬ Deadlock (fun c => (code c).compile meth) g := by
  rintro ⟨⟨n, hn⟩, hno⟩
  have hinv : ∃ a G, AExec code sem (fun _ _ => True) m₀ a G H ∧ Rel meth g a ∧ FlatReaders g := by
    clear hn hno
    induction h with
    | init => exact ⟨_, _, .init, ⟨rfl, by simp, fun _ => rfl, by simp, by simp⟩, by intro x hx; cases hx⟩
    | step _ hs ih =>
      obtain ⟨a, G, h1, h2, h3⟩ := ih
      have h5 := h3.step hm hS h2 (h1.uses hc) hs
      rcases h2.step hm hs with ⟨x, a', h6, h4, _⟩ | ⟨rfl, h4⟩
      · exact ⟨a', _, .step h1 h6, h4, h5⟩
      · exact ⟨a, G, by simpa using h1, h4, h5⟩
  obtain ⟨a, G, _, h2, h3⟩ := hinv
  exact hno (h2.moves hm h3 hn)

end Verif.Conc
