import Verif.Conc.Sim

/-! Every execution of the atomic system is an execution of the goroutines. -/

namespace Verif.Conc
variable {κ κ₀ σ ρ ρ₀ β : Type}

/-- the configuration in which no call is inside a critical section -/
def quiet (meth : κ₀ → Prog σ ρ₀) (a : ACfg κ κ₀ ρ₀ σ ρ) : Cfg κ σ ρ :=
  ⟨a.mem, a.th.map fun y => ⟨y.1, y.2.map (Client.compile meth), 0, .none⟩⟩

theorem Exec.none {code : κ → Prog σ ρ} {m₀ : σ} {g g' : Cfg κ σ ρ} {H : List (Ev κ ρ)} (h : Exec code m₀ g H)
    (hs : Step code g none g') : Exec code m₀ g' H := by
  have := h.step hs
  simpa using this

theorem Exec.some {code : κ → Prog σ ρ} {m₀ : σ} {g g' : Cfg κ σ ρ} {H : List (Ev κ ρ)} {e : Ev κ ρ}
    (h : Exec code m₀ g H) (hs : Step code g (some e) g') : Exec code m₀ g' (H ++ [e]) := h.step hs

theorem getElem?_set_same {A : Type} {l : List A} {n : Nat} {x y : A} (h : l[n]? = some y) :
    (l.set n x)[n]? = some x := by
  rw [List.getElem?_set_self', h]; rfl

theorem run_InR {code : κ → Prog σ ρ} {m₀ m : σ} {H : List (Ev κ ρ)} {n : Nat} {c : κ} {q p : Prog σ ρ} {rd : Nat}
    (h : InR m q rd p) : ∀ {th : List (Thread κ σ ρ)}, Exec code m₀ ⟨m, th⟩ H → NoWriter th →
      th[n]? = some ⟨c, some p, rd + 1, .none⟩ → Exec code m₀ ⟨m, th.set n ⟨c, some q, 0, .none⟩⟩ H := by
  have hnw : ∀ {th : List (Thread κ σ ρ)} {p : Option (Prog σ ρ)} {rd : Nat}, NoWriter th →
      NoWriter (th.set n ⟨c, p, rd, .none⟩) := by
    intro th p rd h x hx
    rcases mem_set_cases hx with rfl | ⟨i, _, h2⟩
    · rfl
    · exact h x (List.mem_of_getElem? h2)
  induction h with
  | read _ ih =>
    intro th he hw hn
    have := ih (he.none (.read hn)) (hnw hw) (getElem?_set_same hn)
    rwa [List.set_set] at this
  | rlock _ ih =>
    intro th he hw hn
    have := ih (he.none (.rlock hn hw)) (hnw hw) (getElem?_set_same hn)
    rwa [List.set_set] at this
  | runlock _ ih =>
    intro th he hw hn
    have := ih (he.none (.runlock hn)) (hnw hw) (getElem?_set_same hn)
    rwa [List.set_set] at this
  | last =>
    intro th he hw hn
    exact he.none (.runlock hn)

theorem run_InW {code : κ → Prog σ ρ} {m₀ m m' : σ} {H : List (Ev κ ρ)} {n : Nat} {c : κ} {q p : Prog σ ρ}
    (h : InW m' q m p) : ∀ {th : List (Thread κ σ ρ)}, Exec code m₀ ⟨m, th⟩ H →
      th[n]? = some ⟨c, some p, 0, .held⟩ → Exec code m₀ ⟨m', th.set n ⟨c, some q, 0, .none⟩⟩ H := by
  induction h with
  | read _ ih =>
    intro th he hn
    have := ih (he.none (.read hn)) (getElem?_set_same hn)
    rwa [List.set_set] at this
  | write _ ih =>
    intro th he hn
    have := ih (he.none (.write hn)) (getElem?_set_same hn)
    rwa [List.set_set] at this
  | last =>
    intro th he hn
    exact he.none (.unlock hn)

/-- **Existence.** Every execution of the atomic system, in which peeks see the present memory, is
one of the goroutines. -/
theorem realize {meth : κ₀ → Prog σ ρ₀} {sem : σ → κ₀ → σ × ρ₀} (hm : Sections meth sem)
    {code : κ → Client κ₀ ρ₀ σ ρ} {m₀ : σ} {a : ACfg κ κ₀ ρ₀ σ ρ} {G H}
    (h : AExec code sem Eq m₀ a G H) : Exec (fun c => (code c).compile meth) m₀ (quiet meth a) H := by
  induction h with
  | init => exact .init
  | @step a G H _ _ a' _ hs ih =>
    have hget : ∀ {n : Nat} {y}, a.th[n]? = some y →
        (quiet meth a).th[n]? = some ⟨y.1, y.2.map (Client.compile meth), 0, .none⟩ := by
      intro n y hy
      simp [quiet, hy]
    have hnw : NoWriter (quiet meth a).th := by
      intro x hx
      obtain ⟨y, _, rfl⟩ := List.mem_map.1 hx
      rfl
    have hnr : NoReader (quiet meth a).th := by
      intro x hx
      obtain ⟨y, _, rfl⟩ := List.mem_map.1 hx
      rfl
    have hq : ∀ (m : σ) (n : Nat) (c : κ) (o : Option (Client κ₀ ρ₀ σ ρ)), quiet meth ⟨m, a.th.set n (c, o)⟩ =
        ⟨m, (quiet meth a).th.set n ⟨c, o.map (Client.compile meth), 0, .none⟩⟩ := by
      intro m n c o
      simp [quiet, List.map_set]
    cases hs with
    | @inv m th c =>
      have := ih.step (Step.inv (code := fun c => (code c).compile meth) c)
      simpa [quiet] using this
    | @ret m th n c r hn =>
      rw [hq]
      exact ih.some (.ret (hget hn))
    | @peek m th n c k s hn hs =>
      subst hs
      rw [hq]
      simp only [Option.toList_none, List.append_nil]
      exact ih.none (.read (hget hn))
    | @call m th n c x k hn =>
      rw [hq]
      simp only [Option.toList_none, List.append_nil]
      have hn' := hget hn
      simp only [Option.map_some] at hn'
      rcases hm x with ⟨k0, h0, h1⟩ | ⟨k0, h0, h1⟩
      · rw [Client.compile, h0] at hn'
        have e1 := ih.none (.rlock hn' hnw)
        have e2 := run_InR ((h1 m).2.bind (fun r => Client.compile meth (k r))) e1 ?_ (getElem?_set_same hn')
        · rw [List.set_set] at e2
          rw [(h1 m).1]
          exact e2
        · intro y hy
          rcases mem_set_cases hy with rfl | ⟨i, _, h2⟩
          · rfl
          · exact hnw y (List.mem_of_getElem? h2)
      · rw [Client.compile, h0] at hn'
        have e1 := ih.none (.wait hn' hnw)
        have e2 := e1.none (.lock (getElem?_set_same hn') ?_)
        · have e3 := run_InW ((h1 m).bind (fun r => Client.compile meth (k r))) e2
            (getElem?_set_same (getElem?_set_same hn'))
          rw [List.set_set, List.set_set] at e3
          exact e3
        · intro y hy
          rcases mem_set_cases hy with rfl | ⟨i, _, h2⟩
          · rfl
          · exact hnr y (List.mem_of_getElem? h2)

end Verif.Conc
