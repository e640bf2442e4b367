import Verif.Conc.Trace

/-! Properties of the shared memory that hold at every moment, also for the accesses without lock. -/

namespace Verif.Conc

section
variable {κ σ ρ β : Type}

/-- as long as its reads see memories with `J`, the writes of the program keep `J` -/
inductive Keeps (J : σ → Prop) : Prog σ β → Prop
  | ret (r) : Keeps J (.ret r)
  | read {k} : (∀ s, J s → Keeps J (k s)) → Keeps J (.read k)
  | write {w k} : (∀ m, J m → J (w m)) → Keeps J k → Keeps J (.write w k)
  | rlock {k} : Keeps J k → Keeps J (.rlock k)
  | runlock {k} : Keeps J k → Keeps J (.runlock k)
  | lock {k} : Keeps J k → Keeps J (.lock k)
  | unlock {k} : Keeps J k → Keeps J (.unlock k)

theorem Keeps.bind {J : σ → Prop} {p : Prog σ β} (h : Keeps J p) {f : β → Prog σ ρ} (hf : ∀ x, Keeps J (f x)) :
    Keeps J (p.bind f) := by
  induction h with
  | ret r => exact hf r
  | read _ ih => exact .read ih
  | write h1 _ ih => exact .write h1 ih
  | rlock _ ih => exact .rlock ih
  | runlock _ ih => exact .runlock ih
  | lock _ ih => exact .lock ih
  | unlock _ ih => exact .unlock ih

theorem exec_holds {J : σ → Prop} {code : κ → Prog σ ρ} {m₀ : σ} {g : Cfg κ σ ρ} {H} (h : Exec code m₀ g H) (hJ : J m₀) :
    (∀ n c, Ev.inv n c ∈ H → Keeps J (code c)) → J g.mem ∧ ∀ x ∈ g.th, ∀ p, x.prog = some p → Keeps J p := by
  induction h with
  | init => exact fun _ => ⟨hJ, by simp⟩
  | @step g H e g' _ hs ih =>
    intro hc
    obtain ⟨h1, h2⟩ := ih fun n c hn => hc n c (List.mem_append_left _ hn)
    have hset : ∀ {th : List (Thread κ σ ρ)} {n : Nat} {x : Thread κ σ ρ}, (∀ y ∈ th, ∀ p, y.prog = some p → Keeps J p) →
        (∀ p, x.prog = some p → Keeps J p) → ∀ y ∈ th.set n x, ∀ p, y.prog = some p → Keeps J p := by
      intro th n x h hx y hy
      rcases List.mem_or_eq_of_mem_set hy with hy | rfl
      · exact h y hy
      · exact hx
    have hat : ∀ {th : List (Thread κ σ ρ)} {n : Nat} {x : Thread κ σ ρ} {p : Prog σ ρ}, (∀ y ∈ th, ∀ p, y.prog = some p → Keeps J p) →
        th[n]? = some x → x.prog = some p → Keeps J p := fun h hn hp => h _ (List.mem_of_getElem? hn) _ hp
    cases hs with
    | @inv m th c =>
      refine ⟨h1, fun x hx p hp => ?_⟩
      rcases List.mem_append.1 hx with hx | hx
      · exact h2 x hx p hp
      · rw [List.mem_singleton.1 hx] at hp
        cases hp
        exact hc th.length c (by simp)
    | ret hn => exact ⟨h1, hset h2 (by rintro p ⟨⟩)⟩
    | read hn =>
      cases hat h2 hn rfl with
      | read h => exact ⟨h1, hset h2 (by rintro p ⟨⟩; exact h _ h1)⟩
    | write hn =>
      cases hat h2 hn rfl with
      | write h h' => exact ⟨h _ h1, hset h2 (by rintro p ⟨⟩; exact h')⟩
    | rlock hn _ =>
      cases hat h2 hn rfl with
      | rlock h => exact ⟨h1, hset h2 (by rintro p ⟨⟩; exact h)⟩
    | runlock hn =>
      cases hat h2 hn rfl with
      | runlock h => exact ⟨h1, hset h2 (by rintro p ⟨⟩; exact h)⟩
    | wait hn _ => exact ⟨h1, hset h2 (by rintro p ⟨⟩; exact hat h2 hn rfl)⟩
    | lock hn _ =>
      cases hat h2 hn rfl with
      | lock h => exact ⟨h1, hset h2 (by rintro p ⟨⟩; exact h)⟩
    | unlock hn =>
      cases hat h2 hn rfl with
      | unlock h => exact ⟨h1, hset h2 (by rintro p ⟨⟩; exact h)⟩

end

section
variable {κ κ₀ σ ρ ρ₀ : Type}

/-- the sections of a client, if it reads only memories with the property `J` -/
inductive Client.Within (J : σ → Prop) (S : κ₀ → Prop) : Client κ₀ ρ₀ σ ρ → Prop
  | ret (r) : Within J S (.ret r)
  | call {c k} : S c → (∀ r, Within J S (k r)) → Within J S (.call c k)
  | peek {k} : (∀ s, J s → Within J S (k s)) → Within J S (.peek k)

theorem Client.Within.keeps {J : σ → Prop} {S : κ₀ → Prop} {meth : κ₀ → Prog σ ρ₀} (hS : ∀ x, S x → Keeps J (meth x))
    {d : Client κ₀ ρ₀ σ ρ} (h : d.Within J S) : Keeps J (d.compile meth) := by
  induction h with
  | ret r => exact .ret r
  | call h1 _ ih => exact (hS _ h1).bind ih
  | peek _ ih => exact .read ih

/-- the sections of an execution whose accesses without lock see memories with the property `J` -/
theorem AExec.within {J : σ → Prop} {S : κ → κ₀ → Prop} {code : κ → Client κ₀ ρ₀ σ ρ} {sem : σ → κ₀ → σ × ρ₀} {m₀ : σ}
    {a : ACfg κ κ₀ ρ₀ σ ρ} {G H} (h : AExec code sem (fun _ s => J s) m₀ a G H) :
    (∀ n c, Ev.inv n c ∈ H → (code c).Within J (S c)) →
    (∀ y ∈ a.th, ∀ d, y.2 = some d → d.Within J (S y.1)) ∧ ∀ x ∈ G, ∃ c, Ev.inv x.1 c ∈ H ∧ S c x.2.1 := by
  induction h with
  | init => exact fun _ => ⟨by simp, by simp⟩
  | @step g G H x e g' h0 hs ih =>
    intro hc
    obtain ⟨h1, h2⟩ := ih fun n c hn => hc n c (List.mem_append_left _ hn)
    have hF := h0.facts
    have h2' : ∀ x ∈ G, ∃ c, Ev.inv x.1 c ∈ H ++ e.toList ∧ S c x.2.1 := fun x hx =>
      (h2 x hx).imp fun c h => ⟨List.mem_append_left _ h.1, h.2⟩
    have hset : ∀ {th : List (κ × Option (Client κ₀ ρ₀ σ ρ))} {n : Nat} {x : κ × Option (Client κ₀ ρ₀ σ ρ)},
        (∀ y ∈ th, ∀ d, y.2 = some d → d.Within J (S y.1)) → (∀ d, x.2 = some d → d.Within J (S x.1)) →
        ∀ y ∈ th.set n x, ∀ d, y.2 = some d → d.Within J (S y.1) := by
      intro th n x h hx y hy
      rcases List.mem_or_eq_of_mem_set hy with hy | rfl
      · exact h y hy
      · exact hx
    cases hs with
    | @inv m th c =>
      refine ⟨fun y hy d hd => ?_, by simpa using h2'⟩
      rcases List.mem_append.1 hy with hy | hy
      · exact h1 y hy d hd
      · rw [List.mem_singleton.1 hy] at hd ⊢
        cases hd
        exact hc th.length c (by simp)
    | ret hn => exact ⟨hset h1 (by rintro d ⟨⟩), by simpa using h2'⟩
    | @call m th n c x k hn =>
      have hw := h1 _ (List.mem_of_getElem? hn) _ rfl
      cases hw with
      | call k1 k2 =>
        refine ⟨hset h1 (by rintro d ⟨⟩; exact k2 _), ?_⟩
        intro x hx
        rcases List.mem_append.1 hx with hx | hx
        · exact h2' x hx
        · simp only [Option.toList_some, List.mem_singleton] at hx
          rw [hx]
          exact ⟨c, List.mem_append_left _ ((hF.inv n c).2 ⟨_, hn⟩), k1⟩
    | peek hn hsee =>
      have hw := h1 _ (List.mem_of_getElem? hn) _ rfl
      cases hw with
      | peek k1 => exact ⟨hset h1 (by rintro d ⟨⟩; exact k1 _ hsee), by simpa using h2'⟩

/-- the simulation, with a property of the memory that always holds -/
theorem sim_keeps {J : σ → Prop} {meth : κ₀ → Prog σ ρ₀} {sem : σ → κ₀ → σ × ρ₀} (hm : Sections meth sem)
    {code : κ → Client κ₀ ρ₀ σ ρ} {m₀ : σ} {g : Cfg κ σ ρ} {H : List (Ev κ ρ)}
    (h : Exec (fun c => (code c).compile meth) m₀ g H) (hJ : J m₀) :
    (∀ n c, Ev.inv n c ∈ H → Keeps J ((code c).compile meth)) →
    ∃ a G, AExec code sem (fun _ s => J s) m₀ a G H ∧ Rel meth g a := by
  induction h with
  | init => exact fun _ => ⟨_, _, .init, rfl, by simp, fun _ => rfl, by simp, by simp⟩
  | @step g H e g1 h0 hs ih =>
    intro hc
    have hc0 : ∀ n c, Ev.inv n c ∈ H → Keeps J ((code c).compile meth) := fun n c hn => hc n c (List.mem_append_left _ hn)
    obtain ⟨a, G, h1, h2⟩ := ih hc0
    have hmem := (exec_holds h0 hJ hc0).1
    rcases h2.step hm hs with ⟨x, a', h3, h4, _, h5⟩ | ⟨rfl, h4⟩
    · have h6 : AStep code sem (fun _ s => J s) a x e a' := by
        by_cases hxe : x = none ∧ e = none
        · obtain ⟨rfl, rfl⟩ := hxe
          obtain ⟨n, c, k, hn, rfl, _⟩ := h5 rfl rfl
          obtain ⟨am, ath⟩ := a
          exact .peek hn hmem
        · cases h3 with
          | inv c => exact .inv c
          | ret hn => exact .ret hn
          | call hn => exact .call hn
          | peek _ _ => exact absurd ⟨rfl, rfl⟩ hxe
      exact ⟨a', _, .step h1 h6, h4⟩
    · exact ⟨a, G, by simpa using h1, h4⟩

end

end Verif.Conc
