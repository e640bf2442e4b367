import Verif.Conc.Reads

/-! What a call reads while other calls only change the memory in a given way. -/

namespace Verif.Conc
variable {κ σ ρ β : Type}

/-- `g'` is a moment between `g₁` and `g` while call `n` is in progress; `H` are the events from `g₁` to `g` -/
def Between (code : κ → Prog σ ρ) (g₁ g : Cfg κ σ ρ) (H : List (Ev κ ρ)) (n : Nat) (g' : Cfg κ σ ρ) : Prop :=
  ∃ H' H'', Later code g₁ g' H' ∧ Later code g' g H'' ∧ H' ++ H'' = H ∧ g'.Pending n

theorem Between.step {code : κ → Prog σ ρ} {g₁ g g' g2 : Cfg κ σ ρ} {H : List (Ev κ ρ)} {n : Nat} {e : Option (Ev κ ρ)}
    (h : Between code g₁ g H n g') (hs : Step code g e g2) : Between code g₁ g2 (H ++ e.toList) n g' := by
  obtain ⟨H', H'', h1, h2, rfl, h3⟩ := h
  exact ⟨H', H'' ++ e.toList, h1, .step h2 hs, by simp, h3⟩

theorem Later.exec {code : κ → Prog σ ρ} {m₀ : σ} {g g' : Cfg κ σ ρ} {H H' : List (Ev κ ρ)} (h : Exec code m₀ g H)
    (h' : Later code g g' H') : Exec code m₀ g' (H ++ H') := by
  induction h' with
  | refl => simpa using h
  | step _ hs ih => rw [← List.append_assoc]; exact .step ih hs

theorem Between.during {code : κ → Prog σ ρ} {m₀ : σ} {g₁ g g' : Cfg κ σ ρ} {H H₁ : List (Ev κ ρ)} {n : Nat}
    (h : Between code g₁ g H n g') (h₁ : Exec code m₀ g₁ H₁) : During code m₀ (H₁ ++ H) n g' := by
  obtain ⟨H', H'', h1, h2, rfl, h3⟩ := h
  exact ⟨H₁ ++ H', h1.exec h₁, ⟨H'', by simp⟩, h3⟩

/-- a step, seen from one call -/
theorem step_thread {code : κ → Prog σ ρ} {g g' : Cfg κ σ ρ} {e : Option (Ev κ ρ)} (hs : Step code g e g') {n : Nat}
    {x : Thread κ σ ρ} (hx : g.th[n]? = some x) : ∃ x', g'.th[n]? = some x' ∧
      ((x'.prog = x.prog ∧ ∀ r, e ≠ some (.ret n r)) ∨
       (∃ p p' l, x.prog = some p ∧ x'.prog = some p' ∧ p.Saw l p' ∧ (∀ m ∈ l, m = g.mem) ∧ ∀ r, e ≠ some (.ret n r)) ∨
       (∃ r, x.prog = some (.ret r) ∧ x'.prog = none ∧ e = some (.ret n r))) := by
  have key : ∀ {i : Nat} {y y' : Thread κ σ ρ}, g.th[i]? = some y → (∀ r, e ≠ some (.ret n r)) →
      (∃ p p' l, y.prog = some p ∧ y'.prog = some p' ∧ p.Saw l p' ∧ ∀ m ∈ l, m = g.mem) →
      ∃ x', (g.th.set i y')[n]? = some x' ∧
      ((x'.prog = x.prog ∧ ∀ r, e ≠ some (.ret n r)) ∨
       (∃ p p' l, x.prog = some p ∧ x'.prog = some p' ∧ p.Saw l p' ∧ (∀ m ∈ l, m = g.mem) ∧ ∀ r, e ≠ some (.ret n r)) ∨
       (∃ r, x.prog = some (.ret r) ∧ x'.prog = none ∧ e = some (.ret n r))) := by
    intro i y y' hy he ⟨p, p', l, h1, h2, h3, h4⟩
    by_cases hi : i = n
    · subst hi
      rw [hx] at hy
      cases hy
      exact ⟨y', getElem?_set_same hx, .inr (.inl ⟨p, p', l, h1, h2, h3, h4, he⟩)⟩
    · exact ⟨x, by rw [List.getElem?_set_ne hi]; exact hx, .inl ⟨rfl, he⟩⟩
  cases hs with
  | @inv m th c =>
    exact ⟨x, by rw [List.getElem?_append_left (List.getElem?_eq_some_iff.1 hx).1]; exact hx, .inl ⟨rfl, by simp⟩⟩
  | @ret m th i c r rd wr hy =>
    by_cases hi : i = n
    · subst hi
      simp only at hx
      rw [hx] at hy
      cases hy
      exact ⟨_, getElem?_set_same hx, .inr (.inr ⟨r, rfl, rfl, rfl⟩)⟩
    · refine ⟨x, by rw [List.getElem?_set_ne hi]; exact hx, .inl ⟨rfl, ?_⟩⟩
      intro r' h
      injection h with h
      injection h with h _
      exact hi h
  | read hy => exact key hy (by simp) ⟨_, _, _, rfl, rfl, .read (.refl _), by simp⟩
  | write hy => exact key hy (by simp) ⟨_, _, _, rfl, rfl, .write (.refl _), by simp⟩
  | rlock hy _ => exact key hy (by simp) ⟨_, _, _, rfl, rfl, .rlock (.refl _), by simp⟩
  | runlock hy => exact key hy (by simp) ⟨_, _, _, rfl, rfl, .runlock (.refl _), by simp⟩
  | wait hy _ => exact key hy (by simp) ⟨_, _, _, rfl, rfl, .refl _, by simp⟩
  | lock hy _ => exact key hy (by simp) ⟨_, _, _, rfl, rfl, .lock (.refl _), by simp⟩
  | unlock hy => exact key hy (by simp) ⟨_, _, _, rfl, rfl, .unlock (.refl _), by simp⟩

/-- a step, seen from the memory -/
theorem step_mem {code : κ → Prog σ ρ} {g g' : Cfg κ σ ρ} {e : Option (Ev κ ρ)} (hs : Step code g e g') :
    g'.mem = g.mem ∨ ∃ (i : Nat) (x : Thread κ σ ρ) (w : σ → σ) (k : Prog σ ρ),
      g.th[i]? = some x ∧ x.prog = some (.write w k) ∧ g'.mem = w g.mem := by
  cases hs with
  | write hy => exact .inr ⟨_, _, _, _, hy, rfl, rfl⟩
  | _ => exact .inl rfl

/-- If all overlapping calls make the memory grow, then the call reads what was in the memory at moments when it had
grown from what it was at the start. -/
theorem later_saw {code : κ → Prog σ ρ} {m₀ : σ} {le : σ → σ → Prop} (hr : ∀ a, le a a)
    (ht : ∀ {a b c}, le a b → le b c → le a c) {bad : κ → Prop} (hg : ∀ c, ¬ bad c → Grows le (code c))
    {g₁ : Cfg κ σ ρ} {H₁ : List (Ev κ ρ)} (h₁ : Exec code m₀ g₁ H₁) {n : Nat} {x₁ : Thread κ σ ρ} {p₁ : Prog σ ρ}
    (hx₁ : g₁.th[n]? = some x₁) (hp₁ : x₁.prog = some p₁) {g : Cfg κ σ ρ} {H₂ : List (Ev κ ρ)} (h₂ : Later code g₁ g H₂) :
    ¬ Disturbed bad (H₁ ++ H₂) n → ∃ x, g.th[n]? = some x ∧
      ((∃ p l, x.prog = some p ∧ le g₁.mem g.mem ∧ (∀ r, Ev.ret n r ∉ H₂) ∧ p₁.Saw l p ∧
          ∀ m ∈ l, ∃ g', Between code g₁ g H₂ n g' ∧ le g₁.mem g'.mem ∧ g'.mem = m) ∨
       (x.prog = none ∧ ∀ r, Ev.ret n r ∈ H₂ → ∃ l, p₁.Saw l (.ret r) ∧
          ∀ m ∈ l, ∃ g', Between code g₁ g H₂ n g' ∧ le g₁.mem g'.mem ∧ g'.mem = m)) := by
  induction h₂ with
  | refl => exact fun _ => ⟨x₁, hx₁, .inl ⟨p₁, [], hp₁, hr _, by simp, .refl _, by simp⟩⟩
  | @step g H₂ e g' h2 hs ih =>
    intro hd
    have hE := h2.exec h₁
    have hin : Ev.inv n x₁.call ∈ H₁ ++ H₂ := List.mem_append_left _ (((exec_invs h₁).1 _ _).2 ⟨_, hx₁, rfl⟩)
    have hd0 : ¬ Disturbed bad (H₁ ++ H₂) n := fun h => hd (by
      rw [← List.append_assoc]; exact h.step hE hs hin)
    obtain ⟨x, hx, ih⟩ := ih hd0
    obtain ⟨x', hx', hst⟩ := step_thread hs hx
    refine ⟨x', hx', ?_⟩
    have hmove : ∀ {l : List σ}, (∀ m ∈ l, ∃ g', Between code g₁ g H₂ n g' ∧ le g₁.mem g'.mem ∧ g'.mem = m) →
        ∀ m ∈ l, ∃ g'', Between code g₁ g' (H₂ ++ e.toList) n g'' ∧ le g₁.mem g''.mem ∧ g''.mem = m := by
      intro l hl m hm
      obtain ⟨g'', k1, k2⟩ := hl m hm
      exact ⟨g'', k1.step hs, k2⟩
    rcases ih with ⟨p, l, hp, hle, hno, hsaw, hl⟩ | ⟨hp, hret⟩
    · have hle' : le g₁.mem g'.mem := by
        rcases step_mem hs with h | ⟨i, y, w, k, hy, hyp, hw⟩
        · rw [h]; exact hle
        · have hb : ¬ bad y.call := fun hb => hd0 (disturbed_of_pending hE hx hy (by simp [hp]) (by simp [hyp]) hb)
          have := ((exec_safe_once hr ht (Q := fun _ _ _ => True) hg (fun c hc m => (hg c hc).safe m) hE).1 i y _ hy hyp hb).1
          cases this with
          | write h1 _ => rw [hw]; exact ht hle (h1 _)
      have hno' : (∀ r, e ≠ some (.ret n r)) → ∀ r, Ev.ret n r ∉ H₂ ++ e.toList := by
        intro he r hr
        rcases List.mem_append.1 hr with hr | hr
        · exact hno r hr
        · exact he r (by cases e <;> simp_all)
      rcases hst with ⟨h1, h2⟩ | ⟨q, p', l', h1, h2, h3, h4, h5⟩ | ⟨r, h1, h2, h3⟩
      · exact .inl ⟨p, l, h1.trans hp, hle', hno' h2, hsaw, hmove hl⟩
      · rw [hp] at h1
        cases h1
        refine .inl ⟨p', l ++ l', h2, hle', hno' h5, hsaw.trans h3, ?_⟩
        intro m hm
        rcases List.mem_append.1 hm with hm | hm
        · exact hmove hl m hm
        · exact ⟨g, ⟨H₂, e.toList, ‹Later code g₁ g H₂›, by simpa using Later.refl.step hs, rfl, x, p, hx, hp⟩, hle, (h4 m hm).symm⟩
      · rw [hp] at h1
        cases h1
        refine .inr ⟨h2, fun r' hr' => ?_⟩
        rcases List.mem_append.1 hr' with hr' | hr'
        · exact absurd hr' (hno r')
        · rw [h3] at hr'
          simp only [Option.toList_some, List.mem_singleton, Ev.ret.injEq, true_and] at hr'
          subst hr'
          exact ⟨l, hsaw, hmove hl⟩
    · rcases hst with ⟨h1, h2⟩ | ⟨q, p', l', h1, _⟩ | ⟨r, h1, _⟩
      · refine .inr ⟨h1.trans hp, fun r hr => ?_⟩
        rcases List.mem_append.1 hr with hr | hr
        · obtain ⟨l, k1, k2⟩ := hret r hr
          exact ⟨l, k1, hmove k2⟩
        · exact absurd (by cases e <;> simp_all) (h2 r)
      · rw [hp] at h1; cases h1
      · rw [hp] at h1; cases h1

/-- the program `p` becomes `q` by steps in which it reads memories with `P` -/
def Prog.SawP (P : σ → Prop) (p q : Prog σ β) : Prop := ∃ l, p.Saw l q ∧ ∀ m ∈ l, P m

theorem Prog.SawP.read {P : σ → Prop} {k : σ → Prog σ β} {r : β} (h : Prog.SawP P (.read k) (.ret r)) :
    ∃ m, P m ∧ Prog.SawP P (k m) (.ret r) := by
  obtain ⟨l, h1, h2⟩ := h
  cases h1 with
  | read h => exact ⟨_, h2 _ (List.mem_cons_self ..), _, h, fun m hm => h2 m (List.mem_cons_of_mem _ hm)⟩

theorem Prog.SawP.rlock {P : σ → Prop} {k : Prog σ β} {r : β} (h : Prog.SawP P (.rlock k) (.ret r)) :
    Prog.SawP P k (.ret r) := by
  obtain ⟨l, h1, h2⟩ := h
  cases h1 with
  | rlock h => exact ⟨_, h, h2⟩

theorem Prog.SawP.runlock {P : σ → Prop} {k : Prog σ β} {r : β} (h : Prog.SawP P (.runlock k) (.ret r)) :
    Prog.SawP P k (.ret r) := by
  obtain ⟨l, h1, h2⟩ := h
  cases h1 with
  | runlock h => exact ⟨_, h, h2⟩

theorem Prog.SawP.ret {P : σ → Prop} {r r' : β} (h : Prog.SawP P (.ret r' : Prog σ β) (.ret r)) : r = r' := by
  obtain ⟨l, h1, h2⟩ := h
  cases h1
  rfl

end Verif.Conc
