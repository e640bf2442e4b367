import Verif.Conc.Term

/-!
Bounds for the number of steps of loops that read what others change. The number of rounds that the model allows for such a
loop plays no role in the bound, so a model that allows more rounds never uses them up.
-/

namespace Verif.Conc
variable {κ κ₀ σ ρ ρ₀ : Type}

/-! ### Specification -/

/-- executions with their number of steps -/
inductive ExecN (code : κ → Prog σ ρ) (m₀ : σ) : Nat → Cfg κ σ ρ → List (Ev κ ρ) → Prop
  | init : ExecN code m₀ 0 ⟨m₀, []⟩ []
  | step {k g H e g'} : ExecN code m₀ k g H → Step code g e g' → ExecN code m₀ (k + 1) g' (H ++ e.toList)

/-- a number of steps of calls in progress -/
inductive OwnsN (code : κ → Prog σ ρ) (g : Cfg κ σ ρ) : Nat → Cfg κ σ ρ → Prop
  | refl : OwnsN code g 0 g
  | step {j g' g''} : OwnsN code g j g' → Own code g' g'' → OwnsN code g (j + 1) g''

theorem ExecN.exec {code : κ → Prog σ ρ} {m₀ : σ} {k : Nat} {g : Cfg κ σ ρ} {H} (h : ExecN code m₀ k g H) : Exec code m₀ g H := by
  induction h with
  | init => exact .init
  | step _ hs ih => exact ih.step hs

theorem Exec.execN {code : κ → Prog σ ρ} {m₀ : σ} {g : Cfg κ σ ρ} {H} (h : Exec code m₀ g H) : ∃ k, ExecN code m₀ k g H := by
  induction h with
  | init => exact ⟨_, .init⟩
  | step _ hs ih => obtain ⟨k, ih⟩ := ih; exact ⟨_, ih.step hs⟩

theorem Owns.ownsN {code : κ → Prog σ ρ} {g g' : Cfg κ σ ρ} (h : Owns code g g') : ∃ j, OwnsN code g j g' := by
  induction h with
  | refl => exact ⟨_, .refl⟩
  | step _ hs ih => obtain ⟨k, ih⟩ := ih; exact ⟨_, ih.step hs⟩

theorem OwnsN.head {code : κ → Prog σ ρ} {g g' : Cfg κ σ ρ} {j : Nat} (h : OwnsN code g (j + 1) g') :
    ∃ g1, Own code g g1 ∧ OwnsN code g1 j g' := by
  induction j generalizing g' with
  | zero =>
    cases h with
    | step h1 h2 => cases h1; exact ⟨_, h2, .refl⟩
  | succ j ih =>
    cases h with
    | step h1 h2 =>
      obtain ⟨g1, h3, h4⟩ := ih h1
      exact ⟨g1, h3, h4.step h2⟩

/-! ### Programs -/

/-- steps that a program can make until it has written, if nobody else changes the memory `m` -/
def cost (m : σ) : Prog σ ρ → Nat
  | .ret _ => 1
  | .read k => cost m (k m) + 1
  | .write _ _ => 1
  | .rlock k => cost m k + 1
  | .runlock k => cost m k + 1
  | .lock k => cost m k + 2
  | .unlock k => cost m k + 1

/-- After `c` steps, and for any memories in `J` met on the way: the program writes at most `w` times, the writes keep the
memory in `J`, and at any time its cost is below `β` of the number of steps. -/
def Bd (J : σ → Prop) (β : Nat → Nat) : Prog σ ρ → Nat → Nat → Prop
  | .ret _, _, c => 1 ≤ β c
  | .read k, w, c => (∀ m, J m → cost m (k m) + 1 ≤ β c) ∧ ∀ m, J m → Bd J β (k m) w (c + 1)
  | .write u k, w, c => 1 ≤ β c ∧ ∃ w', w = w' + 1 ∧ (∀ m, J m → J (u m)) ∧ Bd J β k w' (c + 1)
  | .rlock k, w, c => (∀ m, J m → cost m k + 1 ≤ β c) ∧ Bd J β k w (c + 1)
  | .runlock k, w, c => (∀ m, J m → cost m k + 1 ≤ β c) ∧ Bd J β k w (c + 1)
  | .lock k, w, c => (∀ m, J m → cost m k + 2 ≤ β c) ∧ Bd J β k w (c + 1)
  | .unlock k, w, c => (∀ m, J m → cost m k + 1 ≤ β c) ∧ Bd J β k w (c + 1)

/-- the program returns no `bad` reply in the first `n` steps -/
def Far (bad : ρ → Prop) : Prog σ ρ → Nat → Prop
  | .ret r, n => bad r → n = 0
  | .read k, n => n = 0 ∨ ∀ m, Far bad (k m) (n - 1)
  | .write _ k, n => n = 0 ∨ Far bad k (n - 1)
  | .rlock k, n => n = 0 ∨ Far bad k (n - 1)
  | .runlock k, n => n = 0 ∨ Far bad k (n - 1)
  | .lock k, n => n = 0 ∨ Far bad k (n - 1)
  | .unlock k, n => n = 0 ∨ Far bad k (n - 1)

variable {J : σ → Prop} {β : Nat → Nat} {bad : ρ → Prop}

theorem Bd.cost {p : Prog σ ρ} {w c : Nat} (h : Bd J β p w c) {m : σ} (hm : J m) : cost m p ≤ β c := by
  cases p with
  | ret => exact h
  | write => exact h.1
  | _ => exact h.1 m hm

theorem Bd.mono (hβ : ∀ a b, a ≤ b → β a ≤ β b) {p : Prog σ ρ} : ∀ {w w' c c' : Nat}, Bd J β p w c → w ≤ w' → c ≤ c' →
    Bd J β p w' c' := by
  induction p with
  | ret => exact fun h _ hc => Nat.le_trans h (hβ _ _ hc)
  | read k ih =>
    exact fun h hw hc => ⟨fun m hm => Nat.le_trans (h.1 m hm) (hβ _ _ hc), fun m hm => ih m (h.2 m hm) hw (by omega)⟩
  | write u k ih =>
    rintro w w' c c' ⟨h1, w0, rfl, h2, h3⟩ hw hc
    exact ⟨Nat.le_trans h1 (hβ _ _ hc), w' - 1, by omega, h2, ih h3 (by omega) (by omega)⟩
  | rlock k ih | runlock k ih | lock k ih | unlock k ih =>
    exact fun h hw hc => ⟨fun m hm => Nat.le_trans (h.1 m hm) (hβ _ _ hc), ih h.2 hw (by omega)⟩

theorem Far.zero (p : Prog σ ρ) : Far bad p 0 := by
  cases p with
  | ret => exact fun _ => rfl
  | _ => exact .inl rfl

theorem Far.mono {p : Prog σ ρ} : ∀ {n n' : Nat}, Far bad p n → n' ≤ n → Far bad p n' := by
  induction p with
  | ret => intro n n' h hn hb; have := h hb; omega
  | read k ih => exact fun h hn => h.elim (fun h => .inl (by omega)) fun h => .inr fun m => ih m (h m) (by omega)
  | write _ k ih | rlock k ih | runlock k ih | lock k ih | unlock k ih =>
    exact fun h hn => h.elim (fun h => .inl (by omega)) fun h => .inr (ih h (by omega))

theorem Far.bind {A : Type} {f : A → Prog σ ρ} {p : Prog σ A} : ∀ {n : Nat}, (∀ a, Far bad (f a) n) → Far bad (p.bind f) n := by
  induction p with
  | ret a => exact fun h => h a
  | read k ih => exact fun h => .inr fun m => ih m fun a => (h a).mono (by omega)
  | write _ k ih | rlock k ih | runlock k ih | lock k ih | unlock k ih => exact fun h => .inr (ih fun a => (h a).mono (by omega))

/-! ### Threads -/

/-- the cost of a thread -/
def tcost (m : σ) (x : Thread κ σ ρ) : Nat :=
  match x.prog with
  | none => 0
  | some (.lock k) => cost m k + (if x.wr = .waiting then 1 else 2)
  | some p => cost m p

theorem tcost_le {m : σ} {x : Thread κ σ ρ} {p : Prog σ ρ} (h : x.prog = some p) : tcost m x ≤ cost m p := by
  obtain ⟨c, q, rd, wr⟩ := x
  cases h
  cases p with
  | lock k => simp only [tcost, cost]; split <;> omega
  | _ => exact Nat.le_refl _

theorem cost_pos (m : σ) (p : Prog σ ρ) : 0 < cost m p := by cases p <;> simp [cost]

theorem sum_set {l : List Nat} {n a b : Nat} (h : l[n]? = some a) : (l.set n b).sum + a = l.sum + b := by
  induction l generalizing n with
  | nil => cases h
  | cons x l ih =>
    cases n with
    | zero => cases h; simp only [List.set_cons_zero, List.sum_cons]; omega
    | succ n => have := ih (by simpa using h); simp only [List.set_cons_succ, List.sum_cons]; omega

theorem sum_le {A : Type} {f : A → Nat} {b : Nat} {l : List A} (h : ∀ x ∈ l, f x ≤ b) : (l.map f).sum ≤ l.length * b := by
  induction l with
  | nil => simp
  | cons x l ih =>
    have h1 := h x (by simp)
    have h2 := ih fun y hy => h y (by simp [hy])
    simp only [List.map_cons, List.sum_cons, List.length_cons, Nat.add_mul, Nat.one_mul]
    omega

/-- the cost of all threads -/
def pot (g : Cfg κ σ ρ) : Nat := (g.th.map (tcost g.mem)).sum

/-- what holds after `c` steps, if `w` writes and `f` steps without `bad` reply remain -/
structure Within (J : σ → Prop) (β : Nat → Nat) (bad : ρ → Prop) (g : Cfg κ σ ρ) (c w f : Nat) : Prop where
  mem : J g.mem
  bd : ∃ ws : List Nat, ws.length = g.th.length ∧ ws.sum ≤ w ∧
    ∀ (i : Nat) x p v, g.th[i]? = some x → x.prog = some p → ws[i]? = some v → Bd J β p v c
  far : ∀ (x : Thread κ σ ρ) p, x ∈ g.th → x.prog = some p → Far bad p f

theorem Within.pot_le {g : Cfg κ σ ρ} {c w f : Nat} (h : Within J β bad g c w f) : pot g ≤ g.th.length * β c := by
  refine sum_le fun x hx => ?_
  cases hp : x.prog with
  | none => simp [tcost, hp]
  | some p =>
    obtain ⟨ws, h1, _, h3⟩ := h.bd
    obtain ⟨i, hi⟩ := List.mem_iff_getElem?.1 hx
    have hl : i < ws.length := h1 ▸ (List.getElem?_eq_some_iff.1 hi).1
    exact Nat.le_trans (tcost_le hp) ((h3 i x p _ hi hp (List.getElem?_eq_getElem hl)).cost h.mem)

/-- one thread goes on -/
theorem Within.set (hβ : ∀ a b, a ≤ b → β a ≤ β b) {m m' : σ} {th : List (Thread κ σ ρ)} {n c w w' f d : Nat}
    {x x' : Thread κ σ ρ} {p : Prog σ ρ} (h : Within J β bad ⟨m, th⟩ c w f) (hn : th[n]? = some x) (hp : x.prog = some p)
    (hm : J m') (hw : w' + d = w)
    (hb : ∀ v, Bd J β p v c → ∃ v', v = v' + d ∧ ∀ q, x'.prog = some q → Bd J β q v' (c + 1))
    (hf : Far bad p f → ∀ q, x'.prog = some q → Far bad q (f - 1)) :
    Within J β bad ⟨m', th.set n x'⟩ (c + 1) w' (f - 1) := by
  obtain ⟨ws, h1, h2, h3⟩ := h.bd
  have hlt := (List.getElem?_eq_some_iff.1 hn).1
  have hl : n < ws.length := h1 ▸ hlt
  obtain ⟨v', hv, hb⟩ := hb _ (h3 n x p _ hn hp (List.getElem?_eq_getElem hl))
  refine ⟨hm, ⟨ws.set n v', by simpa using h1, ?_, ?_⟩, ?_⟩
  · have := sum_set (b := v') (List.getElem?_eq_getElem hl)
    omega
  · intro i y q v hi hq hv'
    simp only at hi
    by_cases hin : n = i
    · subst hin
      rw [List.getElem?_set_self hlt] at hi
      rw [List.getElem?_set_self hl] at hv'
      cases hi
      cases hv'
      exact hb q hq
    · rw [List.getElem?_set_ne hin] at hi hv'
      exact (h3 i y q v hi hq hv').mono hβ (Nat.le_refl _) (by omega)
  · intro y q hy hq
    rcases List.mem_or_eq_of_mem_set hy with hy | rfl
    · exact (h.far y q hy hq).mono (by omega)
    · exact hf (h.far x p (List.mem_of_getElem? hn) hp) q hq

theorem pot_set {m : σ} {th : List (Thread κ σ ρ)} {n : Nat} {x x' : Thread κ σ ρ} (hn : th[n]? = some x)
    (ht : tcost m x' < tcost m x) : pot ⟨m, th.set n x'⟩ < pot ⟨m, th⟩ := by
  have := sum_set (l := th.map (tcost m)) (b := tcost m x') (by rw [List.getElem?_map, hn]; rfl)
  simp only [pot, List.map_set]
  omega

/-- a step of a call in progress lowers the potential or the number of writes -/
theorem Within.own (hβ : ∀ a b, a ≤ b → β a ≤ β b) {code : κ → Prog σ ρ} {g g' : Cfg κ σ ρ} {c w f : Nat}
    (h : Within J β bad g c w f) (hs : Own code g g') : g'.th.length = g.th.length ∧
      ((Within J β bad g' (c + 1) w (f - 1) ∧ pot g' < pot g) ∨ ∃ w', w = w' + 1 ∧ Within J β bad g' (c + 1) w' (f - 1)) := by
  obtain ⟨e, hs, he⟩ := hs
  cases hs with
  | inv c => exact absurd rfl (he _ _)
  | ret hn =>
    refine ⟨by simp, .inl ⟨h.set hβ hn rfl h.mem (d := 0) rfl (fun v _ => ⟨v, rfl, by rintro q ⟨⟩⟩) (by rintro _ q ⟨⟩), ?_⟩⟩
    exact pot_set hn (by simp [tcost, cost])
  | @read m th n _ k rd wr hn =>
    refine ⟨by simp, .inl ⟨h.set hβ hn rfl h.mem (d := 0) rfl ?_ ?_, ?_⟩⟩
    · rintro v hb
      refine ⟨v, rfl, ?_⟩
      rintro q ⟨⟩
      exact hb.2 m h.mem
    · rintro hf q ⟨⟩
      rcases hf with rfl | hf
      · exact .zero _
      · exact hf m
    · refine pot_set hn (Nat.lt_of_le_of_lt (tcost_le rfl) ?_)
      simp [tcost, cost]
  | @write m th n _ u k rd wr hn =>
    refine ⟨by simp, .inr ?_⟩
    have hw : ∃ w', w = w' + 1 ∧ ∀ m, J m → J (u m) := by
      obtain ⟨ws, h1, h2, h3⟩ := h.bd
      have hl : n < ws.length := h1 ▸ (List.getElem?_eq_some_iff.1 hn).1
      obtain ⟨_, v, hv, h4, _⟩ := h3 n _ _ _ hn rfl (List.getElem?_eq_getElem hl)
      have := sum_set (b := 0) (List.getElem?_eq_getElem hl)
      exact ⟨w - 1, by omega, h4⟩
    obtain ⟨w', hw, hJ⟩ := hw
    refine ⟨w', hw, h.set hβ hn rfl (hJ _ h.mem) (d := 1) hw.symm ?_ ?_⟩
    · rintro v ⟨_, v', hv, _, hb⟩
      refine ⟨v', hv, ?_⟩
      rintro q ⟨⟩
      exact hb
    · rintro hf q ⟨⟩
      rcases hf with rfl | hf
      · exact .zero _
      · exact hf
  | rlock hn _ | runlock hn | unlock hn =>
    refine ⟨by simp, .inl ⟨h.set hβ hn rfl h.mem (d := 0) rfl ?_ ?_, ?_⟩⟩
    · rintro v hb
      refine ⟨v, rfl, ?_⟩
      rintro q ⟨⟩
      exact hb.2
    · rintro hf q ⟨⟩
      rcases hf with rfl | hf
      · exact .zero _
      · exact hf
    · refine pot_set hn (Nat.lt_of_le_of_lt (tcost_le rfl) ?_)
      simp [tcost, cost]
  | wait hn _ =>
    refine ⟨by simp, .inl ⟨h.set hβ hn rfl h.mem (d := 0) rfl ?_ ?_, ?_⟩⟩
    · rintro v hb
      refine ⟨v, rfl, ?_⟩
      rintro q ⟨⟩
      exact hb.mono hβ (Nat.le_refl _) (by omega)
    · rintro hf q ⟨⟩
      exact Far.mono hf (by omega)
    · exact pot_set hn (by simp [tcost])
  | lock hn _ =>
    refine ⟨by simp, .inl ⟨h.set hβ hn rfl h.mem (d := 0) rfl ?_ ?_, ?_⟩⟩
    · rintro v hb
      refine ⟨v, rfl, ?_⟩
      rintro q ⟨⟩
      exact hb.2
    · rintro hf q ⟨⟩
      rcases hf with rfl | hf
      · exact .zero _
      · exact hf
    · refine pot_set hn (Nat.lt_of_le_of_lt (tcost_le rfl) ?_)
      simp [tcost]

/-! ### The bound -/

/-- the number of steps of `n` threads that is possible after `c` steps with `w` writes and the potential `φ` -/
def stepsB (β : Nat → Nat) (n : Nat) : Nat → Nat → Nat → Nat
  | _, _, 0 => 0
  | 0, c, φ + 1 => 1 + stepsB β n 0 (c + 1) φ
  | w + 1, c, φ + 1 => 1 + max (stepsB β n (w + 1) (c + 1) φ) (stepsB β n w (c + 1) (n * β (c + 1)))
  termination_by w _ φ => (w, φ)

theorem pot_pos {code : κ → Prog σ ρ} {g g' : Cfg κ σ ρ} (hs : Own code g g') : 0 < pot g := by
  have key : ∀ {n : Nat} {x : Thread κ σ ρ} {p}, g.th[n]? = some x → x.prog = some p → 0 < pot g := by
    intro n x p hn hp
    have h1 : tcost g.mem x ≤ pot g := by
      have := sum_set (l := g.th.map (tcost g.mem)) (b := 0) (n := n) (by rw [List.getElem?_map, hn]; rfl)
      unfold pot
      omega
    have h2 : 0 < tcost g.mem x := by
      obtain ⟨c, q, rd, wr⟩ := x
      cases hp
      cases p with
      | lock k => have := cost_pos g.mem k; simp only [tcost]; omega
      | _ => exact cost_pos g.mem _
    omega
  obtain ⟨e, hs, he⟩ := hs
  cases hs with
  | inv c => exact absurd rfl (he _ _)
  | ret hn | read hn | write hn | rlock hn | runlock hn | wait hn | lock hn | unlock hn => exact key hn rfl

theorem Within.ends (hβ : ∀ a b, a ≤ b → β a ≤ β b) {code : κ → Prog σ ρ} {n : Nat} : ∀ (w φ c f : Nat) {g g' : Cfg κ σ ρ} {j : Nat},
    Within J β bad g c w f → pot g ≤ φ → g.th.length ≤ n → OwnsN code g j g' → j ≤ stepsB β n w c φ := by
  intro w
  induction w with
  | zero =>
    intro φ
    induction φ with
    | zero =>
      intro c f g g' j h hp hn ho
      cases j with
      | zero => exact Nat.zero_le _
      | succ j =>
        obtain ⟨g1, h1, _⟩ := ho.head
        have := pot_pos h1
        omega
    | succ φ ih =>
      intro c f g g' j h hp hn ho
      cases j with
      | zero => exact Nat.zero_le _
      | succ j =>
        obtain ⟨g1, h1, h2⟩ := ho.head
        obtain ⟨hl, ⟨h3, h4⟩ | ⟨w', hw, _⟩⟩ := h.own hβ h1
        · have := ih (c + 1) (f - 1) h3 (by omega) (by omega) h2
          simp only [stepsB]
          omega
        · cases hw
  | succ w ihw =>
    intro φ
    induction φ with
    | zero =>
      intro c f g g' j h hp hn ho
      cases j with
      | zero => exact Nat.zero_le _
      | succ j =>
        obtain ⟨g1, h1, _⟩ := ho.head
        have := pot_pos h1
        omega
    | succ φ ih =>
      intro c f g g' j h hp hn ho
      cases j with
      | zero => exact Nat.zero_le _
      | succ j =>
        obtain ⟨g1, h1, h2⟩ := ho.head
        obtain ⟨hl, ⟨h3, h4⟩ | ⟨w', hw, h3⟩⟩ := h.own hβ h1
        · have := ih (c + 1) (f - 1) h3 (by omega) (by omega) h2
          simp only [stepsB]
          omega
        · cases hw
          have h5 : pot g1 ≤ n * β (c + 1) := Nat.le_trans h3.pot_le (Nat.mul_le_mul_right _ (by omega))
          have := ihw _ (c + 1) (f - 1) h3 h5 (by omega) h2
          simp only [stepsB]
          omega

theorem Within.owns (hβ : ∀ a b, a ≤ b → β a ≤ β b) {code : κ → Prog σ ρ} {g g' : Cfg κ σ ρ} {j c w f : Nat}
    (h : Within J β bad g c w f) (ho : OwnsN code g j g') : ∃ w', Within J β bad g' (c + j) w' (f - j) := by
  induction ho with
  | refl => exact ⟨w, h⟩
  | @step j g1 g2 _ hs ih =>
    obtain ⟨w1, h1⟩ := ih
    have : f - (j + 1) = f - j - 1 := by omega
    rw [this, show c + (j + 1) = c + j + 1 by omega]
    rcases (h1.own hβ hs).2 with ⟨h2, _⟩ | ⟨w', _, h2⟩
    · exact ⟨_, h2⟩
    · exact ⟨_, h2⟩

/-- what holds after an execution of `k` steps -/
theorem ExecN.within (hβ : ∀ a b, a ≤ b → β a ≤ β b) {code : κ → Prog σ ρ} {m₀ : σ} {S : κ → Prop} {d F : Nat}
    (hJ : J m₀) (hcode : ∀ c, S c → Bd J β (code c) d 0 ∧ Far bad (code c) F) {k : Nat} {g : Cfg κ σ ρ} {H}
    (h : ExecN code m₀ k g H) (hS : ∀ n c, Ev.inv n c ∈ H → S c) :
    Within J β bad g k (k * d) (F - k) ∧ g.th.length ≤ k := by
  induction h with
  | init =>
    refine ⟨⟨hJ, ⟨[], rfl, by simp, ?_⟩, ?_⟩, by simp⟩
    · intro i x p v hi; simp at hi
    · intro x p hx; cases hx
  | @step k g H e g' _ hs ih =>
    obtain ⟨hw, hl⟩ := ih fun n c hm => hS n c (List.mem_append_left _ hm)
    have hsplit : (∃ n c, e = some (.inv n c)) ∨ ∀ n c, e ≠ some (.inv n c) := by
      by_cases hx : ∃ n c, e = some (.inv n c)
      · exact .inl hx
      · exact .inr fun n c h => hx ⟨n, c, h⟩
    rcases hsplit with ⟨n, c, rfl⟩ | hne
    · cases hs with
      | inv c =>
        obtain ⟨h1, h2⟩ := hcode c (hS _ c (List.mem_append_right _ (List.mem_singleton.2 rfl)))
        obtain ⟨ws, a1, a2, a3⟩ := hw.bd
        simp only at a1 a3
        refine ⟨⟨hw.mem, ⟨ws ++ [d], by simp [a1], ?_, ?_⟩, ?_⟩, by simp only [List.length_append, List.length_singleton] at hl ⊢; omega⟩
        · simp only [List.sum_append, List.sum_cons, List.sum_nil, Nat.add_mul]; omega
        · intro i x p v hi hp hv
          simp only at hi
          rcases Nat.lt_trichotomy i ws.length with hlt | heq | hgt
          · rw [List.getElem?_append_left (by omega)] at hi
            rw [List.getElem?_append_left hlt] at hv
            exact (a3 i x p v hi hp hv).mono hβ (Nat.le_refl _) (by omega)
          · subst heq
            rw [a1, List.getElem?_concat_length] at hi
            rw [List.getElem?_concat_length] at hv
            cases hi; cases hp; cases hv
            exact h1.mono hβ (Nat.le_refl _) (by omega)
          · rw [List.getElem?_eq_none (by simp only [List.length_append, List.length_singleton]; omega)] at hv
            cases hv
        · intro x p hx hp
          simp only [List.mem_append, List.mem_singleton] at hx
          rcases hx with hx | rfl
          · exact (hw.far x p hx hp).mono (by omega)
          · cases hp
            exact h2.mono (by omega)
    · have ho : Own code g g' := ⟨e, hs, hne⟩
      obtain ⟨h1, h2⟩ := hw.own hβ ho
      refine ⟨?_, by omega⟩
      have hF : F - (k + 1) = F - k - 1 := by omega
      have hle : ∀ {w w'}, w ≤ w' → Within J β bad g' (k + 1) w (F - k - 1) → Within J β bad g' (k + 1) w' (F - k - 1) := by
        intro w w' hle h
        obtain ⟨ws, b1, b2, b3⟩ := h.bd
        exact ⟨h.mem, ⟨ws, b1, by omega, b3⟩, h.far⟩
      rw [hF, Nat.add_mul]
      rcases h2 with ⟨h2, _⟩ | ⟨w', hw', h2⟩
      · exact hle (by omega) h2
      · exact hle (by omega) h2

/-- After `k` steps the calls in progress make at most `B` further ones, and the loops do not come to their limit `F` if it
is large. -/
theorem bounded (hβ : ∀ a b, a ≤ b → β a ≤ β b) {code : κ → Prog σ ρ} {m₀ : σ} {S : κ → Prop} {d F : Nat}
    (hJ : J m₀) (hcode : ∀ c, S c → Bd J β (code c) d 0 ∧ Far bad (code c) F) {k : Nat} {g g' : Cfg κ σ ρ} {H j}
    (h : ExecN code m₀ k g H) (hS : ∀ n c, Ev.inv n c ∈ H → S c) (ho : OwnsN code g j g') :
    j ≤ stepsB β k (k * d) k (k * β k) ∧ (k + stepsB β k (k * d) k (k * β k) < F →
      ∀ x ∈ g'.th, ∀ r, x.prog = some (.ret r) → ¬ bad r) := by
  obtain ⟨hw, hl⟩ := h.within hβ hJ hcode hS
  have hj := hw.ends hβ _ _ _ _ (Nat.le_trans hw.pot_le (Nat.mul_le_mul_right _ hl)) hl ho
  refine ⟨hj, fun hF x hx r hr hb => ?_⟩
  obtain ⟨w', h2⟩ := hw.owns hβ ho
  have := h2.far x _ hx hr hb
  omega

end Verif.Conc
