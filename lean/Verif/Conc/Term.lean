import Verif.Conc.TreeRead

/-!
Property C93: calls return. Also: calls that only read do not deadlock, however they nest their read locks (C62, C78).
-/

namespace Verif.Conc
variable {κ κ₀ σ ρ ρ₀ : Type}

/-! ### Specification -/

/-- a step of a call in progress -/
def Own (code : κ → Prog σ ρ) (g g' : Cfg κ σ ρ) : Prop := ∃ e, Step code g e g' ∧ ∀ n c, e ≠ some (.inv n c)

/-- any number of them -/
inductive Owns (code : κ → Prog σ ρ) (g : Cfg κ σ ρ) : Cfg κ σ ρ → Prop
  | refl : Owns code g g
  | step {g' g''} : Owns code g g' → Own code g' g'' → Owns code g g''

/-- If no further calls are started, all calls in progress return, whatever the scheduler does: it cannot go on for ever, and
when it can no longer go on no call is in progress. -/
structure AllReturn (code : κ → Prog σ ρ) (g : Cfg κ σ ρ) : Prop where
  finite : ∀ f : Nat → Cfg κ σ ρ, f 0 = g → ¬ ∀ i, Own code (f i) (f (i + 1))
  complete : ∀ g', Owns code g g' → (∀ g'', ¬ Own code g' g'') → ∀ n, ¬ g'.Pending n

/-! ### Programs are finite -/

/-- the thread `x'` is what the thread `x` may become in one step -/
inductive Thread.Lt : Thread κ σ ρ → Thread κ σ ρ → Prop
  | ret {c r rd wr rd' wr'} : Lt ⟨c, none, rd', wr'⟩ ⟨c, some (.ret r), rd, wr⟩
  | read {c k s rd wr rd' wr'} : Lt ⟨c, some (k s), rd', wr'⟩ ⟨c, some (.read k), rd, wr⟩
  | write {c w k rd wr rd' wr'} : Lt ⟨c, some k, rd', wr'⟩ ⟨c, some (.write w k), rd, wr⟩
  | rlock {c k rd wr rd' wr'} : Lt ⟨c, some k, rd', wr'⟩ ⟨c, some (.rlock k), rd, wr⟩
  | runlock {c k rd wr rd' wr'} : Lt ⟨c, some k, rd', wr'⟩ ⟨c, some (.runlock k), rd, wr⟩
  | wait {c k rd rd'} : Lt ⟨c, some (.lock k), rd', .waiting⟩ ⟨c, some (.lock k), rd, .none⟩
  | lock {c k rd rd' wr'} : Lt ⟨c, some k, rd', wr'⟩ ⟨c, some (.lock k), rd, .waiting⟩
  | unlock {c k rd wr rd' wr'} : Lt ⟨c, some k, rd', wr'⟩ ⟨c, some (.unlock k), rd, wr⟩

theorem Thread.acc_none (c : κ) (rd : Nat) (wr : WSt) : Acc Thread.Lt (⟨c, none, rd, wr⟩ : Thread κ σ ρ) :=
  ⟨_, fun y h => by cases h⟩

theorem Thread.acc_some (c : κ) (p : Prog σ ρ) : ∀ rd wr, Acc Thread.Lt (⟨c, some p, rd, wr⟩ : Thread κ σ ρ) := by
  induction p with
  | ret r => exact fun rd wr => ⟨_, fun y h => by cases h; exact acc_none _ _ _⟩
  | read k ih => exact fun rd wr => ⟨_, fun y h => by cases h; exact ih _ _ _⟩
  | write w k ih => exact fun rd wr => ⟨_, fun y h => by cases h; exact ih _ _⟩
  | rlock k ih => exact fun rd wr => ⟨_, fun y h => by cases h; exact ih _ _⟩
  | runlock k ih => exact fun rd wr => ⟨_, fun y h => by cases h; exact ih _ _⟩
  | unlock k ih => exact fun rd wr => ⟨_, fun y h => by cases h; exact ih _ _⟩
  | lock k ih =>
    have hw : ∀ rd, Acc Thread.Lt (⟨c, some (.lock k), rd, .waiting⟩ : Thread κ σ ρ) :=
      fun rd => ⟨_, fun y h => by cases h; exact ih _ _⟩
    intro rd wr
    refine ⟨_, fun y h => ?_⟩
    cases h with
    | wait => exact hw _
    | lock => exact ih _ _

theorem Thread.acc (x : Thread κ σ ρ) : Acc Thread.Lt x := by
  obtain ⟨c, p, rd, wr⟩ := x
  cases p with
  | none => exact acc_none c rd wr
  | some p => exact acc_some c p rd wr

/-- one of the threads makes a step -/
def LtList {A : Type} (lt : A → A → Prop) (l' l : List A) : Prop :=
  ∃ (n : Nat) (x x' : A), l[n]? = some x ∧ lt x' x ∧ l' = l.set n x'

theorem acc_cons {A : Type} {lt : A → A → Prop} {x : A} (hx : Acc lt x) : ∀ {l : List A}, Acc (LtList lt) l →
    Acc (LtList lt) (x :: l) := by
  induction hx with
  | intro x _ ihx =>
    intro l hl
    induction hl with
    | intro l hl ihl =>
      refine ⟨_, ?_⟩
      rintro _ ⟨n, y, y', h1, h2, rfl⟩
      cases n with
      | zero =>
        cases h1
        exact ihx y' h2 ⟨l, hl⟩
      | succ n => exact ihl _ ⟨n, y, y', h1, h2, rfl⟩

theorem acc_list {A : Type} {lt : A → A → Prop} (h : ∀ x, Acc lt x) : ∀ l, Acc (LtList lt) l
  | [] => ⟨_, by rintro _ ⟨n, x, x', h1, _, _⟩; cases h1⟩
  | x :: l => acc_cons (h x) (acc_list h l)

theorem Own.lt {code : κ → Prog σ ρ} {g g' : Cfg κ σ ρ} (h : Own code g g') : LtList Thread.Lt g'.th g.th := by
  obtain ⟨e, hs, he⟩ := h
  cases hs with
  | inv c => exact absurd rfl (he _ _)
  | ret hx => exact ⟨_, _, _, hx, .ret, rfl⟩
  | read hx => exact ⟨_, _, _, hx, .read, rfl⟩
  | write hx => exact ⟨_, _, _, hx, .write, rfl⟩
  | rlock hx _ => exact ⟨_, _, _, hx, .rlock, rfl⟩
  | runlock hx => exact ⟨_, _, _, hx, .runlock, rfl⟩
  | wait hx _ => exact ⟨_, _, _, hx, .wait, rfl⟩
  | lock hx _ => exact ⟨_, _, _, hx, .lock, rfl⟩
  | unlock hx => exact ⟨_, _, _, hx, .unlock, rfl⟩

theorem own_finite (code : κ → Prog σ ρ) (f : Nat → Cfg κ σ ρ) : ¬ ∀ i, Own code (f i) (f (i + 1)) := by
  intro h
  have key : ∀ l, Acc (LtList (Thread.Lt (κ := κ) (σ := σ) (ρ := ρ))) l → ∀ i, (f i).th ≠ l := by
    intro l hl
    induction hl with
    | intro l _ ih =>
      intro i hi
      exact ih _ (hi ▸ (h i).lt) (i + 1) rfl
  exact key _ (acc_list Thread.acc _) 0 rfl

/-- own steps only add returns to the history -/
theorem Owns.exec {code : κ → Prog σ ρ} {m₀ : σ} {g g' : Cfg κ σ ρ} {H : List (Ev κ ρ)} (h : Exec code m₀ g H)
    (ho : Owns code g g') : ∃ H', Exec code m₀ g' H' ∧ ∀ n c, Ev.inv n c ∈ H' → Ev.inv n c ∈ H := by
  induction ho with
  | refl => exact ⟨H, h, fun _ _ h => h⟩
  | step _ hs ih =>
    obtain ⟨H', h1, h2⟩ := ih
    obtain ⟨e, hs, he⟩ := hs
    refine ⟨_, .step h1 hs, fun n c hm => ?_⟩
    rcases List.mem_append.1 hm with hm | hm
    · exact h2 n c hm
    · cases e with
      | none => cases hm
      | some e =>
        simp only [Option.toList_some, List.mem_singleton] at hm
        exact absurd (by rw [hm]) (he n c)

/-- without deadlocks all calls return -/
theorem all_return {code : κ → Prog σ ρ} {m₀ : σ} {g : Cfg κ σ ρ} {H : List (Ev κ ρ)} (S : κ → Prop)
    (hd : ∀ g H, Exec code m₀ g H → (∀ n c, Ev.inv n c ∈ H → S c) → ¬ Deadlock code g)
    (h : Exec code m₀ g H) (hS : ∀ n c, Ev.inv n c ∈ H → S c) : AllReturn code g := by
  refine ⟨fun f _ => own_finite code f, ?_⟩
  intro g' ho hend n hp
  obtain ⟨H', h1, h2⟩ := ho.exec h
  refine hd g' H' h1 (fun n c hm => hS n c (h2 n c hm)) ⟨⟨n, hp⟩, ?_⟩
  rintro ⟨e, g'', hs, he⟩
  exact hend g'' ⟨e, hs, he⟩

/-- a deadlock is what prevents it -/
theorem not_all_return {code : κ → Prog σ ρ} {g : Cfg κ σ ρ} (h : Deadlock code g) : ¬ AllReturn code g := by
  intro ha
  obtain ⟨⟨n, hn⟩, hm⟩ := h
  exact ha.complete g .refl (fun g'' ⟨e, hs, he⟩ => hm ⟨e, g'', hs, he⟩) n hn

/-! ### Readers only -/

/-- calls that never take the write lock do not deadlock -/
theorem readers_no_deadlock {S : κ₀ → Prop} {pk : Prop} {meth : κ₀ → Prog σ ρ₀} {sem : σ → κ₀ → σ × ρ₀}
    (hm : Sections meth sem) (hS : ∀ c, S c → ∃ k, meth c = .rlock k) {code : κ → Client κ₀ ρ₀ σ ρ}
    (hc : ∀ c, (code c).Uses S pk) {m₀ : σ} {g : Cfg κ σ ρ} {H : List (Ev κ ρ)}
    (h : Exec (fun c => (code c).compile meth) m₀ g H) : ¬ Deadlock (fun c => (code c).compile meth) g := by
  rintro ⟨⟨n, hn⟩, hno⟩
  have hinv : ∃ a G, AExec code sem (fun _ _ => True) m₀ a G H ∧ Rel meth g a ∧ NoWriter g.th := by
    clear hn hno
    induction h with
    | init => exact ⟨_, _, .init, ⟨rfl, by simp, fun _ => rfl, by simp, by simp⟩, by intro x hx; cases hx⟩
    | @step g H e g' _ hs ih =>
      obtain ⟨a, G, h1, h2, h3⟩ := ih
      have hset : ∀ {n : Nat} {x : Thread κ σ ρ}, x.wr = .none → NoWriter (g.th.set n x) := by
        intro n x hx y hy
        rcases mem_set_cases hy with rfl | ⟨i, _, h⟩
        · exact hx
        · exact h3 y (List.mem_of_getElem? h)
      have h5 : NoWriter g'.th := by
        cases hs with
        | inv c =>
          intro y hy
          rcases List.mem_append.1 hy with h | h
          · exact h3 y h
          · rw [List.mem_singleton.1 h]
        | ret hx => have := h3 _ (List.mem_of_getElem? hx); exact hset this
        | read hx => have := h3 _ (List.mem_of_getElem? hx); exact hset this
        | write hx => have := h3 _ (List.mem_of_getElem? hx); exact hset this
        | rlock hx _ => have := h3 _ (List.mem_of_getElem? hx); exact hset this
        | runlock hx => have := h3 _ (List.mem_of_getElem? hx); exact hset this
        | unlock hx => have := h3 _ (List.mem_of_getElem? hx); cases this
        | lock hx _ => have := h3 _ (List.mem_of_getElem? hx); cases this
        | @wait m th n c k rd hx _ =>
          exfalso
          obtain ⟨am, ath⟩ := a
          obtain ⟨y, hy, hT⟩ := h2.get hx
          generalize hp : (⟨c, some (.lock k), rd, .none⟩ : Thread κ σ ρ) = x at hT
          cases hT with
          | done => cases hp
          | @out c' d =>
            injection hp with _ hk
            injection hk with hk
            obtain ⟨x, f, rfl, _⟩ := compile_lock hm hk.symm
            cases h1.uses hc _ (List.mem_of_getElem? hy) _ rfl with
            | call hx _ =>
              obtain ⟨k0, hk0⟩ := hS _ hx
              rw [Client.compile, hk0] at hk
              cases hk
          | waiting _ => cases hp
          | reading hr =>
            injection hp with _ hk
            injection hk with hk
            rw [← hk] at hr
            cases hr
          | writing _ => cases hp
      rcases h2.step hm hs with ⟨x, a', h6, h4, _⟩ | ⟨rfl, h4⟩
      · exact ⟨a', _, .step h1 h6, h4, h5⟩
      · exact ⟨a, G, by simpa using h1, h4, h5⟩
  obtain ⟨⟨am, ath⟩, G, h1, h2, h3⟩ := hinv
  obtain ⟨m, th⟩ := g
  obtain ⟨x, p, hx, hp⟩ := hn
  simp only at hx
  obtain ⟨y, hy, hT⟩ := h2.get hx
  apply hno
  cases hT with
  | done => cases hp
  | @out c d =>
    rcases compile_cases hm d with ⟨r', rfl⟩ | ⟨k', rfl⟩ | ⟨k', hk⟩ | ⟨k', hk⟩
    · exact ⟨_, _, .ret hx, fun _ _ h => nomatch h⟩
    · exact ⟨_, _, .read hx, fun _ _ h => nomatch h⟩
    · rw [hk] at hx; exact ⟨_, _, .rlock hx h3, fun _ _ h => nomatch h⟩
    · rw [hk] at hx; exact ⟨_, _, .wait hx h3, fun _ _ h => nomatch h⟩
  | waiting _ => have := h3 _ (List.mem_of_getElem? hx); cases this
  | writing _ => have := h3 _ (List.mem_of_getElem? hx); cases this
  | reading hr =>
    cases hr with
    | read _ => exact ⟨_, _, .read hx, fun _ _ h => nomatch h⟩
    | rlock _ => exact ⟨_, _, .rlock hx h3, fun _ _ h => nomatch h⟩
    | runlock _ => exact ⟨_, _, .runlock hx, fun _ _ h => nomatch h⟩
    | last => exact ⟨_, _, .runlock hx, fun _ _ h => nomatch h⟩

end Verif.Conc
