import Verif.Conc.Lang

/-!
Every execution of programs that are made of critical sections looks like an execution in which each
critical section is one atomic step (`sim`), and every execution of the second kind exists
(`realize`).
-/

namespace Verif.Conc
variable {κ κ₀ σ ρ ρ₀ β : Type}

/-! ### Programs made of atomic calls -/

/-- a program that uses an object through atomic calls (`call`), and reads its memory without
locking (`peek`) -/
inductive Client (κ₀ ρ₀ σ ρ : Type) : Type
  | ret (r : ρ)
  | call (c : κ₀) (k : ρ₀ → Client κ₀ ρ₀ σ ρ)
  | peek (k : σ → Client κ₀ ρ₀ σ ρ)

/-- replace the calls by their programs -/
def Client.compile (meth : κ₀ → Prog σ ρ₀) : Client κ₀ ρ₀ σ ρ → Prog σ ρ
  | .ret r => .ret r
  | .call c k => (meth c).bind fun r => (k r).compile meth
  | .peek k => .read fun s => (k s).compile meth

/-- a configuration of the atomic system -/
structure ACfg (κ κ₀ ρ₀ σ ρ : Type) where
  mem : σ
  th : List (κ × Option (Client κ₀ ρ₀ σ ρ))

/-- Steps of the atomic system. `sem` is the effect of a call. `see m s`: a peek may see `s` when the
memory is `m`. -/
inductive AStep (code : κ → Client κ₀ ρ₀ σ ρ) (sem : σ → κ₀ → σ × ρ₀) (see : σ → σ → Prop) :
    ACfg κ κ₀ ρ₀ σ ρ → Option (Nat × κ₀ × ρ₀) → Option (Ev κ ρ) → ACfg κ κ₀ ρ₀ σ ρ → Prop
  | inv {m th} (c : κ) : AStep code sem see ⟨m, th⟩ none (some (.inv th.length c)) ⟨m, th ++ [(c, some (code c))]⟩
  | ret {m th n c r} : th[n]? = some (c, some (.ret r)) →
      AStep code sem see ⟨m, th⟩ none (some (.ret n r)) ⟨m, th.set n (c, none)⟩
  | call {m th n c x k} : th[n]? = some (c, some (.call x k)) →
      AStep code sem see ⟨m, th⟩ (some (n, x, (sem m x).2)) none
        ⟨(sem m x).1, th.set n (c, some (k (sem m x).2))⟩
  | peek {m th n c k s} : th[n]? = some (c, some (.peek k)) → see m s →
      AStep code sem see ⟨m, th⟩ none none ⟨m, th.set n (c, some (k s))⟩

/-- Executions of the atomic system: reached state, atomic calls in the order in which they were
executed (with the number of the goroutine, and the reply), history. -/
inductive AExec (code : κ → Client κ₀ ρ₀ σ ρ) (sem : σ → κ₀ → σ × ρ₀) (see : σ → σ → Prop) (m₀ : σ) :
    ACfg κ κ₀ ρ₀ σ ρ → List (Nat × κ₀ × ρ₀) → List (Ev κ ρ) → Prop
  | init : AExec code sem see m₀ ⟨m₀, []⟩ [] []
  | step {g G H a e g'} : AExec code sem see m₀ g G H → AStep code sem see g a e g' →
      AExec code sem see m₀ g' (G ++ a.toList) (H ++ e.toList)

/-! ### Critical sections -/

/-- With the memory `m`, a program that holds `n + 1` read locks releases them all and goes on as
`q`. -/
inductive InR (m : σ) (q : Prog σ ρ) : Nat → Prog σ ρ → Prop
  | read {n k} : InR m q n (k m) → InR m q n (.read k)
  | rlock {n k} : InR m q (n + 1) k → InR m q n (.rlock k)
  | runlock {n k} : InR m q n k → InR m q (n + 1) (.runlock k)
  | last : InR m q 0 (.runlock q)

/-- the same without taking a second read lock -/
inductive InR1 (m : σ) (q : Prog σ ρ) : Prog σ ρ → Prop
  | read {k} : InR1 m q (k m) → InR1 m q (.read k)
  | last : InR1 m q (.runlock q)

/-- A program that holds the write lock, with the memory `m`, releases it with the memory `m'` and
goes on as `q`. -/
inductive InW (m' : σ) (q : Prog σ ρ) : σ → Prog σ ρ → Prop
  | read {m k} : InW m' q m (k m) → InW m' q m (.read k)
  | write {m w k} : InW m' q (w m) k → InW m' q m (.write w k)
  | last : InW m' q m' (.unlock q)

/-- a method that is one critical section under the read lock, with the reply `(sem m).2` -/
def RSec (sem : σ → σ × ρ₀) (p : Prog σ ρ₀) : Prop :=
  ∃ k, p = .rlock k ∧ ∀ m, (sem m).1 = m ∧ InR m (.ret (sem m).2) 0 k

/-- a method that is one critical section under the write lock, with the effect `sem` -/
def WSec (sem : σ → σ × ρ₀) (p : Prog σ ρ₀) : Prop :=
  ∃ k, p = .lock k ∧ ∀ m, InW (sem m).1 (.ret (sem m).2) m k

/-- all methods are critical sections -/
def Sections (meth : κ₀ → Prog σ ρ₀) (sem : σ → κ₀ → σ × ρ₀) : Prop :=
  ∀ c, RSec (fun m => sem m c) (meth c) ∨ WSec (fun m => sem m c) (meth c)

theorem InR.bind {m : σ} {q p : Prog σ β} {n : Nat} (h : InR m q n p) (f : β → Prog σ ρ) :
    InR m (q.bind f) n (p.bind f) := by
  induction h with
  | read _ ih => exact .read ih
  | rlock _ ih => exact .rlock ih
  | runlock _ ih => exact .runlock ih
  | last => exact .last

theorem InW.bind {m m' : σ} {q p : Prog σ β} (h : InW m' q m p) (f : β → Prog σ ρ) :
    InW m' (q.bind f) m (p.bind f) := by
  induction h with
  | read _ ih => exact .read ih
  | write _ ih => exact .write ih
  | last => exact .last

/-! ### The simulation -/

/-- a goroutine, and its counterpart in the atomic system; `m` is the memory, `a` the memory of the
atomic system -/
inductive TRel (meth : κ₀ → Prog σ ρ₀) (m a : σ) : Thread κ σ ρ → κ × Option (Client κ₀ ρ₀ σ ρ) → Prop
  | done {c} : TRel meth m a ⟨c, none, 0, .none⟩ (c, none)
  | out {c d} : TRel meth m a ⟨c, some (Client.compile meth d), 0, .none⟩ (c, some d)
  | waiting {c d k} : Client.compile meth d = .lock k → TRel meth m a ⟨c, some (.lock k), 0, .waiting⟩ (c, some d)
  | reading {c d n p} : InR m (Client.compile meth d) n p → TRel meth m a ⟨c, some p, n + 1, .none⟩ (c, some d)
  | writing {c d p} : InW a (Client.compile meth d) m p → TRel meth m a ⟨c, some p, 0, .held⟩ (c, some d)

structure Rel (meth : κ₀ → Prog σ ρ₀) (g : Cfg κ σ ρ) (a : ACfg κ κ₀ ρ₀ σ ρ) : Prop where
  len : g.th.length = a.th.length
  th : ∀ (i : Nat) x y, g.th[i]? = some x → a.th[i]? = some y → TRel meth g.mem a.mem x y
  mem : (∀ x ∈ g.th, x.wr ≠ .held) → a.mem = g.mem
  excl : ∀ (i j : Nat) x y, g.th[i]? = some x → g.th[j]? = some y → x.wr ≠ .none → y.wr ≠ .none → i = j
  alone : ∀ x ∈ g.th, x.wr = .held → NoReader g.th

theorem compile_lock {meth : κ₀ → Prog σ ρ₀} {sem : σ → κ₀ → σ × ρ₀} (hm : Sections meth sem)
    {d : Client κ₀ ρ₀ σ ρ} {k : Prog σ ρ} (h : d.compile meth = .lock k) :
    ∃ x f, d = .call x f ∧ ∀ m, InW (sem m x).1 ((f (sem m x).2).compile meth) m k := by
  cases d with
  | ret r => cases h
  | peek f => cases h
  | call x f =>
    refine ⟨x, f, rfl, ?_⟩
    rcases hm x with ⟨k0, h0, _⟩ | ⟨k0, h0, h1⟩
    · rw [Client.compile, h0] at h; cases h
    · rw [Client.compile, h0] at h
      cases h
      intro m
      exact (h1 m).bind (fun r => Client.compile meth (f r))

theorem compile_rlock {meth : κ₀ → Prog σ ρ₀} {sem : σ → κ₀ → σ × ρ₀} (hm : Sections meth sem)
    {d : Client κ₀ ρ₀ σ ρ} {k : Prog σ ρ} (h : d.compile meth = .rlock k) :
    ∃ x f, d = .call x f ∧ ∀ m, (sem m x).1 = m ∧ InR m ((f (sem m x).2).compile meth) 0 k := by
  cases d with
  | ret r => cases h
  | peek f => cases h
  | call x f =>
    refine ⟨x, f, rfl, ?_⟩
    rcases hm x with ⟨k0, h0, h1⟩ | ⟨k0, h0, _⟩
    · rw [Client.compile, h0] at h
      cases h
      intro m
      exact ⟨(h1 m).1, (h1 m).2.bind (fun r => Client.compile meth (f r))⟩
    · rw [Client.compile, h0] at h; cases h

/-- outside of critical sections a program only takes locks, reads, or returns -/
theorem compile_cases {meth : κ₀ → Prog σ ρ₀} {sem : σ → κ₀ → σ × ρ₀} (hm : Sections meth sem)
    (d : Client κ₀ ρ₀ σ ρ) : (∃ r, d = .ret r) ∨ (∃ k, d = .peek k) ∨
      (∃ k, d.compile meth = .rlock k) ∨ ∃ k, d.compile meth = .lock k := by
  cases d with
  | ret r => exact .inl ⟨r, rfl⟩
  | peek k => exact .inr (.inl ⟨k, rfl⟩)
  | call x f =>
    rcases hm x with ⟨k0, h0, h1⟩ | ⟨k0, h0, _⟩
    · exact .inr (.inr (.inl ⟨_, by rw [Client.compile, h0]; rfl⟩))
    · exact .inr (.inr (.inr ⟨_, by rw [Client.compile, h0]; rfl⟩))

theorem TRel.indep {meth : κ₀ → Prog σ ρ₀} {m a m' a' : σ} {x : Thread κ σ ρ} {y : κ × Option (Client κ₀ ρ₀ σ ρ)}
    (h : TRel meth m a x y) (h1 : x.rd = 0) (h2 : x.wr ≠ .held) : TRel meth m' a' x y := by
  cases h with
  | done => exact .done
  | out => exact .out
  | waiting h => exact .waiting h
  | reading h => exact absurd h1 (by simp)
  | writing h => exact absurd rfl h2

theorem getElem?_set_cases {A : Type} {l : List A} {n i : Nat} {x z : A} (h : (l.set n x)[i]? = some z) :
    (i = n ∧ z = x) ∨ (i ≠ n ∧ l[i]? = some z) := by
  by_cases hi : i = n
  · subst hi
    rw [List.getElem?_set_self'] at h
    cases hl : l[i]? with
    | none => rw [hl] at h; cases h
    | some w => rw [hl] at h; cases h; exact .inl ⟨rfl, rfl⟩
  · rw [List.getElem?_set_ne (fun h => hi h.symm)] at h
    exact .inr ⟨hi, h⟩

theorem mem_set_cases {A : Type} {l : List A} {n : Nat} {x z : A} (h : z ∈ l.set n x) :
    z = x ∨ ∃ i, i ≠ n ∧ l[i]? = some z := by
  obtain ⟨i, hi⟩ := List.getElem?_of_mem h
  rcases getElem?_set_cases hi with ⟨_, h⟩ | ⟨h1, h2⟩
  · exact .inl h
  · exact .inr ⟨i, h1, h2⟩

/-- replace one goroutine -/
theorem Rel.update {meth : κ₀ → Prog σ ρ₀} {m a m' a' : σ} {th : List (Thread κ σ ρ)}
    {ath : List (κ × Option (Client κ₀ ρ₀ σ ρ))} (h : Rel meth ⟨m, th⟩ ⟨a, ath⟩) {n : Nat}
    {x x' : Thread κ σ ρ} {y' : κ × Option (Client κ₀ ρ₀ σ ρ)} (hx : th[n]? = some x)
    (hT : TRel meth m' a' x' y')
    (hO : ∀ (i : Nat) z w, i ≠ n → th[i]? = some z → TRel meth m a z w → TRel meth m' a' z w)
    (hmem : (∀ z ∈ th.set n x', z.wr ≠ .held) → a' = m')
    (hexcl : x'.wr ≠ .none → ∀ (i : Nat) z, i ≠ n → th[i]? = some z → z.wr = .none)
    (halone : ∀ z ∈ th.set n x', z.wr = .held → NoReader (th.set n x')) :
    Rel meth ⟨m', th.set n x'⟩ ⟨a', ath.set n y'⟩ := by
  refine ⟨by simp [h.len], ?_, hmem, ?_, halone⟩
  · intro i z w hz hw
    rcases getElem?_set_cases hz with ⟨rfl, rfl⟩ | ⟨h1, h2⟩
    · rcases getElem?_set_cases hw with ⟨_, rfl⟩ | ⟨h3, _⟩
      · exact hT
      · exact absurd rfl h3
    · rcases getElem?_set_cases hw with ⟨h3, _⟩ | ⟨_, h4⟩
      · exact absurd h3 h1
      · exact hO i z w h1 h2 (h.th i z w h2 h4)
  · intro i j z w hz hw h1 h2
    rcases getElem?_set_cases hz with ⟨rfl, rfl⟩ | ⟨g1, g2⟩
    · rcases getElem?_set_cases hw with ⟨rfl, rfl⟩ | ⟨g3, g4⟩
      · rfl
      · exact absurd (hexcl h1 j w g3 g4) h2
    · rcases getElem?_set_cases hw with ⟨rfl, rfl⟩ | ⟨g3, g4⟩
      · exact absurd (hexcl h2 i z g1 g2) h1
      · exact h.excl i j z w g2 g4 h1 h2

theorem set_self {A : Type} {l : List A} {n : Nat} {x : A} (h : l[n]? = some x) : l.set n x = l := by
  apply List.ext_getElem?
  intro i
  by_cases hi : i = n
  · subst hi
    rw [List.getElem?_set_self', h]; rfl
  · rw [List.getElem?_set_ne (fun h => hi h.symm)]

theorem Rel.get {meth : κ₀ → Prog σ ρ₀} {m a : σ} {th : List (Thread κ σ ρ)}
    {ath : List (κ × Option (Client κ₀ ρ₀ σ ρ))} (h : Rel meth ⟨m, th⟩ ⟨a, ath⟩) {n : Nat} {x : Thread κ σ ρ}
    (hx : th[n]? = some x) : ∃ y, ath[n]? = some y ∧ TRel meth m a x y := by
  have hn : n < ath.length := by
    have := (List.getElem?_eq_some_iff.1 hx).1
    have hl : th.length = ath.length := h.len
    omega
  exact ⟨ath[n], List.getElem?_eq_getElem hn, h.th n x _ hx (List.getElem?_eq_getElem hn)⟩

/-- a step that leaves the memories alone, and does not change the write lock -/
theorem Rel.quiet {meth : κ₀ → Prog σ ρ₀} {m a : σ} {th : List (Thread κ σ ρ)}
    {ath : List (κ × Option (Client κ₀ ρ₀ σ ρ))} (h : Rel meth ⟨m, th⟩ ⟨a, ath⟩) {n : Nat}
    {x x' : Thread κ σ ρ} {y' : κ × Option (Client κ₀ ρ₀ σ ρ)} (hx : th[n]? = some x)
    (hT : TRel meth m a x' y') (hw : x'.wr = x.wr) (hr : x.rd = 0 → x'.rd = 0) :
    Rel meth ⟨m, th.set n x'⟩ ⟨a, ath.set n y'⟩ := by
  have hmx : x ∈ th := List.mem_of_getElem? hx
  have hset : ∀ z ∈ th.set n x', ∃ z0 ∈ th, z0.wr = z.wr := by
    intro z hz
    rcases mem_set_cases hz with rfl | ⟨i, _, h2⟩
    · exact ⟨x, hmx, hw.symm⟩
    · exact ⟨z, List.mem_of_getElem? h2, rfl⟩
  refine h.update hx hT (fun _ _ _ _ _ h => h) ?_ ?_ ?_
  · intro hh
    apply h.mem
    intro z hz
    obtain ⟨i, hi⟩ := List.getElem?_of_mem hz
    by_cases hin : i = n
    · subst hin
      rw [hx] at hi
      cases hi
      rw [← hw]
      exact hh x' (List.mem_of_getElem? (i := i) (by rw [List.getElem?_set_self', hx]; rfl))
    · exact hh z (List.mem_of_getElem? (i := i) (by rw [List.getElem?_set_ne (fun h => hin h.symm)]; exact hi))
  · intro hne i z hi hz
    by_cases hzn : z.wr = .none
    · exact hzn
    · exact absurd (h.excl i n z x hz hx hzn (hw ▸ hne)) hi
  · intro z hz hzh
    obtain ⟨z0, hz0, hz1⟩ := hset z hz
    have hno := h.alone z0 hz0 (hz1.trans hzh)
    intro w hw'
    rcases mem_set_cases hw' with rfl | ⟨i, _, h2⟩
    · exact hr (hno x hmx)
    · exact hno w (List.mem_of_getElem? h2)

theorem Rel.step {meth : κ₀ → Prog σ ρ₀} {sem : σ → κ₀ → σ × ρ₀} (hm : Sections meth sem)
    {code : κ → Client κ₀ ρ₀ σ ρ} {g g' : Cfg κ σ ρ} {a : ACfg κ κ₀ ρ₀ σ ρ} {e : Option (Ev κ ρ)}
    (h : Rel meth g a) (hs : Step (fun c => (code c).compile meth) g e g') :
    (∃ x a', AStep code sem (fun _ _ => True) a x e a' ∧ Rel meth g' a' ∧ (x ≠ none → a.mem = g.mem) ∧
      (x = none → e = none → ∃ (n : Nat) (c : κ) (k : σ → Client κ₀ ρ₀ σ ρ), a.th[n]? = some (c, some (.peek k)) ∧
        a' = ⟨a.mem, a.th.set n (c, some (k g.mem))⟩ ∧ ∀ y, g.th[n]? = some y → y.wr = .none)) ∨
      (e = none ∧ Rel meth g' a) := by
  obtain ⟨am, ath⟩ := a
  cases hs with
  | @inv m th c =>
    refine .inl ⟨none, _, by have := h.len; simp only at this; rw [this]; exact .inv c, ?_, fun hh => absurd rfl hh, fun _ hh => nomatch hh⟩
    have hlen : th.length = ath.length := h.len
    have hmemc : ∀ z ∈ th ++ [(⟨c, some ((code c).compile meth), 0, .none⟩ : Thread κ σ ρ)],
        z ∈ th ∨ (z.wr = .none ∧ z.rd = 0) := by
      intro z hz
      rcases List.mem_append.1 hz with h | h
      · exact .inl h
      · simp only [List.mem_cons, List.not_mem_nil, or_false] at h
        subst h
        exact .inr ⟨rfl, rfl⟩
    have hget : ∀ (i : Nat) z, (th ++ [(⟨c, some ((code c).compile meth), 0, .none⟩ : Thread κ σ ρ)])[i]? = some z →
        th[i]? = some z ∨ (i = th.length ∧ z = ⟨c, some ((code c).compile meth), 0, .none⟩) := by
      intro i z hz
      by_cases hi : i < th.length
      · rw [List.getElem?_append_left hi] at hz; exact .inl hz
      · rw [List.getElem?_append_right (by omega)] at hz
        have hlt := (List.getElem?_eq_some_iff.1 hz).1
        simp only [List.length_singleton] at hlt
        have : i - th.length = 0 := by omega
        rw [this] at hz
        cases hz
        exact .inr ⟨by omega, rfl⟩
    refine ⟨by simp [hlen], ?_, ?_, ?_, ?_⟩
    · intro i z w hz hw
      rcases hget i z hz with h1 | ⟨rfl, rfl⟩
      · have hi := (List.getElem?_eq_some_iff.1 h1).1
        rw [List.getElem?_append_left (by omega)] at hw
        exact h.th i z w h1 hw
      · rw [List.getElem?_append_right (by omega), hlen, Nat.sub_self] at hw
        cases hw
        exact .out
    · intro hh
      exact h.mem (fun z hz => hh z (List.mem_append_left _ hz))
    · intro i j z w hz hw h1 h2
      rcases hget i z hz with g1 | ⟨rfl, rfl⟩
      · rcases hget j w hw with g2 | ⟨rfl, rfl⟩
        · exact h.excl i j z w g1 g2 h1 h2
        · exact absurd rfl h2
      · exact absurd rfl h1
    · intro z hz hzh
      rcases hmemc z hz with h1 | ⟨h1, _⟩
      · intro w hw
        rcases hmemc w hw with h2 | ⟨_, h2⟩
        · exact h.alone z h1 hzh w h2
        · exact h2
      · rw [h1] at hzh; cases hzh
  | @ret m th n c r rd wr hx =>
    obtain ⟨y, hy, hT⟩ := h.get hx
    generalize hp : (⟨c, some (.ret r), rd, wr⟩ : Thread κ σ ρ) = x at hT
    cases hT with
    | done => cases hp
    | @out c' d =>
      injection hp with h1 h2 h3 h4
      subst h1 h3 h4
      injection h2 with h2
      rcases compile_cases hm d with ⟨r', rfl⟩ | ⟨k, rfl⟩ | ⟨k, hk⟩ | ⟨k, hk⟩
      · cases h2
        exact .inl ⟨none, _, .ret hy, h.quiet hx .done rfl (fun h => h), fun hh => absurd rfl hh, fun _ hh => nomatch hh⟩
      · cases h2
      · rw [hk] at h2; cases h2
      · rw [hk] at h2; cases h2
    | waiting _ => cases hp
    | reading hr => injection hp with _ h2; injection h2 with h2; subst h2; cases hr
    | writing hr => injection hp with _ h2; injection h2 with h2; subst h2; cases hr
  | @read m th n c k rd wr hx =>
    obtain ⟨y, hy, hT⟩ := h.get hx
    generalize hp : (⟨c, some (.read k), rd, wr⟩ : Thread κ σ ρ) = x at hT
    cases hT with
    | done => cases hp
    | @out c' d =>
      injection hp with h1 h2 h3 h4
      subst h1 h3 h4
      injection h2 with h2
      rcases compile_cases hm d with ⟨r', rfl⟩ | ⟨k', rfl⟩ | ⟨k', hk⟩ | ⟨k', hk⟩
      · cases h2
      · cases h2
        exact .inl ⟨none, _, .peek (s := m) hy trivial, h.quiet hx .out rfl (fun h => h), fun hh => absurd rfl hh,
          fun _ _ => ⟨n, c, k', hy, rfl, fun y hy' => by simp only at hy'; rw [hx] at hy'; cases hy'; rfl⟩⟩
      · rw [hk] at h2; cases h2
      · rw [hk] at h2; cases h2
    | waiting _ => cases hp
    | @reading c' d n' p hr =>
      injection hp with h1 h2 h3 h4
      subst h1 h3 h4
      injection h2 with h2
      subst h2
      cases hr with
      | read hr =>
        have := h.quiet hx (.reading (c := c) hr) rfl (fun h => h)
        rw [set_self hy] at this
        exact .inr ⟨rfl, this⟩
    | @writing c' d p hr =>
      injection hp with h1 h2 h3 h4
      subst h1 h3 h4
      injection h2 with h2
      subst h2
      cases hr with
      | read hr =>
        have := h.quiet hx (.writing (c := c) hr) rfl (fun h => h)
        rw [set_self hy] at this
        exact .inr ⟨rfl, this⟩
  | @runlock m th n c k rd wr hx =>
    obtain ⟨y, hy, hT⟩ := h.get hx
    generalize hp : (⟨c, some (.runlock k), rd + 1, wr⟩ : Thread κ σ ρ) = x at hT
    cases hT with
    | done => cases hp
    | out => injection hp with _ _ h3; cases h3
    | waiting _ => cases hp
    | @reading c' d n' p hr =>
      injection hp with h1 h2 h3 h4
      injection h3 with h3
      subst h1 h3 h4
      injection h2 with h2
      subst h2
      cases hr with
      | runlock hr =>
        have := h.quiet hx (.reading (c := c) hr) rfl (fun h => nomatch h)
        rw [set_self hy] at this
        exact .inr ⟨rfl, this⟩
      | last =>
        have := h.quiet hx (.out (c := c) (d := d)) rfl (fun h => nomatch h)
        rw [set_self hy] at this
        exact .inr ⟨rfl, this⟩
    | writing _ => injection hp with _ _ h3; cases h3
  | @rlock m th n c k rd wr hx hno =>
    obtain ⟨y, hy, hT⟩ := h.get hx
    have hmx : _ ∈ th := List.mem_of_getElem? hx
    have hnoheld : ∀ (p : Option (Prog σ ρ)) (r : Nat), ∀ z ∈ th.set n ⟨c, p, r, wr⟩, z.wr ≠ .held := by
      intro p r z hz
      rcases mem_set_cases hz with rfl | ⟨i, _, h2⟩
      · have := hno _ hmx; simp only at this; simp [this]
      · rw [hno z (List.mem_of_getElem? h2)]; simp
    have ham : am = m := h.mem (fun z hz => by rw [hno z hz]; simp)
    subst ham
    have hwr : wr = .none := hno _ hmx
    subst hwr
    generalize hp : (⟨c, some (.rlock k), rd, .none⟩ : Thread κ σ ρ) = x at hT
    have key : ∀ {y' : κ × Option (Client κ₀ ρ₀ σ ρ)}, TRel meth am am ⟨c, some k, rd + 1, .none⟩ y' →
        Rel meth ⟨am, th.set n ⟨c, some k, rd + 1, .none⟩⟩ ⟨am, ath.set n y'⟩ := by
      intro y' hT'
      refine h.update hx hT' (fun _ _ _ _ _ h => h) (fun _ => rfl) (fun hh => absurd rfl hh) ?_
      intro z hz hzh
      exact absurd hzh (hnoheld _ _ z hz)
    cases hT with
    | done => cases hp
    | @out c' d =>
      injection hp with h1 h2 h3 h4
      subst h1 h3
      injection h2 with h2
      obtain ⟨x, f, rfl, hf⟩ := compile_rlock hm h2.symm
      refine .inl ⟨_, _, .call hy, ?_, fun _ => rfl, fun hh => nomatch hh⟩
      rw [(hf am).1]
      exact key (.reading (hf am).2)
    | waiting _ => cases hp
    | @reading c' d n' p hr =>
      injection hp with h1 h2 h3 h4
      subst h1 h3
      injection h2 with h2
      subst h2
      cases hr with
      | rlock hr =>
        have := key (.reading hr)
        rw [set_self hy] at this
        exact .inr ⟨rfl, this⟩
    | writing _ => cases hp
  | @wait m th n c k rd hx hno =>
    obtain ⟨y, hy, hT⟩ := h.get hx
    have ham : am = m := h.mem (fun z hz => by rw [hno z hz]; simp)
    subst ham
    generalize hp : (⟨c, some (.lock k), rd, .none⟩ : Thread κ σ ρ) = x at hT
    cases hT with
    | done => cases hp
    | @out c' d =>
      injection hp with h1 h2 h3 h4
      subst h1 h3
      injection h2 with h2
      have hset : ∀ z ∈ th.set n ⟨c, some (.lock k), 0, .waiting⟩, z.wr ≠ .held := by
        intro z hz
        rcases mem_set_cases hz with rfl | ⟨i, _, h2⟩
        · simp
        · rw [hno z (List.mem_of_getElem? h2)]; simp
      have := h.update (m' := am) (a' := am) hx (.waiting (c := c) h2.symm) (fun _ _ _ _ _ h => h) (fun _ => rfl)
        (fun _ i z _ hz => hno z (List.mem_of_getElem? hz)) (fun z hz hzh => absurd hzh (hset z hz))
      rw [set_self hy] at this
      exact .inr ⟨rfl, this⟩
    | waiting _ => cases hp
    | @reading c' d n' p hr =>
      injection hp with h1 h2 h3 h4
      injection h2 with h2
      subst h2
      cases hr
    | writing _ => cases hp
  | @lock m th n c k rd hx hno =>
    obtain ⟨y, hy, hT⟩ := h.get hx
    have hoth : ∀ (i : Nat) z, i ≠ n → th[i]? = some z → z.wr = .none := by
      intro i z hi hz
      by_cases hzn : z.wr = .none
      · exact hzn
      · exact absurd (h.excl i n z _ hz hx hzn (by simp)) hi
    have ham : am = m := by
      apply h.mem
      intro z hz
      obtain ⟨i, hi⟩ := List.getElem?_of_mem hz
      by_cases hin : i = n
      · subst hin; simp only at hi; rw [hx] at hi; cases hi; simp
      · rw [hoth i z hin hi]; simp
    subst ham
    generalize hp : (⟨c, some (.lock k), rd, .waiting⟩ : Thread κ σ ρ) = x at hT
    cases hT with
    | done => cases hp
    | out => injection hp with _ _ _ h4; cases h4
    | @waiting c' d k' hk =>
      cases hp
      obtain ⟨x, f, rfl, hf⟩ := compile_lock hm hk
      refine .inl ⟨_, _, .call hy, ?_, fun _ => rfl, fun hh => nomatch hh⟩
      refine h.update hx (.writing (hf am)) ?_ ?_ (fun _ => hoth) ?_
      · intro i z w hi hz hT'
        exact hT'.indep (hno z (List.mem_of_getElem? hz)) (by rw [hoth i z hi hz]; simp)
      · intro hh
        exact absurd rfl (hh _ (List.mem_of_getElem? (i := n) (by rw [List.getElem?_set_self', hx]; rfl)))
      · intro z hz hzh w hw
        rcases mem_set_cases hw with rfl | ⟨i, _, h2⟩
        · rfl
        · exact hno w (List.mem_of_getElem? h2)
    | reading _ => cases hp
    | writing _ => cases hp
  | @write m th n c w k rd wr hx =>
    obtain ⟨y, hy, hT⟩ := h.get hx
    generalize hp : (⟨c, some (.write w k), rd, wr⟩ : Thread κ σ ρ) = x at hT
    cases hT with
    | done => cases hp
    | @out c' d =>
      injection hp with h1 h2 h3 h4
      injection h2 with h2
      rcases compile_cases hm d with ⟨r', rfl⟩ | ⟨k', rfl⟩ | ⟨k', hk⟩ | ⟨k', hk⟩
      · cases h2
      · cases h2
      · rw [hk] at h2; cases h2
      · rw [hk] at h2; cases h2
    | waiting _ => cases hp
    | reading hr => injection hp with _ h2; injection h2 with h2; subst h2; cases hr
    | @writing c' d p hr =>
      injection hp with h1 h2 h3 h4
      subst h1 h3 h4
      injection h2 with h2
      subst h2
      have hno := h.alone _ (List.mem_of_getElem? hx) rfl
      have hoth : ∀ (i : Nat) z, i ≠ n → th[i]? = some z → z.wr = .none := by
        intro i z hi hz
        by_cases hzn : z.wr = .none
        · exact hzn
        · exact absurd (h.excl i n z _ hz hx hzn (by simp)) hi
      cases hr with
      | write hr =>
        have := h.update (m' := w m) (a' := am) hx (.writing (c := c) hr) ?_ ?_ (fun _ => hoth) ?_
        · rw [set_self hy] at this
          exact .inr ⟨rfl, this⟩
        · intro i z w' hi hz hT'
          exact hT'.indep (hno z (List.mem_of_getElem? hz)) (by rw [hoth i z hi hz]; simp)
        · intro hh
          exact absurd rfl (hh _ (List.mem_of_getElem? (i := n) (by rw [List.getElem?_set_self', hx]; rfl)))
        · intro z hz hzh w' hw
          rcases mem_set_cases hw with rfl | ⟨i, _, h2⟩
          · rfl
          · exact hno w' (List.mem_of_getElem? h2)
  | @unlock m th n c k rd hx =>
    obtain ⟨y, hy, hT⟩ := h.get hx
    generalize hp : (⟨c, some (.unlock k), rd, .held⟩ : Thread κ σ ρ) = x at hT
    cases hT with
    | done => cases hp
    | out => injection hp with _ _ _ h4; cases h4
    | waiting _ => cases hp
    | reading hr => cases hp
    | @writing c' d p hr =>
      injection hp with h1 h2 h3 h4
      subst h1 h3
      injection h2 with h2
      subst h2
      have hno := h.alone _ (List.mem_of_getElem? hx) rfl
      have hoth : ∀ (i : Nat) z, i ≠ n → th[i]? = some z → z.wr = .none := by
        intro i z hi hz
        by_cases hzn : z.wr = .none
        · exact hzn
        · exact absurd (h.excl i n z _ hz hx hzn (by simp)) hi
      cases hr with
      | last =>
        have := h.update (m' := am) (a' := am) hx (.out (c := c) (d := d)) (fun _ _ _ _ _ h => h) (fun _ => rfl)
          (fun hh => absurd rfl hh) ?_
        · rw [set_self hy] at this
          exact .inr ⟨rfl, this⟩
        · intro z hz hzh
          rcases mem_set_cases hz with rfl | ⟨i, hi, h2⟩
          · cases hzh
          · rw [hoth i z hi h2] at hzh; cases hzh

/-- **Atomicity.** Every execution has the same history as one of the atomic system. -/
theorem sim {meth : κ₀ → Prog σ ρ₀} {sem : σ → κ₀ → σ × ρ₀} (hm : Sections meth sem)
    {code : κ → Client κ₀ ρ₀ σ ρ} {m₀ : σ} {g : Cfg κ σ ρ} {H : List (Ev κ ρ)}
    (h : Exec (fun c => (code c).compile meth) m₀ g H) :
    ∃ a G, AExec code sem (fun _ _ => True) m₀ a G H ∧ Rel meth g a := by
  induction h with
  | init => exact ⟨_, _, .init, rfl, by simp, fun _ => rfl, by simp, by simp⟩
  | step _ hs ih =>
    obtain ⟨a, G, h1, h2⟩ := ih
    rcases h2.step hm hs with ⟨x, a', h3, h4, _⟩ | ⟨rfl, h4⟩
    · exact ⟨a', _, .step h1 h3, h4⟩
    · exact ⟨a, G, by simpa using h1, h4⟩

end Verif.Conc
