import Verif.Conc.Methods
import Verif.Conc.Realize
import Verif.Conc.Trace

/-!
A simple rely-guarantee argument: if every write of every program keeps the memory above what it was (in
some preorder `le`), a program may rely on it.
-/

namespace Verif.Conc
variable {κ κ₀ σ ρ ρ₀ β γ α : Type}

/-- From the memory `m` on, whatever else makes the memory grow, the program only makes it grow, and ends
with a result that satisfies `Q`. -/
def Prog.Safe (le : σ → σ → Prop) (Q : σ → β → Prop) : Prog σ β → σ → Prop
  | .ret r, m => ∀ m', le m m' → Q m' r
  | .read k, m => ∀ m', le m m' → (k m').Safe le Q m'
  | .write w k, m => ∀ m', le m m' → le m' (w m') ∧ k.Safe le Q (w m')
  | .rlock k, m => k.Safe le Q m
  | .runlock k, m => k.Safe le Q m
  | .lock k, m => k.Safe le Q m
  | .unlock k, m => k.Safe le Q m

theorem Safe.mono {le : σ → σ → Prop} (ht : ∀ {a b c}, le a b → le b c → le a c) {Q : σ → β → Prop} {p : Prog σ β} :
    ∀ {m m' : σ}, p.Safe le Q m → le m m' → p.Safe le Q m' := by
  induction p with
  | ret r => exact fun h hl m'' h2 => h m'' (ht hl h2)
  | read k _ => exact fun h hl m'' h2 => h m'' (ht hl h2)
  | write w k _ => exact fun h hl m'' h2 => h m'' (ht hl h2)
  | rlock k ih => exact fun h hl => ih (m := _) h hl
  | runlock k ih => exact fun h hl => ih (m := _) h hl
  | lock k ih => exact fun h hl => ih (m := _) h hl
  | unlock k ih => exact fun h hl => ih (m := _) h hl

theorem Safe.bind {le : σ → σ → Prop} (hr : ∀ a, le a a) {Q : σ → β → Prop} {R : σ → γ → Prop}
    {p : Prog σ β} {f : β → Prog σ γ} (hf : ∀ m r, Q m r → (f r).Safe le R m) :
    ∀ {m : σ}, p.Safe le Q m → (p.bind f).Safe le R m := by
  induction p with
  | ret r => exact fun h => hf _ _ (h _ (hr _))
  | read k ih => exact fun h m' hm => ih _ (h m' hm)
  | write w k ih => exact fun h m' hm => ⟨(h m' hm).1, ih (h m' hm).2⟩
  | rlock k ih => exact fun h => ih (m := _) h
  | runlock k ih => exact fun h => ih (m := _) h
  | lock k ih => exact fun h => ih (m := _) h
  | unlock k ih => exact fun h => ih (m := _) h

theorem Safe.weaken {le : σ → σ → Prop} {Q R : σ → β → Prop} {p : Prog σ β}
    (hf : ∀ m r, Q m r → R m r) : ∀ {m : σ}, p.Safe le Q m → p.Safe le R m := by
  induction p with
  | ret r => exact fun h m' hm => hf _ _ (h m' hm)
  | read k ih => exact fun h m' hm => ih _ (h m' hm)
  | write w k ih => exact fun h m' hm => ⟨(h m' hm).1, ih (h m' hm).2⟩
  | rlock k ih => exact fun h => ih (m := _) h
  | runlock k ih => exact fun h => ih (m := _) h
  | lock k ih => exact fun h => ih (m := _) h
  | unlock k ih => exact fun h => ih (m := _) h

/-- every write makes the memory grow -/
inductive Grows (le : σ → σ → Prop) : Prog σ β → Prop
  | ret (r) : Grows le (.ret r)
  | read {k} : (∀ s, Grows le (k s)) → Grows le (.read k)
  | write {w k} : (∀ m, le m (w m)) → Grows le k → Grows le (.write w k)
  | rlock {k} : Grows le k → Grows le (.rlock k)
  | runlock {k} : Grows le k → Grows le (.runlock k)
  | lock {k} : Grows le k → Grows le (.lock k)
  | unlock {k} : Grows le k → Grows le (.unlock k)

theorem Grows.bind {le : σ → σ → Prop} {p : Prog σ β} (h : Grows le p) {f : β → Prog σ γ} (hf : ∀ x, Grows le (f x)) :
    Grows le (p.bind f) := by
  induction h with
  | ret r => exact hf r
  | read _ ih => exact .read ih
  | write h1 _ ih => exact .write h1 ih
  | rlock _ ih => exact .rlock ih
  | runlock _ ih => exact .runlock ih
  | lock _ ih => exact .lock ih
  | unlock _ ih => exact .unlock ih

theorem Grows.safe {le : σ → σ → Prop} {p : Prog σ β} (h : Grows le p) : ∀ m, p.Safe le (fun _ _ => True) m := by
  induction h with
  | ret r => exact fun _ _ _ => trivial
  | read _ ih => exact fun m m' _ => ih m' m'
  | write h1 _ ih => exact fun m m' _ => ⟨h1 m', ih _⟩
  | rlock _ ih => exact fun m => ih m
  | runlock _ ih => exact fun m => ih m
  | lock _ ih => exact fun m => ih m
  | unlock _ ih => exact fun m => ih m

theorem RdOnly.grows {le : σ → σ → Prop} {p : Prog σ β} (h : RdOnly p) : Grows le p := by
  induction h with
  | ret r => exact .ret r
  | read _ ih => exact .read ih

theorem Grows.withRLock {le : σ → σ → Prop} {p : Prog σ β} (h : Grows le p) : Grows le (withRLock p) :=
  .rlock (h.bind fun _ => .runlock (.ret _))

theorem Grows.withLock {le : σ → σ → Prop} {p : Prog σ β} (h : Grows le p) : Grows le (withLock p) :=
  .lock (h.bind fun _ => .unlock (.ret _))

theorem Grows.put {le : σ → σ → Prop} {w : σ → σ} (h : ∀ m, le m (w m)) : Grows le (put w) := .write h (.ret _)

/-! ### Histories -/

theorem getElem?_snoc {A : Type} {l : List A} {y x : A} {n : Nat} (h : (l ++ [y])[n]? = some x) :
    l[n]? = some x ∨ (n = l.length ∧ x = y) := by
  by_cases hlt : n < l.length
  · rw [List.getElem?_append_left hlt] at h
    exact .inl h
  · rw [List.getElem?_append_right (by omega)] at h
    have h1 := (List.getElem?_eq_some_iff.1 h).1
    simp only [List.length_singleton] at h1
    have h2 : n - l.length = 0 := by omega
    rw [h2] at h
    cases h
    exact .inr ⟨by omega, rfl⟩

/-- the calls of the history are the goroutines of the configuration -/
theorem exec_invs {code : κ → Prog σ ρ} {m₀ : σ} {g : Cfg κ σ ρ} {H : List (Ev κ ρ)} (h : Exec code m₀ g H) :
    (∀ n c, Ev.inv n c ∈ H ↔ ∃ x, g.th[n]? = some x ∧ x.call = c) ∧
    (∀ n r, Ev.ret n r ∈ H → ∃ x, g.th[n]? = some x ∧ x.prog = none) := by
  induction h with
  | init => exact ⟨by simp, by simp⟩
  | @step g H e g' h0 hs ih =>
    obtain ⟨ih1, ih2⟩ := ih
    have key : ∀ {n : Nat} {c p rd wr}, g.th[n]? = some ⟨c, some p, rd, wr⟩ → ∀ {p' : Option (Prog σ ρ)} {rd' wr'},
        (∀ (i : Nat) (d : κ), (∃ x : Thread κ σ ρ, g.th[i]? = some x ∧ x.call = d) ↔
          ∃ x : Thread κ σ ρ, (g.th.set n ⟨c, p', rd', wr'⟩)[i]? = some x ∧ x.call = d) ∧
        (∀ (i : Nat) r, Ev.ret i r ∈ H → ∃ x : Thread κ σ ρ, (g.th.set n ⟨c, p', rd', wr'⟩)[i]? = some x ∧ x.prog = none) := by
      intro n c p rd wr hn p' rd' wr'
      refine ⟨fun i d => ⟨?_, ?_⟩, ?_⟩
      · rintro ⟨x, hx, rfl⟩
        by_cases hi : i = n
        · subst hi
          rw [hn] at hx
          cases hx
          exact ⟨_, getElem?_set_same hn, rfl⟩
        · exact ⟨x, by rw [List.getElem?_set_ne (fun e => hi e.symm)]; exact hx, rfl⟩
      · rintro ⟨x, hx, rfl⟩
        rcases getElem?_set_cases hx with ⟨rfl, rfl⟩ | ⟨_, h2⟩
        · exact ⟨_, hn, rfl⟩
        · exact ⟨x, h2, rfl⟩
      · intro i r hi
        obtain ⟨x, hx, hp⟩ := ih2 i r hi
        by_cases hin : i = n
        · subst hin
          rw [hn] at hx
          cases hx
          cases hp
        · exact ⟨x, by rw [List.getElem?_set_ne (fun e => hin e.symm)]; exact hx, hp⟩
    cases hs with
    | @inv m th c =>
      refine ⟨fun n d => ⟨?_, ?_⟩, ?_⟩
      · intro hn
        rcases List.mem_append.1 hn with hn | hn
        · obtain ⟨x, hx, hd⟩ := (ih1 n d).1 hn
          exact ⟨x, by rw [List.getElem?_append_left (List.getElem?_eq_some_iff.1 hx).1]; exact hx, hd⟩
        · simp only [Option.toList, List.mem_cons, Ev.inv.injEq, List.not_mem_nil, or_false] at hn
          obtain ⟨rfl, rfl⟩ := hn
          exact ⟨⟨d, some (code d), 0, .none⟩, by simp, rfl⟩
      · rintro ⟨x, hx, rfl⟩
        rcases getElem?_snoc hx with hx | ⟨rfl, rfl⟩
        · exact List.mem_append_left _ ((ih1 n _).2 ⟨x, hx, rfl⟩)
        · exact List.mem_append_right _ (List.mem_cons_self ..)
      · intro n r hn
        rcases List.mem_append.1 hn with hn | hn
        · obtain ⟨x, hx, hd⟩ := ih2 n r hn
          exact ⟨x, by rw [List.getElem?_append_left (List.getElem?_eq_some_iff.1 hx).1]; exact hx, hd⟩
        · simp at hn
    | @ret m th n c r rd wr hx =>
      refine ⟨fun i d => ?_, ?_⟩
      · rw [← (key hx).1 i d, ← ih1]
        simp
      · intro i r' hi
        rcases List.mem_append.1 hi with hi | hi
        · exact (key hx).2 i r' hi
        · simp only [Option.toList, List.mem_cons, Ev.ret.injEq, List.not_mem_nil, or_false] at hi
          obtain ⟨rfl, rfl⟩ := hi
          exact ⟨_, getElem?_set_same hx, rfl⟩
    | read hx | write hx | rlock hx _ | runlock hx | wait hx _ | lock hx _ | unlock hx =>
      refine ⟨fun i d => ?_, ?_⟩
      · rw [← (key hx).1 i d, ← ih1]
        simp
      · intro i r' hi
        exact (key hx).2 i r' (by simpa using hi)

/-- calls `a` and `b` overlap in time -/
def Overlap (H : List (Ev κ ρ)) (a b : Nat) : Prop := ¬ Before H a b ∧ ¬ Before H b a

/-- some call of the given kind overlaps with call `n` -/
def Disturbed (bad : κ → Prop) (H : List (Ev κ ρ)) (n : Nat) : Prop :=
  ∃ m c, bad c ∧ Ev.inv m c ∈ H ∧ Overlap H m n

theorem before_of_step {code : κ → Prog σ ρ} {m₀ : σ} {g g' : Cfg κ σ ρ} {H : List (Ev κ ρ)} {e : Option (Ev κ ρ)}
    (h : Exec code m₀ g H) (hs : Step code g e g') {a b : Nat} {c : κ} (hb : Ev.inv b c ∈ H)
    (hab : Before (H ++ e.toList) a b) : Before H a b := by
  obtain ⟨r, c', hsub⟩ := hab
  cases e with
  | none => exact ⟨r, c', by simpa using hsub⟩
  | some e =>
    rcases sublist_snoc_of_ne hsub with h1 | ⟨_, rfl⟩
    · exact ⟨r, c', h1⟩
    · cases hs
      obtain ⟨x, hx, _⟩ := ((exec_invs h).1 _ _).1 hb
      have := (List.getElem?_eq_some_iff.1 hx).1
      simp at this

theorem Disturbed.step {code : κ → Prog σ ρ} {m₀ : σ} {g g' : Cfg κ σ ρ} {H : List (Ev κ ρ)} {e : Option (Ev κ ρ)}
    (h : Exec code m₀ g H) (hs : Step code g e g') {bad : κ → Prop} {n : Nat} {c : κ} (hn : Ev.inv n c ∈ H)
    (hd : Disturbed bad H n) : Disturbed bad (H ++ e.toList) n := by
  obtain ⟨m, d, hb, hm, h1, h2⟩ := hd
  exact ⟨m, d, hb, List.mem_append_left _ hm, fun h' => h1 (before_of_step h hs hn h'),
    fun h' => h2 (before_of_step h hs hm h')⟩

theorem disturbed_of_pending {code : κ → Prog σ ρ} {m₀ : σ} {g : Cfg κ σ ρ} {H : List (Ev κ ρ)}
    (h : Exec code m₀ g H) {bad : κ → Prop} {n m : Nat} {x y : Thread κ σ ρ} (hx : g.th[n]? = some x)
    (hy : g.th[m]? = some y) (hxp : x.prog ≠ none) (hyp : y.prog ≠ none) (hb : bad y.call) : Disturbed bad H n := by
  have key : ∀ {n : Nat} {x : Thread κ σ ρ}, g.th[n]? = some x → x.prog ≠ none → ∀ b, ¬ Before H n b := by
    rintro n x hx hxp b ⟨r, c, hsub⟩
    obtain ⟨x', hx', hp⟩ := (exec_invs h).2 n r (hsub.subset (List.mem_cons_self ..))
    rw [hx] at hx'
    cases hx'
    exact hxp hp
  exact ⟨m, y.call, hb, ((exec_invs h).1 _ _).2 ⟨y, hy, rfl⟩, key hy hyp n, key hx hxp m⟩

/-- at some moment during the call `n`, with the memory `m`, no bad call is in progress, and `Q m` holds -/
def Once (code : κ → Prog σ ρ) (m₀ : σ) (bad : κ → Prop) (H : List (Ev κ ρ)) (n : Nat) (Q : σ → Prop) : Prop :=
  ∃ g H₁, Exec code m₀ g H₁ ∧ H₁ <+: H ∧ g.Pending n ∧ (∀ x ∈ g.th, x.prog ≠ none → ¬ bad x.call) ∧ Q g.mem

theorem Once.snoc {code : κ → Prog σ ρ} {m₀ : σ} {bad : κ → Prop} {H : List (Ev κ ρ)} {n : Nat} {Q : σ → Prop}
    (h : Once code m₀ bad H n Q) (l : List (Ev κ ρ)) : Once code m₀ bad (H ++ l) n Q := by
  obtain ⟨g, H₁, h1, h2, h3⟩ := h
  exact ⟨g, H₁, h1, h2.trans (List.prefix_append _ _), h3⟩

/-- Soundness: if all calls, apart from bad ones, make the memory grow and are safe from any memory on, their
replies are as promised for the memory at some moment during the call, unless they overlap with a bad call. -/
theorem exec_safe_once {code : κ → Prog σ ρ} {m₀ : σ} {le : σ → σ → Prop} (hr : ∀ a, le a a)
    (ht : ∀ {a b c}, le a b → le b c → le a c) {Q : κ → σ → ρ → Prop} {bad : κ → Prop}
    (hg : ∀ c, ¬ bad c → Grows le (code c))
    (hc : ∀ c, ¬ bad c → ∀ m, (code c).Safe le (Q c) m) {g : Cfg κ σ ρ} {H : List (Ev κ ρ)}
    (h : Exec code m₀ g H) :
      (∀ (n : Nat) (x : Thread κ σ ρ) (p : Prog σ ρ), g.th[n]? = some x → x.prog = some p → ¬ bad x.call →
        Grows le p ∧ (p.Safe le (Q x.call) g.mem ∨ Disturbed bad H n)) ∧
      (∀ (n : Nat) (c : κ) (r : ρ), Ev.inv n c ∈ H → Ev.ret n r ∈ H → ¬ bad c →
        Once code m₀ bad H n (Q c · r) ∨ Disturbed bad H n) := by
  induction h with
  | init => exact ⟨by simp, by simp⟩
  | @step g H e g' h0 hs ih =>
    obtain ⟨ih1, ih2⟩ := ih
    have hmem : ∀ {n : Nat} {x : Thread κ σ ρ}, g.th[n]? = some x → Ev.inv n x.call ∈ H :=
      fun hx => ((exec_invs h0).1 _ _).2 ⟨_, hx, rfl⟩
    have hold : ∀ (n : Nat) (c : κ) (r : ρ), Ev.inv n c ∈ H → Ev.ret n r ∈ H → ¬ bad c →
        Once code m₀ bad (H ++ e.toList) n (Q c · r) ∨ Disturbed bad (H ++ e.toList) n := by
      intro n c r hi hn hb
      rcases ih2 n c r hi hn hb with h1 | h1
      · exact .inl (h1.snoc _)
      · exact .inr (h1.step h0 hs hi)
    -- the other goroutines after a step of one of them
    have other : ∀ {n : Nat} {c p rd wr}, g.th[n]? = some ⟨c, some p, rd, wr⟩ → ∀ {m' : σ},
        (¬ bad c → le g.mem m') → ∀ (i : Nat) (x : Thread κ σ ρ) (q : Prog σ ρ), g.th[i]? = some x → x.prog = some q →
          ¬ bad x.call → Grows le q ∧ (q.Safe le (Q x.call) m' ∨ Disturbed bad (H ++ e.toList) i) := by
      intro n c p rd wr hn m' hle i x q hx hq hb
      obtain ⟨h1, h2⟩ := ih1 i x q hx hq hb
      refine ⟨h1, ?_⟩
      by_cases hbc : bad c
      · exact .inr ((disturbed_of_pending h0 hx hn (by simp [hq]) (by simp) hbc).step h0 hs (hmem hx))
      · rcases h2 with h2 | h2
        · exact .inl (Safe.mono (le := le) (m := g.mem) ht h2 (hle hbc))
        · exact .inr (h2.step h0 hs (hmem hx))
    -- a step of one goroutine
    have key : ∀ {n : Nat} {c p rd wr}, g.th[n]? = some ⟨c, some p, rd, wr⟩ → ∀ {m' : σ} {p' : Prog σ ρ} {rd' wr'},
        (Grows le p → le g.mem m' ∧ Grows le p') →
        (p.Safe le (Q c) g.mem → p'.Safe le (Q c) m') →
        (∀ (i : Nat) (x : Thread κ σ ρ) (q : Prog σ ρ), (g.th.set n ⟨c, some p', rd', wr'⟩)[i]? = some x → x.prog = some q →
          ¬ bad x.call → Grows le q ∧ (q.Safe le (Q x.call) m' ∨ Disturbed bad (H ++ e.toList) i)) := by
      intro n c p rd wr hn m' p' rd' wr' hgr hsa i x q hx hq hb
      rcases getElem?_set_cases hx with ⟨rfl, rfl⟩ | ⟨_, h2⟩
      · cases hq
        obtain ⟨h1, h2⟩ := ih1 _ _ _ hn rfl hb
        refine ⟨(hgr h1).2, ?_⟩
        rcases h2 with h2 | h2
        · exact .inl (hsa h2)
        · exact .inr (h2.step h0 hs (hmem hn))
      · exact other hn (fun hbc => (hgr (ih1 _ _ _ hn rfl hbc).1).1) i x q h2 hq hb
    have hret : e = Option.none → ∀ (n : Nat) (c : κ) (r : ρ), Ev.inv n c ∈ H ++ e.toList → Ev.ret n r ∈ H ++ e.toList →
        ¬ bad c → Once code m₀ bad (H ++ e.toList) n (Q c · r) ∨ Disturbed bad (H ++ e.toList) n := by
      rintro rfl n c r hi hn hb
      exact hold n c r (by simpa using hi) (by simpa using hn) hb
    cases hs with
    | @inv m th c =>
      refine ⟨?_, ?_⟩
      · intro i x q hx hq hb
        rcases getElem?_snoc hx with hx | ⟨rfl, rfl⟩
        · obtain ⟨h1, h2⟩ := ih1 i x q hx hq hb
          refine ⟨h1, ?_⟩
          rcases h2 with h2 | h2
          · exact .inl h2
          · exact .inr (h2.step h0 (.inv c) (hmem hx))
        · cases hq
          exact ⟨hg c hb, .inl (hc c hb m)⟩
      · intro n d r hi hn hb
        have hn' : Ev.ret n r ∈ H := by simpa using hn
        obtain ⟨x, hx, _⟩ := (exec_invs h0).2 n r hn'
        rcases List.mem_append.1 hi with hi | hi
        · exact hold n d r hi hn' hb
        · simp only [Option.toList, List.mem_cons, Ev.inv.injEq, List.not_mem_nil, or_false] at hi
          have := (List.getElem?_eq_some_iff.1 hx).1
          simp only at this
          omega
    | @ret m th n c r rd wr hx =>
      refine ⟨?_, ?_⟩
      · intro i x q hi hq hb
        rcases getElem?_set_cases hi with ⟨rfl, rfl⟩ | ⟨_, h2⟩
        · cases hq
        · exact other hx (fun _ => hr _) i x q h2 hq hb
      · intro n' c' r' hi hn hb
        have hi' : Ev.inv n' c' ∈ H := by simpa using hi
        rcases List.mem_append.1 hn with hn | hn
        · exact hold n' c' r' hi' hn hb
        · simp only [Option.toList, List.mem_cons, Ev.ret.injEq, List.not_mem_nil, or_false] at hn
          obtain ⟨rfl, rfl⟩ := hn
          obtain ⟨x, hx', rfl⟩ := ((exec_invs h0).1 _ _).1 hi'
          simp only at hx'
          rw [hx] at hx'
          cases hx'
          rcases (ih1 _ _ _ hx rfl hb).2 with h1 | h1
          · by_cases hbad : ∃ y ∈ th, y.prog ≠ none ∧ bad y.call
            · obtain ⟨y, hy, hy1, hy2⟩ := hbad
              obtain ⟨i, hi2⟩ := List.mem_iff_getElem?.1 hy
              exact .inr ((disturbed_of_pending h0 hx hi2 (by simp) hy1 hy2).step h0 (.ret hx) hi')
            · refine .inl ⟨_, _, h0, List.prefix_append _ _, ⟨_, _, hx, rfl⟩, ?_, h1 _ (hr _)⟩
              exact fun y hy hy1 hy2 => hbad ⟨y, hy, hy1, hy2⟩
          · exact .inr (h1.step h0 (.ret hx) hi')
    | read hx =>
      refine ⟨key hx (fun h => ?_) (fun h => h _ (hr _)), hret rfl⟩
      cases h with
      | read h => exact ⟨hr _, h _⟩
    | write hx =>
      refine ⟨key hx (fun h => ?_) (fun h => (h _ (hr _)).2), hret rfl⟩
      cases h with
      | write h h' => exact ⟨h _, h'⟩
    | rlock hx _ =>
      refine ⟨key hx (fun h => ?_) (fun h => h), hret rfl⟩
      cases h with
      | rlock h => exact ⟨hr _, h⟩
    | runlock hx =>
      refine ⟨key hx (fun h => ?_) (fun h => h), hret rfl⟩
      cases h with
      | runlock h => exact ⟨hr _, h⟩
    | wait hx _ => exact ⟨key hx (fun h => ⟨hr _, h⟩) (fun h => h), hret rfl⟩
    | lock hx _ =>
      refine ⟨key hx (fun h => ?_) (fun h => h), hret rfl⟩
      cases h with
      | lock h => exact ⟨hr _, h⟩
    | unlock hx =>
      refine ⟨key hx (fun h => ?_) (fun h => h), hret rfl⟩
      cases h with
      | unlock h => exact ⟨hr _, h⟩

/-- the same, if the promise does not depend on the memory -/
theorem exec_safe {code : κ → Prog σ ρ} {m₀ : σ} {le : σ → σ → Prop} (hr : ∀ a, le a a)
    (ht : ∀ {a b c}, le a b → le b c → le a c) {Q : κ → ρ → Prop} {bad : κ → Prop}
    (hg : ∀ c, ¬ bad c → Grows le (code c))
    (hc : ∀ c, ¬ bad c → ∀ m, (code c).Safe le (fun _ => Q c) m) {g : Cfg κ σ ρ} {H : List (Ev κ ρ)}
    (h : Exec code m₀ g H) :
      (∀ (n : Nat) (x : Thread κ σ ρ) (p : Prog σ ρ), g.th[n]? = some x → x.prog = some p → ¬ bad x.call →
        Grows le p ∧ (p.Safe le (fun _ => Q x.call) g.mem ∨ Disturbed bad H n)) ∧
      (∀ (n : Nat) (c : κ) (r : ρ), Ev.inv n c ∈ H → Ev.ret n r ∈ H → ¬ bad c → Q c r ∨ Disturbed bad H n) := by
  obtain ⟨h1, h2⟩ := exec_safe_once (Q := fun c _ => Q c) hr ht hg hc h
  refine ⟨h1, fun n c r hi hn hb => ?_⟩
  rcases h2 n c r hi hn hb with ⟨_, _, _, _, _, _, h3⟩ | h3
  · exact .inl h3
  · exact .inr h3

/-! ### Programs that only read -/

/-- a program that neither writes nor takes the write lock -/
inductive NoW : Prog σ β → Prop
  | ret (r) : NoW (.ret r)
  | read {k} : (∀ s, NoW (k s)) → NoW (.read k)
  | rlock {k} : NoW k → NoW (.rlock k)
  | runlock {k} : NoW k → NoW (.runlock k)

theorem NoW.bind {p : Prog σ β} (h : NoW p) {f : β → Prog σ γ} (hf : ∀ x, NoW (f x)) : NoW (p.bind f) := by
  induction h with
  | ret r => exact hf r
  | read _ ih => exact .read ih
  | rlock _ ih => exact .rlock ih
  | runlock _ ih => exact .runlock ih

theorem NoW.grows {le : σ → σ → Prop} {p : Prog σ β} (h : NoW p) : Grows le p := by
  induction h with
  | ret r => exact .ret r
  | read _ ih => exact .read ih
  | rlock _ ih => exact .rlock ih
  | runlock _ ih => exact .runlock ih

/-- while the memory stays the same, it computes what it computes alone -/
theorem NoW.safe {p : Prog σ β} (h : NoW p) {Q : σ → β → Prop} {m : σ} (hQ : Q m (p.exec m).2) : p.Safe Eq Q m := by
  induction h with
  | ret r => rintro m' rfl; exact hQ
  | read _ ih => rintro m' rfl; exact ih m hQ
  | rlock _ ih => exact ih hQ
  | runlock _ ih => exact ih hQ

/-- Calls that only read, and no other call overlaps with them: the reply is the one of the call alone, on the
memory at some moment during the call. -/
theorem exec_snapshot {code : κ → Prog σ ρ} {m₀ : σ} {bad : κ → Prop} (hc : ∀ c, ¬ bad c → NoW (code c))
    {g : Cfg κ σ ρ} {H : List (Ev κ ρ)} (h : Exec code m₀ g H) {n : Nat} {c : κ} {r : ρ} (hi : Ev.inv n c ∈ H)
    (hn : Ev.ret n r ∈ H) (hb : ¬ bad c) :
    Once code m₀ bad H n (fun m => r = ((code c).exec m).2) ∨ Disturbed bad H n :=
  (exec_safe_once (le := Eq) (fun _ => rfl) (fun h1 h2 => h1.trans h2)
    (Q := fun c m r => r = ((code c).exec m).2) (fun c hb => (hc c hb).grows) (fun c hb m => (hc c hb).safe rfl) h).2 n c r hi hn hb

/-- calls that only read do not hold the write lock -/
theorem exec_noW {code : κ → Prog σ ρ} {m₀ : σ} {bad : κ → Prop} (hc : ∀ c, ¬ bad c → NoW (code c))
    {g : Cfg κ σ ρ} {H : List (Ev κ ρ)} (h : Exec code m₀ g H) :
    ∀ x ∈ g.th, ¬ bad x.call → x.wr = .none ∧ ∀ p, x.prog = some p → NoW p := by
  induction h with
  | init => simp
  | @step g H e g' h0 hs ih =>
    have key : ∀ {n : Nat} {c p rd wr}, g.th[n]? = some ⟨c, some p, rd, wr⟩ → ∀ {p' : Option (Prog σ ρ)} {rd' wr'},
        (wr = .none → NoW p → wr' = .none ∧ ∀ q, p' = some q → NoW q) →
        ∀ x ∈ g.th.set n ⟨c, p', rd', wr'⟩, ¬ bad x.call → x.wr = .none ∧ ∀ p, x.prog = some p → NoW p := by
      intro n c p rd wr hn p' rd' wr' hk x hx hb
      rcases mem_set_cases hx with rfl | ⟨i, _, hx⟩
      · obtain ⟨h1, h2⟩ := ih _ (List.mem_of_getElem? hn) hb
        exact hk h1 (h2 _ rfl)
      · exact ih x (List.mem_of_getElem? hx) hb
    cases hs with
    | inv c =>
      intro x hx hb
      rcases List.mem_append.1 hx with hx | hx
      · exact ih x hx hb
      · rcases List.mem_singleton.1 hx with rfl
        exact ⟨rfl, fun p hp => by cases hp; exact hc _ hb⟩
    | ret hx => exact key hx fun h1 _ => ⟨h1, by simp⟩
    | read hx => exact key hx fun h1 h2 => ⟨h1, fun q hq => by cases hq; cases h2 with | read h2 => exact h2 _⟩
    | write hx => exact key hx fun h1 h2 => nomatch h2
    | rlock hx _ => exact key hx fun h1 h2 => ⟨h1, fun q hq => by cases hq; cases h2 with | rlock h2 => exact h2⟩
    | runlock hx => exact key hx fun h1 h2 => ⟨h1, fun q hq => by cases hq; cases h2 with | runlock h2 => exact h2⟩
    | wait hx _ => exact key hx fun h1 h2 => nomatch h2
    | lock hx _ => exact key hx fun h1 h2 => nomatch h2
    | unlock hx => exact key hx fun h1 h2 => nomatch h2

end Verif.Conc
