import Verif.Conc.Rely

/-!
A call that accesses the memory without lock, and that no other call overlaps with, may as well hold the write
lock: every execution has the same history as one of the programs with lock.
-/

namespace Verif.Conc
variable {κ κ₀ σ ρ ρ₀ : Type}

theorem overlap_of_pending {code : κ → Prog σ ρ} {m₀ : σ} {g : Cfg κ σ ρ} {H : List (Ev κ ρ)}
    (h : Exec code m₀ g H) {n m : Nat} {x y : Thread κ σ ρ} (hx : g.th[n]? = some x)
    (hy : g.th[m]? = some y) (hxp : x.prog ≠ none) (hyp : y.prog ≠ none) : Overlap H m n := by
  obtain ⟨m', c, _, hm, ho⟩ := disturbed_of_pending (bad := fun _ => True) h hx hy hxp hyp trivial
  have key : ∀ {n : Nat} {x : Thread κ σ ρ}, g.th[n]? = some x → x.prog ≠ none → ∀ b, ¬ Before H n b := by
    rintro n x hx hxp b ⟨r, c, hsub⟩
    obtain ⟨x', hx', hp⟩ := (exec_invs h).2 n r (hsub.subset (List.mem_cons_self ..))
    rw [hx] at hx'
    cases hx'
    exact hxp hp
  exact ⟨key hy hyp n, key hx hxp m⟩

/-- steps of calls in progress do not depend on the programs of other calls -/
theorem Step.recode {code code' : κ → Prog σ ρ} {g g' : Cfg κ σ ρ} {e : Option (Ev κ ρ)} (h : Step code g e g')
    (he : ∀ n c, e ≠ some (.inv n c)) : Step code' g e g' := by
  cases h with
  | inv c => exact absurd rfl (he _ _)
  | ret h => exact .ret h
  | read h => exact .read h
  | write h => exact .write h
  | rlock h h' => exact .rlock h h'
  | runlock h => exact .runlock h
  | wait h h' => exact .wait h h'
  | lock h h' => exact .lock h h'
  | unlock h => exact .unlock h

theorem overlap_step {code : κ → Prog σ ρ} {m₀ : σ} {g g' : Cfg κ σ ρ} {H : List (Ev κ ρ)} {e : Option (Ev κ ρ)}
    (h : Exec code m₀ g H) (hs : Step code g e g') {m n : Nat} {c c' : κ} (hn : Ev.inv n c ∈ H) (hm : Ev.inv m c' ∈ H)
    (ho : Overlap H m n) : Overlap (H ++ e.toList) m n :=
  ⟨fun h' => ho.1 (before_of_step h hs hn h'), fun h' => ho.2 (before_of_step h hs hm h')⟩

/-- the calls of the given kind overlap with no other call -/
def Alone (S : κ → Prop) (H : List (Ev κ ρ)) : Prop :=
  ∀ n c, Ev.inv n c ∈ H → S c → ∀ m c', Ev.inv m c' ∈ H → m ≠ n → ¬ Overlap H m n

theorem Alone.pre {code : κ → Prog σ ρ} {m₀ : σ} {g g' : Cfg κ σ ρ} {H : List (Ev κ ρ)} {e : Option (Ev κ ρ)}
    (h : Exec code m₀ g H) (hs : Step code g e g') {S : κ → Prop} (ha : Alone S (H ++ e.toList)) : Alone S H :=
  fun n c hn hc m c' hm hne ho => ha n c (List.mem_append_left _ hn) hc m c' (List.mem_append_left _ hm) hne
    (overlap_step h hs hn hm ho)

/-- **Calls that overlap with nothing.** -/
theorem exec_solo {code code' : κ → Prog σ ρ} {m₀ : σ} {S : κ → Prop} (hsame : ∀ c, ¬ S c → code c = code' c)
    (hS : ∀ c, S c → NoLock (code c) ∧ ∃ k, code' c = .lock k ∧
      ∀ m, InW ((code c).exec m).1 (.ret ((code c).exec m).2) m k)
    (hq : ∀ g H, Exec code' m₀ g H → ∀ x ∈ g.th, x.prog = none → x.rd = 0 ∧ x.wr = .none)
    {g : Cfg κ σ ρ} {H : List (Ev κ ρ)} (h : Exec code m₀ g H) : Alone S H →
    ∃ g', Exec code' m₀ g' H ∧ (g' = g ∨ ∃ (n : Nat) (c : κ) (p : Prog σ ρ), g.th[n]? = some ⟨c, some p, 0, .none⟩ ∧ S c ∧
      NoLock p ∧ p.exec g.mem = (code c).exec g'.mem ∧ g'.th = g.th.set n ⟨c, some (code' c), 0, .none⟩ ∧
      ∀ (i : Nat) x, i ≠ n → g.th[i]? = some x → x.prog = none ∧ x.rd = 0 ∧ x.wr = .none) := by
  induction h with
  | init => exact fun _ => ⟨_, .init, .inl rfl⟩
  | @step g H e g1 h0 hs ih =>
    intro ha
    obtain ⟨g', he, hB⟩ := ih (ha.pre h0 hs)
    have h1 := Exec.step h0 hs
    -- a step of the special call, or of another one
    have hspec : ∀ {n i : Nat} {c : κ} {p : Prog σ ρ} {c' : κ} {p' : Prog σ ρ} {rd wr}, g.th[n]? = some ⟨c, some p, 0, .none⟩ →
        (∀ (i : Nat) x, i ≠ n → g.th[i]? = some x → x.prog = none ∧ x.rd = 0 ∧ x.wr = .none) →
        g.th[i]? = some ⟨c', some p', rd, wr⟩ → i = n ∧ p' = p ∧ c' = c ∧ rd = 0 ∧ wr = .none := by
      intro n i c p c' p' rd wr hn hoth hi
      by_cases hin : i = n
      · subst hin
        rw [hn] at hi
        cases hi
        exact ⟨rfl, rfl, rfl, rfl, rfl⟩
      · have := (hoth i _ hin hi).1
        cases this
    by_cases hinv : ∃ n c, e = some (.inv n c)
    · obtain ⟨n0, c0, rfl⟩ := hinv
      generalize hev : (some (Ev.inv n0 c0) : Option (Ev κ ρ)) = ev at hs
      cases hs with
      | @inv m th c =>
        obtain ⟨rfl, rfl⟩ : n0 = th.length ∧ c = c0 := by
          injection hev with hev
          injection hev with h1 h2
          exact ⟨h1, h2.symm⟩
        have hlast : (th ++ [(⟨c, some (code c), 0, .none⟩ : Thread κ σ ρ)])[th.length]? = some ⟨c, some (code c), 0, .none⟩ := by
          simp
        rcases hB with rfl | ⟨n, c', p, hn, hc', _, _, _, _⟩
        · by_cases hc : S c
          · refine ⟨_, he.step (.inv c), .inr ⟨th.length, c, code c, hlast, hc, (hS c hc).1, rfl, ?_, ?_⟩⟩
            · simp
            · intro i x hi hx
              rcases getElem?_snoc hx with hx' | ⟨h2, _⟩
              · have hp : x.prog = none := by
                  by_contra hp
                  have ho := overlap_of_pending h1 hlast hx (by simp) hp
                  refine ha th.length c ?_ hc i x.call ?_ hi ho
                  · simp
                  · exact ((exec_invs h1).1 _ _).2 ⟨x, hx, rfl⟩
                exact ⟨hp, hq _ _ he x (List.mem_of_getElem? hx') hp⟩
              · exact absurd h2 hi
          · refine ⟨_, he.step (.inv c), .inl ?_⟩
            rw [hsame c hc]
        · exfalso
          have hn' : (th ++ [(⟨c, some (code c), 0, .none⟩ : Thread κ σ ρ)])[n]? = some ⟨c', some p, 0, .none⟩ := by
            rw [List.getElem?_append_left (List.getElem?_eq_some_iff.1 hn).1]; exact hn
          have ho := overlap_of_pending h1 hn' hlast (by simp) (by simp)
          have hlt := (List.getElem?_eq_some_iff.1 hn).1
          simp only at hlt
          exact ha n c' (((exec_invs h1).1 _ _).2 ⟨_, hn', rfl⟩) hc' th.length c (by simp) (by omega) ho
      | _ => cases hev
    · have hne : ∀ n c, e ≠ some (.inv n c) := fun n c h => hinv ⟨n, c, h⟩
      rcases hB with rfl | ⟨n, c, p, hn, hc, hp, hex, hth, hoth⟩
      · exact ⟨_, he.step (hs.recode hne), .inl rfl⟩
      · have hkeep : ∀ {m' : σ} {p' : Prog σ ρ}, NoLock p' → p'.exec m' = p.exec g.mem →
            ∃ g'', Exec code' m₀ g'' (H ++ (none : Option (Ev κ ρ)).toList) ∧ (g'' = ⟨m', g.th.set n ⟨c, some p', 0, .none⟩⟩ ∨
              ∃ (i : Nat) (c' : κ) (q : Prog σ ρ), (g.th.set n ⟨c, some p', 0, .none⟩)[i]? = some ⟨c', some q, 0, .none⟩ ∧ S c' ∧
              NoLock q ∧ q.exec m' = (code c').exec g''.mem ∧
              g''.th = (g.th.set n ⟨c, some p', 0, .none⟩).set i ⟨c', some (code' c'), 0, .none⟩ ∧
              ∀ (j : Nat) x, j ≠ i → (g.th.set n ⟨c, some p', 0, .none⟩)[j]? = some x → x.prog = none ∧ x.rd = 0 ∧ x.wr = .none) := by
          intro m' p' h2 h3
          refine ⟨g', by simpa using he, .inr ⟨n, c, p', getElem?_set_same hn, hc, h2, h3.trans hex, ?_, ?_⟩⟩
          · rw [List.set_set]; exact hth
          · intro j x hj hx
            rw [List.getElem?_set_ne (fun h => hj h.symm)] at hx
            exact hoth j x hj hx
        cases hs with
        | inv c => exact absurd rfl (hne _ _)
        | @ret m th i c' r rd wr hi =>
          obtain ⟨rfl, rfl, rfl, rfl, rfl⟩ := hspec hn hoth hi
          obtain ⟨m', th'⟩ := g'
          simp only at hth hex hn hoth
          subst hth
          obtain ⟨_, k, hk, hw⟩ := hS c' hc
          rw [hk] at he
          have hset : (th.set i ⟨c', some (.lock k), 0, .none⟩)[i]? = some (⟨c', some (.lock k), 0, .none⟩ : Thread κ σ ρ) :=
            getElem?_set_same hn
          have hnw : NoWriter (th.set i (⟨c', some (.lock k), 0, .none⟩ : Thread κ σ ρ)) := by
            intro x hx
            rcases mem_set_cases hx with rfl | ⟨j, hj, hx⟩
            · rfl
            · exact (hoth j x hj hx).2.2
          have e1 := he.none (.wait hset hnw)
          rw [List.set_set] at e1
          have hset2 : (th.set i ⟨c', some (.lock k), 0, .waiting⟩)[i]? = some (⟨c', some (.lock k), 0, .waiting⟩ : Thread κ σ ρ) :=
            getElem?_set_same hn
          have hnr : NoReader (th.set i (⟨c', some (.lock k), 0, .waiting⟩ : Thread κ σ ρ)) := by
            intro x hx
            rcases mem_set_cases hx with rfl | ⟨j, hj, hx⟩
            · rfl
            · exact (hoth j x hj hx).2.1
          have e2 := e1.none (.lock hset2 hnr)
          rw [List.set_set] at e2
          have e3 := run_InW (hw m') e2 (getElem?_set_same hn)
          rw [List.set_set, ← hex] at e3
          have e4 := e3.some (.ret (getElem?_set_same hn))
          rw [List.set_set] at e4
          exact ⟨_, e4, .inl rfl⟩
        | @read m th i c' k rd wr hi =>
          obtain ⟨rfl, rfl, rfl, rfl, rfl⟩ := hspec hn hoth hi
          cases hp with
          | read hp => exact hkeep (hp _) rfl
        | @write m th i c' w k rd wr hi =>
          obtain ⟨rfl, rfl, rfl, rfl, rfl⟩ := hspec hn hoth hi
          cases hp with
          | write hp => exact hkeep hp rfl
        | @rlock m th i c' k rd wr hi _ =>
          obtain ⟨rfl, rfl, _⟩ := hspec hn hoth hi
          cases hp
        | @runlock m th i c' k rd wr hi =>
          obtain ⟨rfl, rfl, _⟩ := hspec hn hoth hi
          cases hp
        | @wait m th i c' k rd hi _ =>
          obtain ⟨rfl, rfl, _⟩ := hspec hn hoth hi
          cases hp
        | @lock m th i c' k rd hi _ =>
          obtain ⟨rfl, rfl, _⟩ := hspec hn hoth hi
          cases hp
        | @unlock m th i c' k rd hi =>
          obtain ⟨rfl, rfl, _⟩ := hspec hn hoth hi
          cases hp

end Verif.Conc
