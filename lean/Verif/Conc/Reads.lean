import Verif.Conc.LabelProps
import Verif.Conc.Props

/-! What a call has read, and when. -/

namespace Verif.Conc
variable {κ κ₀ σ ρ ρ₀ β γ : Type}

/-- `g` is a moment of the execution with history `H` while call `n` is in progress -/
def During (code : κ → Prog σ ρ) (m₀ : σ) (H : List (Ev κ ρ)) (n : Nat) (g : Cfg κ σ ρ) : Prop :=
  ∃ H₁, Exec code m₀ g H₁ ∧ H₁ <+: H ∧ g.Pending n

/-- moments during the call `n`, one after the other -/
def Moments (code : κ → Prog σ ρ) (m₀ : σ) (H : List (Ev κ ρ)) (n : Nat) (gs : List (Cfg κ σ ρ)) : Prop :=
  (∀ g ∈ gs, During code m₀ H n g) ∧ gs.Pairwise fun g g' => ∃ H', Later code g g' H'

/-- the program `p` becomes `q` by steps in which it reads the memories `l` -/
inductive Prog.Saw : Prog σ β → List σ → Prog σ β → Prop
  | refl (p) : Saw p [] p
  | read {k s l q} : Saw (k s) l q → Saw (.read k) (s :: l) q
  | write {w k l q} : Saw k l q → Saw (.write w k) l q
  | rlock {k l q} : Saw k l q → Saw (.rlock k) l q
  | runlock {k l q} : Saw k l q → Saw (.runlock k) l q
  | lock {k l q} : Saw k l q → Saw (.lock k) l q
  | unlock {k l q} : Saw k l q → Saw (.unlock k) l q

theorem Prog.Saw.trans {p q r : Prog σ β} {l l' : List σ} (h : p.Saw l q) : q.Saw l' r → p.Saw (l ++ l') r := by
  induction h with
  | refl => exact fun h => h
  | read _ ih => exact fun h => .read (ih h)
  | write _ ih => exact fun h => .write (ih h)
  | rlock _ ih => exact fun h => .rlock (ih h)
  | runlock _ ih => exact fun h => .runlock (ih h)
  | lock _ ih => exact fun h => .lock (ih h)
  | unlock _ ih => exact fun h => .unlock (ih h)

theorem Later.trans {code : κ → Prog σ ρ} {g g' g'' : Cfg κ σ ρ} {H H' : List (Ev κ ρ)} (h : Later code g g' H)
    (h' : Later code g' g'' H') : Later code g g'' (H ++ H') := by
  induction h' with
  | refl => simpa using h
  | step _ hs ih => rw [← List.append_assoc]; exact .step ih hs

theorem During.snoc {code : κ → Prog σ ρ} {m₀ : σ} {H l : List (Ev κ ρ)} {n : Nat} {g : Cfg κ σ ρ}
    (h : During code m₀ H n g) : During code m₀ (H ++ l) n g := by
  obtain ⟨H₁, h1, h2, h3⟩ := h
  exact ⟨H₁, h1, h2.trans (List.prefix_append _ _), h3⟩

theorem Moments.snoc {code : κ → Prog σ ρ} {m₀ : σ} {H l : List (Ev κ ρ)} {n : Nat} {gs : List (Cfg κ σ ρ)}
    (h : Moments code m₀ H n gs) : Moments code m₀ (H ++ l) n gs := ⟨fun g hg => (h.1 g hg).snoc, h.2⟩

/-- each call has read what was in the memory at moments during the call -/
theorem exec_saw {code : κ → Prog σ ρ} {m₀ : σ} {g : Cfg κ σ ρ} {H : List (Ev κ ρ)} (h : Exec code m₀ g H) :
    (∀ (n : Nat) (x : Thread κ σ ρ) (p : Prog σ ρ), g.th[n]? = some x → x.prog = some p →
      ∃ gs, Moments code m₀ H n gs ∧ (∀ g' ∈ gs, ∃ H', Later code g' g H') ∧ (code x.call).Saw (gs.map (·.mem)) p) ∧
    (∀ (n : Nat) (c : κ) (r : ρ), Ev.inv n c ∈ H → Ev.ret n r ∈ H →
      ∃ gs, Moments code m₀ H n gs ∧ (code c).Saw (gs.map (·.mem)) (.ret r)) := by
  induction h with
  | init => exact ⟨by simp, by simp⟩
  | @step g H e g' h0 hs ih =>
    obtain ⟨ih1, ih2⟩ := ih
    -- goroutines that do not move
    have other : ∀ (n : Nat) (x : Thread κ σ ρ) (p : Prog σ ρ), g.th[n]? = some x → x.prog = some p →
        ∃ gs, Moments code m₀ (H ++ e.toList) n gs ∧ (∀ g'' ∈ gs, ∃ H', Later code g'' g' H') ∧
          (code x.call).Saw (gs.map (·.mem)) p := by
      intro n x p hx hp
      obtain ⟨gs, h1, h2, h3⟩ := ih1 n x p hx hp
      exact ⟨gs, h1.snoc, fun g'' hg => (h2 g'' hg).elim fun H' h => ⟨_, h.step hs⟩, h3⟩
    have hold : ∀ (n : Nat) (c : κ) (r : ρ), Ev.inv n c ∈ H → Ev.ret n r ∈ H →
        ∃ gs, Moments code m₀ (H ++ e.toList) n gs ∧ (code c).Saw (gs.map (·.mem)) (.ret r) := by
      intro n c r hi hr
      obtain ⟨gs, h1, h2⟩ := ih2 n c r hi hr
      exact ⟨gs, h1.snoc, h2⟩
    -- a step of a goroutine that does not read
    have quiet : ∀ {n : Nat} {c p rd wr}, g.th[n]? = some ⟨c, some p, rd, wr⟩ → ∀ {p' : Prog σ ρ} {rd' wr'},
        p.Saw [] p' → ∀ (i : Nat) (x : Thread κ σ ρ) (q : Prog σ ρ), (g.th.set n ⟨c, some p', rd', wr'⟩)[i]? = some x →
        x.prog = some q → ∃ gs, Moments code m₀ (H ++ e.toList) i gs ∧ (∀ g'' ∈ gs, ∃ H', Later code g'' g' H') ∧
          (code x.call).Saw (gs.map (·.mem)) q := by
      intro n c p rd wr hn p' rd' wr' hsaw i x q hx hq
      rcases getElem?_set_cases hx with ⟨rfl, rfl⟩ | ⟨_, h2⟩
      · cases hq
        obtain ⟨gs, h1, h2, h3⟩ := other _ _ _ hn rfl
        exact ⟨gs, h1, h2, by simpa using h3.trans hsaw⟩
      · exact other i x q h2 hq
    have hret : e = Option.none → ∀ (n : Nat) (c : κ) (r : ρ), Ev.inv n c ∈ H ++ e.toList → Ev.ret n r ∈ H ++ e.toList →
        ∃ gs, Moments code m₀ (H ++ e.toList) n gs ∧ (code c).Saw (gs.map (·.mem)) (.ret r) := by
      rintro rfl n c r hi hn
      exact hold n c r (by simpa using hi) (by simpa using hn)
    cases hs with
    | @inv m th c =>
      refine ⟨?_, ?_⟩
      · intro i x q hx hq
        rcases getElem?_snoc hx with hx | ⟨rfl, rfl⟩
        · exact other i x q hx hq
        · cases hq
          exact ⟨[], ⟨by simp, .nil⟩, by simp, .refl _⟩
      · intro n d r hi hn
        have hn' : Ev.ret n r ∈ H := by simpa using hn
        obtain ⟨x, hx, _⟩ := (exec_invs h0).2 n r hn'
        rcases List.mem_append.1 hi with hi | hi
        · exact hold n d r hi hn'
        · simp only [Option.toList, List.mem_cons, Ev.inv.injEq, List.not_mem_nil, or_false] at hi
          have := (List.getElem?_eq_some_iff.1 hx).1
          simp only at this
          omega
    | @ret m th n c r rd wr hx =>
      refine ⟨?_, ?_⟩
      · intro i x q hi hq
        rcases getElem?_set_cases hi with ⟨rfl, rfl⟩ | ⟨_, h2⟩
        · cases hq
        · exact other i x q h2 hq
      · intro n' c' r' hi hn
        have hi' : Ev.inv n' c' ∈ H := by simpa using hi
        rcases List.mem_append.1 hn with hn | hn
        · exact hold n' c' r' hi' hn
        · simp only [Option.toList, List.mem_cons, Ev.ret.injEq, List.not_mem_nil, or_false] at hn
          obtain ⟨rfl, rfl⟩ := hn
          obtain ⟨x, hx', rfl⟩ := ((exec_invs h0).1 _ _).1 hi'
          simp only at hx'
          rw [hx] at hx'
          cases hx'
          obtain ⟨gs, h1, _, h3⟩ := other _ _ _ hx rfl
          exact ⟨gs, h1, h3⟩
    | @read m th n c k rd wr hx =>
      refine ⟨?_, hret rfl⟩
      intro i x q hi hq
      rcases getElem?_set_cases hi with ⟨rfl, rfl⟩ | ⟨_, h2⟩
      · cases hq
        obtain ⟨gs, h1, h2, h3⟩ := ih1 _ _ _ hx rfl
        refine ⟨gs ++ [⟨m, th⟩], ⟨?_, ?_⟩, ?_, ?_⟩
        · intro g'' hg
          rcases List.mem_append.1 hg with hg | hg
          · exact (h1.1 g'' hg).snoc
          · rcases List.mem_singleton.1 hg with rfl
            exact ⟨H, h0, List.prefix_append _ _, _, _, hx, rfl⟩
        · rw [List.pairwise_append]
          refine ⟨h1.2, by simp, fun a ha b hb => ?_⟩
          rcases List.mem_singleton.1 hb with rfl
          exact h2 a ha
        · intro g'' hg
          rcases List.mem_append.1 hg with hg | hg
          · obtain ⟨H', h⟩ := h2 g'' hg
            exact ⟨_, h.step (.read hx)⟩
          · rcases List.mem_singleton.1 hg with rfl
            exact ⟨_, Later.refl.step (.read hx)⟩
        · rw [List.map_append]
          exact h3.trans (.read (.refl _))
      · exact other i x q h2 hq
    | write hx => exact ⟨quiet hx (.write (.refl _)), hret rfl⟩
    | rlock hx _ => exact ⟨quiet hx (.rlock (.refl _)), hret rfl⟩
    | runlock hx => exact ⟨quiet hx (.runlock (.refl _)), hret rfl⟩
    | wait hx _ => exact ⟨quiet hx (.refl _), hret rfl⟩
    | lock hx _ => exact ⟨quiet hx (.lock (.refl _)), hret rfl⟩
    | unlock hx => exact ⟨quiet hx (.unlock (.refl _)), hret rfl⟩

/-- what all writes keep holds at all moments -/
theorem exec_keeps {code : κ → Prog σ ρ} {m₀ : σ} {J : σ → Prop} (hc : ∀ c, Grows (fun m m' => J m → J m') (code c))
    (h₀ : J m₀) {g : Cfg κ σ ρ} {H : List (Ev κ ρ)} (h : Exec code m₀ g H) : J g.mem := by
  suffices J g.mem ∧ ∀ x ∈ g.th, ∀ p, x.prog = some p → Grows (fun m m' => J m → J m') p from this.1
  induction h with
  | init => exact ⟨h₀, by simp⟩
  | @step g H e g' h0 hs ih =>
    obtain ⟨ih1, ih2⟩ := ih
    have key : ∀ {n : Nat} {x' : Thread κ σ ρ}, (∀ q, x'.prog = some q → Grows (fun m m' => J m → J m') q) →
        ∀ x ∈ g.th.set n x', ∀ p, x.prog = some p → Grows (fun m m' => J m → J m') p := by
      intro n x' hx' x hx p hp
      rcases mem_set_cases hx with rfl | ⟨i, _, hx⟩
      · exact hx' p hp
      · exact ih2 x (List.mem_of_getElem? hx) p hp
    cases hs with
    | inv c =>
      refine ⟨ih1, fun x hx p hp => ?_⟩
      rcases List.mem_append.1 hx with hx | hx
      · exact ih2 x hx p hp
      · rcases List.mem_singleton.1 hx with rfl
        cases hp
        exact hc c
    | ret hx => exact ⟨ih1, key (by simp)⟩
    | read hx =>
      have := ih2 _ (List.mem_of_getElem? hx) _ rfl
      cases this with
      | read h => exact ⟨ih1, key fun q hq => by cases hq; exact h _⟩
    | write hx =>
      have := ih2 _ (List.mem_of_getElem? hx) _ rfl
      cases this with
      | write h h' => exact ⟨h _ ih1, key fun q hq => by cases hq; exact h'⟩
    | rlock hx _ =>
      have := ih2 _ (List.mem_of_getElem? hx) _ rfl
      cases this with
      | rlock h => exact ⟨ih1, key fun q hq => by cases hq; exact h⟩
    | runlock hx =>
      have := ih2 _ (List.mem_of_getElem? hx) _ rfl
      cases this with
      | runlock h => exact ⟨ih1, key fun q hq => by cases hq; exact h⟩
    | wait hx _ =>
      have := ih2 _ (List.mem_of_getElem? hx) _ rfl
      exact ⟨ih1, key fun q hq => by cases hq; exact this⟩
    | lock hx _ =>
      have := ih2 _ (List.mem_of_getElem? hx) _ rfl
      cases this with
      | lock h => exact ⟨ih1, key fun q hq => by cases hq; exact h⟩
    | unlock hx =>
      have := ih2 _ (List.mem_of_getElem? hx) _ rfl
      cases this with
      | unlock h => exact ⟨ih1, key fun q hq => by cases hq; exact h⟩

end Verif.Conc
