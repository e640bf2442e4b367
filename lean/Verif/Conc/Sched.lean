import Verif.Conc.Realize

/-! Executions from explicit schedules, for examples. -/

namespace Verif.Conc
variable {κ σ ρ : Type}

/-- a decision of the scheduler: start a call, or let call number `n` make a step -/
inductive Move (κ : Type)
  | start (c : κ)
  | go (n : Nat)

instance (th : List (Thread κ σ ρ)) : Decidable (NoWriter th) := by unfold NoWriter; infer_instance
instance (th : List (Thread κ σ ρ)) : Decidable (NoReader th) := by unfold NoReader; infer_instance

/-- the step that the scheduler has chosen, if it is possible -/
def act (code : κ → Prog σ ρ) (g : Cfg κ σ ρ) : Move κ → Option (Option (Ev κ ρ) × Cfg κ σ ρ)
  | .start c => some (some (.inv g.th.length c), ⟨g.mem, g.th ++ [⟨c, some (code c), 0, .none⟩]⟩)
  | .go n =>
    match g.th[n]? with
    | none => none
    | some ⟨_, none, _, _⟩ => none
    | some ⟨c, some (.ret r), rd, wr⟩ => some (some (.ret n r), ⟨g.mem, g.th.set n ⟨c, none, rd, wr⟩⟩)
    | some ⟨c, some (.read k), rd, wr⟩ => some (none, ⟨g.mem, g.th.set n ⟨c, some (k g.mem), rd, wr⟩⟩)
    | some ⟨c, some (.write w k), rd, wr⟩ => some (none, ⟨w g.mem, g.th.set n ⟨c, some k, rd, wr⟩⟩)
    | some ⟨c, some (.rlock k), rd, wr⟩ =>
      if NoWriter g.th then some (none, ⟨g.mem, g.th.set n ⟨c, some k, rd + 1, wr⟩⟩) else none
    | some ⟨c, some (.runlock k), rd + 1, wr⟩ => some (none, ⟨g.mem, g.th.set n ⟨c, some k, rd, wr⟩⟩)
    | some ⟨_, some (.runlock _), 0, _⟩ => none
    | some ⟨c, some (.lock k), rd, .none⟩ =>
      if NoWriter g.th then some (none, ⟨g.mem, g.th.set n ⟨c, some (.lock k), rd, .waiting⟩⟩) else none
    | some ⟨c, some (.lock k), rd, .waiting⟩ =>
      if NoReader g.th then some (none, ⟨g.mem, g.th.set n ⟨c, some k, rd, .held⟩⟩) else none
    | some ⟨_, some (.lock _), _, .held⟩ => none
    | some ⟨c, some (.unlock k), rd, .held⟩ => some (none, ⟨g.mem, g.th.set n ⟨c, some k, rd, .none⟩⟩)
    | some ⟨_, some (.unlock _), _, .waiting⟩ => none
    | some ⟨_, some (.unlock _), _, .none⟩ => none

theorem act_sound {code : κ → Prog σ ρ} {g g' : Cfg κ σ ρ} {mv : Move κ} {e : Option (Ev κ ρ)}
    (h : act code g mv = some (e, g')) : Step code g e g' := by
  obtain ⟨m, th⟩ := g
  cases mv with
  | start c => cases h; exact .inv c
  | go n =>
    unfold act at h
    simp only at h
    split at h
    · cases h
    · cases h
    · rename_i hn; cases h; exact .ret hn
    · rename_i hn; cases h; exact .read hn
    · rename_i hn; cases h; exact .write hn
    · rename_i hn
      split at h
      · rename_i hw; cases h; exact .rlock hn hw
      · cases h
    · rename_i hn; cases h; exact .runlock hn
    · cases h
    · rename_i hn
      split at h
      · rename_i hw; cases h; exact .wait hn hw
      · cases h
    · rename_i hn
      split at h
      · rename_i hw; cases h; exact .lock hn hw
      · cases h
    · cases h
    · rename_i hn; cases h; exact .unlock hn
    · cases h
    · cases h

/-- follow a schedule -/
def follow (code : κ → Prog σ ρ) : List (Move κ) → Cfg κ σ ρ → List (Ev κ ρ) → Option (Cfg κ σ ρ × List (Ev κ ρ))
  | [], g, H => some (g, H)
  | mv :: l, g, H =>
    match act code g mv with
    | none => none
    | some (e, g') => follow code l g' (H ++ e.toList)

theorem follow_sound {code : κ → Prog σ ρ} {m₀ : σ} : ∀ {l : List (Move κ)} {g g' : Cfg κ σ ρ} {H H' : List (Ev κ ρ)},
    Exec code m₀ g H → follow code l g H = some (g', H') → Exec code m₀ g' H'
  | [], _, _, _, _, he, h => by cases h; exact he
  | mv :: l, g, _, H, _, he, h => by
    unfold follow at h
    cases ha : act code g mv with
    | none => rw [ha] at h; cases h
    | some x =>
      rw [ha] at h
      exact follow_sound (he.step (act_sound ha)) h

/-- an execution from a schedule -/
theorem exec_of_follow {code : κ → Prog σ ρ} {m₀ : σ} (l : List (Move κ)) {H : List (Ev κ ρ)}
    (h : (follow code l ⟨m₀, []⟩ []).map (·.2) = some H) : ∃ g, Exec code m₀ g H := by
  cases hf : follow code l ⟨m₀, []⟩ [] with
  | none => rw [hf] at h; cases h
  | some x =>
    rw [hf] at h
    cases h
    exact ⟨_, follow_sound .init hf⟩

/-- the same, with the reached state -/
theorem exec_of_follow' {code : κ → Prog σ ρ} {m₀ : σ} (l : List (Move κ)) {g : Cfg κ σ ρ} {H : List (Ev κ ρ)}
    (h : follow code l ⟨m₀, []⟩ [] = some (g, H)) : Exec code m₀ g H := follow_sound .init h

end Verif.Conc
