import Verif.Conc.Trace
import Verif.Conc.Claims

/-! Where in an execution the atomic calls happen. -/

namespace Verif.Conc
variable {κ κ₀ σ ρ ρ₀ β α : Type}

theorem Rel.pending {meth : κ₀ → Prog σ ρ₀} {g : Cfg κ σ ρ} {a : ACfg κ κ₀ ρ₀ σ ρ} (h : Rel meth g a) {n : Nat}
    {c : κ} {d : Client κ₀ ρ₀ σ ρ} (hn : a.th[n]? = some (c, some d)) : g.Pending n := by
  have hlt : n < g.th.length := by
    rw [h.len]; exact (List.getElem?_eq_some_iff.1 hn).1
  have hx := List.getElem?_eq_getElem hlt
  have hT := h.th n _ _ hx hn
  generalize g.th[n] = x at hT hx
  cases hT with
  | out => exact ⟨_, _, hx, rfl⟩
  | waiting _ => exact ⟨_, _, hx, rfl⟩
  | reading _ => exact ⟨_, _, hx, rfl⟩
  | writing _ => exact ⟨_, _, hx, rfl⟩

/-- Atomicity, with the moments of the atomic calls: when the call `e` is made, the execution has reached
the state `g₁`, whose memory is the result of the atomic calls before `e`, and the goroutine of `e` is
in the middle of its call. -/
theorem sim_at {meth : κ₀ → Prog σ ρ₀} {sem : σ → κ₀ → σ × ρ₀} (hm : Sections meth sem)
    {code : κ → Client κ₀ ρ₀ σ ρ} {m₀ : σ} {g : Cfg κ σ ρ} {H : List (Ev κ ρ)}
    (h : Exec (fun c => (code c).compile meth) m₀ g H) :
    ∃ a G, AExec code sem (fun _ _ => True) m₀ a G H ∧ Rel meth g a ∧
      ∀ G₁ e G₂, G = G₁ ++ e :: G₂ → ∃ g₁ H₁ H₂, Exec (fun c => (code c).compile meth) m₀ g₁ H₁ ∧ H = H₁ ++ H₂ ∧
        g₁.Pending e.1 ∧ Runs sem m₀ G₁ g₁.mem := by
  induction h with
  | init => exact ⟨_, _, .init, ⟨rfl, by simp, fun _ => rfl, by simp, by simp⟩, by simp⟩
  | @step g H e g' h0 hs ih =>
    obtain ⟨a, G, h1, h2, h3⟩ := ih
    have hold : ∀ G₁ x G₂, G = G₁ ++ x :: G₂ → ∃ g₁ H₁ H₂, Exec (fun c => (code c).compile meth) m₀ g₁ H₁ ∧
        H ++ e.toList = H₁ ++ H₂ ∧ g₁.Pending x.1 ∧ Runs sem m₀ G₁ g₁.mem := by
      intro G₁ x G₂ hG
      obtain ⟨g₁, H₁, H₂, h4, h5, h6⟩ := h3 G₁ x G₂ hG
      exact ⟨g₁, H₁, H₂ ++ e.toList, h4, by rw [h5, List.append_assoc], h6⟩
    rcases h2.step hm hs with ⟨x, a', h4, h5, h6, _⟩ | ⟨rfl, h5⟩
    · refine ⟨a', _, .step h1 h4, h5, ?_⟩
      cases x with
      | none =>
        intro G₁ y G₂ hG
        exact hold G₁ y G₂ (by simpa using hG)
      | some x =>
        intro G₁ y G₂ hG
        rcases List.eq_nil_or_concat G₂ with rfl | ⟨G₃, z, rfl⟩
        · have hG' : G ++ [x] = G₁ ++ [y] := hG
          obtain ⟨rfl, hy⟩ := List.append_inj' hG' rfl
          cases hy
          have hmem := h6 (by simp)
          refine ⟨g, H, e.toList, h0, rfl, ?_, ?_⟩
          · cases h4 with
            | call hn => exact h2.pending hn
          · rw [← hmem]
            exact h1.facts.runs
        · have hG' : G ++ [x] = (G₁ ++ y :: G₃) ++ [z] := by
            rw [show G ++ [x] = G ++ (Option.some x).toList from rfl, hG]
            simp
          exact hold G₁ y G₃ (List.append_inj' hG' rfl).1
    · exact ⟨a, G, by simpa using h1, h5, by simpa using hold⟩

open Verif.IdxTable in
/-- an index that gets claimed is claimed by a call, when only `Claim` is used to claim -/
theorem runs_claimed {t t' : Table α} {G : List (Nat × Call α × Reply α)} (h : Runs step t G t') {idx : U64}
    (hS : ∀ e ∈ G, (∀ d, e.2.1 ≠ .claimDynamic d) ∧ (∀ s n d, e.2.1 ≠ .claimRange s n d) ∧
      (∀ n d, e.2.1 ≠ .claimSize n d)) (h0 : ¬ Pres t idx) (h1 : Pres t' idx) :
    ∃ e ∈ G, ∃ d, e.2 = (.claim idx d, .ok) := by
  induction h with
  | nil => exact absurd h1 h0
  | @cons t _ n c G _ ih =>
    by_cases hp : Pres (step t c).1 idx
    · refine ⟨_, List.mem_cons_self .., ?_⟩
      have hc := hS _ (List.mem_cons_self ..)
      cases c with
      | claim i d =>
        have hadd : claim t i d = add t ⟨i, d⟩ := rfl
        simp only [step] at hp ⊢
        rw [hadd] at hp ⊢
        unfold add at hp ⊢
        cases hv : validate t i with
        | error er => simp only [hv] at hp; exact absurd hp h0
        | ok u =>
          cases hf : isFreeB t i with
          | false => simp only [hv, hf] at hp; exact absurd hp h0
          | true =>
            simp only [hv, hf] at hp ⊢
            simp only [Pres, Bool.not_true, Bool.false_eq_true, if_false, GoMap.get?_set] at hp
            by_cases hi : idx = i
            · subst hi; exact ⟨d, rfl⟩
            · rw [if_neg hi] at hp; exact absurd hp h0
      | claimDynamic d => exact absurd rfl (hc.1 d)
      | claimRange s n d => exact absurd rfl (hc.2.1 s n d)
      | claimSize n d => exact absurd rfl (hc.2.2 n d)
      | release i =>
        exfalso
        apply h0
        simp only [step, release, delete] at hp
        cases hv : validate t i with
        | error er => simpa [hv] using hp
        | ok u =>
          simp only [hv] at hp
          unfold Pres at *
          rw [GoMap.get?_del] at hp
          split at hp
          · exact absurd rfl hp
          · exact hp
      | update i d =>
        exfalso
        apply h0
        simp only [step, update, updateE] at hp
        cases hv : validate t i with
        | error er => simpa [hv] using hp
        | ok u =>
          simp only [hv] at hp
          cases hf : isFreeB t i with
          | true => simpa [hf] using hp
          | false =>
            simp only [hf, Bool.false_eq_true, if_false] at hp
            unfold Pres at *
            rw [GoMap.get?_set] at hp
            split at hp
            · rename_i hi
              subst hi
              intro h
              simp [isFreeB, h] at hf
            · exact hp
      | _ => exact absurd hp h0
    · obtain ⟨e, he, hd⟩ := ih (fun e he => hS e (List.mem_cons_of_mem _ he)) hp h1
      exact ⟨e, List.mem_cons_of_mem _ he, hd⟩

end Verif.Conc
