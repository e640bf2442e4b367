import Verif.Conc.TreeLin

/-! Which calls on a tree of claimed prefixes the clients must keep apart: C87. -/

set_option linter.unusedSectionVars false
namespace Verif.Conc
open Verif.Id Verif.GTree
open Verif.Tree (Out AtMost newTree)

variable {I : Impl} {L : Type} [Labels L] {N : Nat}

/-- the calls that claim a range -/
def TCall.Ranges : TCall I L → Prop
  | .claimRange _ _ => True
  | _ => False

/-- the calls that look at the whole tree, without holding the lock all the time -/
def TCall.Scans : TCall I L → Prop
  | .clone | .getAll | .getByLabel _ | .size | .releaseByLabel _ | .claimFree _ => True
  | _ => False

theorem root_lt {length : Nat} (hI : I = tree16 ∧ 0 < length ∧ length ≤ 16 ∨ I = tree32 ∧ length < 32) :
    (I = tree16 ∨ I = tree32) ∧ length ≤ I.P.W ∧ I.rootLen length < I.P.W := by
  rcases hI with ⟨rfl, h1, h2⟩ | ⟨rfl, h2⟩
  · refine ⟨.inl rfl, h2, ?_⟩
    have : tree16.rootLen length = 16 - length := Verif.Tree.sub8_eq h2 (by decide)
    rw [this]
    show 16 - length < 16
    omega
  · exact ⟨.inr rfl, Nat.le_of_lt h2, h2⟩

/-- **C87, with other calls** (tree16 of length at least 1; tree32 of length less than 32 if `ClaimRange` names ids below `2^31` only, or as
long as at most `2^31` prefixes have been claimed): if `ClaimRange` overlaps with no call, then the calls can be put in an order, in which every call that overlaps with no call that changes the tree does
what it should, and the other calls satisfy the weaker specification. -/
theorem C87_mixed {length : Nat} (hI : I = tree16 ∧ 0 < length ∧ length ≤ 16 ∨ I = tree32 ∧ length < 32)
    {g : Cfg (TCall I L) (GTree I L) (TReply I L)} {H} (h : Exec (tprog N (newG I L length)) (newG I L length) g H)
    (hs : ∀ n c, Ev.inv n c ∈ H → c.Sized) (ha : Alone TCall.Ranges H)
    (hH : I.P.W = 32 → Small length H) :
    ∃ Q M, (Q.map (·.1)).Nodup ∧
      NRuns (fun n M c M' r => TStepW length M c M' r ∧ (¬ Crossed TCall.Changes H n → TStepX length M c M' r)) Map.empty Q M ∧
      (∀ x ∈ Q, Ev.inv x.1 x.2.1 ∈ H) ∧ (∀ n r, Ev.ret n r ∈ H → ∃ c, (n, c, r) ∈ Q) ∧
      ∀ a b, Before H a b → b ∈ Q.map (·.1) → [a, b].Sublist (Q.map (·.1)) := by
  obtain ⟨hI, hle, hroot⟩ := root_lt hI
  have hal : Alone TCall.Loops H := by
    intro n c hn hc
    refine ha n c hn ?_
    cases c with
    | claimRange _ _ => trivial
    | _ => cases hc
  have hsz : ∀ n c, Ev.inv n c ∈ H → c.Sized ∧ (Crossed TCall.Changes H n → c.Fits) := by
    refine fun n c hn => ⟨hs n c hn, fun hx => ?_⟩
    have := hs n c hn
    cases c with
    | claim _ _ | update _ _ | release _ => exact this
    | claimRange s l =>
      obtain ⟨m, c, hne, _, hm, ho⟩ := hx
      exact absurd ho (ha n _ hn trivial m c hm hne)
    | _ => trivial
  obtain ⟨g', h'⟩ := exec_sync h hal
  obtain ⟨_, _, Q, M, _, _, h1, h2, _⟩ := sync_order hI hle (D := Crossed TCall.Changes H) (fun _ _ => hroot) h'
    (fun _ _ _ h => h) hsz hH
  refine ⟨Q, M, h1.nodup, ?_, h1.inv, h1.ret, h1.order⟩
  exact h2.imp fun n M c M' r h => ⟨h.weak, h.2⟩

/-- **C87** (tree16 of length at least 1; tree32 of length less than 32 if `ClaimRange` names ids below `2^31` only, or as
long as at most `2^31` prefixes have been claimed): if `ClaimRange` overlaps with no call, and the calls that look at the whole tree with no call that changes
it, then the calls are linearizable. -/
theorem C87_linearizable {length : Nat} (hI : I = tree16 ∧ 0 < length ∧ length ≤ 16 ∨ I = tree32 ∧ length < 32)
    {g : Cfg (TCall I L) (GTree I L) (TReply I L)} {H} (h : Exec (tprog N (newG I L length)) (newG I L length) g H)
    (hs : ∀ n c, Ev.inv n c ∈ H → c.Sized) (ha : Alone TCall.Ranges H)
    (hr : ∀ n c, Ev.inv n c ∈ H → c.Scans → ¬ Crossed TCall.Changes H n)
    (hH : I.P.W = 32 → Small length H) : LinearizableBy (TreeRuns (TStepX length)) H := by
  obtain ⟨Q, M, h1, h2, h3, h4, h5⟩ := C87_mixed hI h hs ha hH
  refine ⟨Q, h1, ⟨M, srun_trun (h2.srun ?_)⟩, h3, h4, h5⟩
  rintro ⟨n, c, r⟩ hx M M' ⟨hw, hX⟩
  have hn := h3 _ hx
  by_cases hc : Crossed TCall.Changes H n
  · simp only at hw hX hn ⊢
    cases c with
    | claim _ _ | update _ _ | release _ | get _ | children _ | parents _ => exact ⟨hw, fun l hl => by cases hl⟩
    | claimRange s l =>
      obtain ⟨m, c, hne, _, hm, ho⟩ := hc
      exact absurd ho (ha n _ hn trivial m c hm hne)
    | _ => exact absurd hc (hr n _ hn trivial)
  · exact hX hc

/-- The hypotheses of `C87_mixed` and `C87_linearizable` can be met: `ClaimRange("3-5")`, then `ClaimID` and `Get` at the
same time, then `GetAll`. -/
example : ∃ g H, Exec (tprog 0 (newG tree16 Bool 4)) (newG tree16 Bool 4) g H ∧ (∀ n c, Ev.inv n c ∈ H → c.Sized) ∧
    Alone TCall.Ranges H ∧ (∀ n c, Ev.inv n c ∈ H → c.Scans → ¬ Crossed TCall.Changes H n) ∧
    H = [.inv 0 (.claimRange [51, 45, 53] true), .ret 0 .done, .inv 1 (.claim ⟨7, 16⟩ false), .inv 2 (.get ⟨3, 16⟩),
      .ret 2 (.got ⟨⟨3, 16⟩, true⟩), .ret 1 .done, .inv 3 .getAll, .ret 3 (.all [some ⟨⟨3, 16⟩, true⟩,
      some ⟨⟨4, 15⟩, true⟩, some ⟨⟨7, 16⟩, false⟩])] := by
  obtain ⟨g, hg⟩ := exec_of_follow (code := tprog 0 (newG tree16 Bool 4)) (m₀ := newG tree16 Bool 4)
    (H := [.inv 0 (.claimRange [51, 45, 53] true), .ret 0 .done, .inv 1 (.claim ⟨7, 16⟩ false), .inv 2 (.get ⟨3, 16⟩),
      .ret 2 (.got ⟨⟨3, 16⟩, true⟩), .ret 1 .done, .inv 3 .getAll, .ret 3 (.all [some ⟨⟨3, 16⟩, true⟩,
      some ⟨⟨4, 15⟩, true⟩, some ⟨⟨7, 16⟩, false⟩])])
    ([.start (.claimRange [51, 45, 53] true)] ++ steps 0 5 ++ [.start (.claim ⟨7, 16⟩ false), .start (.get ⟨3, 16⟩)] ++
      steps 2 7 ++ steps 1 6 ++ [.start .getAll] ++ steps 3 26) rfl
  have hB : ∀ m c, Ev.inv m c ∈ ([.inv 0 (.claimRange [51, 45, 53] true), .ret 0 .done, .inv 1 (.claim ⟨7, 16⟩ false),
      .inv 2 (.get ⟨3, 16⟩), .ret 2 (.got ⟨⟨3, 16⟩, true⟩), .ret 1 .done, .inv 3 .getAll, .ret 3 (.all [some ⟨⟨3, 16⟩, true⟩,
      some ⟨⟨4, 15⟩, true⟩, some ⟨⟨7, 16⟩, false⟩])] : List (Ev (TCall tree16 Bool) (TReply tree16 Bool))) →
      (m = 0 ∧ c = .claimRange [51, 45, 53] true) ∨ (m = 1 ∧ c = .claim ⟨7, 16⟩ false) ∨
      (m = 2 ∧ c = (.get ⟨3, 16⟩ : TCall tree16 Bool)) ∨ m = 3 ∧ c = .getAll := by
    intro m c hm
    simpa only [List.mem_cons, Ev.inv.injEq, reduceCtorEq, List.not_mem_nil, or_false, false_or] using hm
  refine ⟨g, _, hg, ?_, ?_, ?_, rfl⟩
  · intro n c hc
    rcases hB n c hc with ⟨_, rfl⟩ | ⟨_, rfl⟩ | ⟨_, rfl⟩ | ⟨_, rfl⟩
    · trivial
    · exact Nat.le_refl _
    · trivial
    · trivial
  · intro n c hn hc m c' hm hne ho
    rcases hB n c hn with ⟨rfl, rfl⟩ | ⟨_, rfl⟩ | ⟨_, rfl⟩ | ⟨_, rfl⟩
    · rcases hB m c' hm with ⟨rfl, _⟩ | ⟨rfl, rfl⟩ | ⟨rfl, rfl⟩ | ⟨rfl, rfl⟩
      · exact hne rfl
      · exact ho.2 ⟨.done, _, sublist_of_get 1 2 rfl rfl (by decide)⟩
      · exact ho.2 ⟨.done, _, sublist_of_get 1 3 rfl rfl (by decide)⟩
      · exact ho.2 ⟨.done, _, sublist_of_get 1 6 rfl rfl (by decide)⟩
    · cases hc
    · cases hc
    · cases hc
  · rintro n c hn hc ⟨m, c', hne, hch, hm, ho⟩
    rcases hB n c hn with ⟨_, rfl⟩ | ⟨_, rfl⟩ | ⟨_, rfl⟩ | ⟨rfl, rfl⟩
    · cases hc
    · cases hc
    · cases hc
    · rcases hB m c' hm with ⟨rfl, rfl⟩ | ⟨rfl, rfl⟩ | ⟨rfl, rfl⟩ | ⟨rfl, rfl⟩
      · exact ho.1 ⟨.done, _, sublist_of_get 1 6 rfl rfl (by decide)⟩
      · exact ho.1 ⟨.done, _, sublist_of_get 5 6 rfl rfl (by decide)⟩
      · exact hch
      · exact hch

/-- ... and for tree32 without a bound on the number of calls -/
example (H : List (Ev (TCall tree32 Bool) (TReply tree32 Bool))) (h : ∀ n c, Ev.inv n c ∈ H → ¬ c.Ranges) : Small 31 H :=
  .inr ⟨Nat.le_refl _, fun n c hn => by
    have := h n c hn
    cases c with
    | claimRange _ _ => exact absurd trivial this
    | _ => trivial⟩

end Verif.Conc
