import Verif.GTree.IterProps
import Verif.GTree.Cell64Props
import Verif.Tree.CostProps

/-! Property C123 for the trees: the rounds of an iteration, in terms of `Size`. -/

namespace Verif.GTree
open Verif.Id
open Verif.Tree (Out roundsLeft)

variable {I : Impl} {L : Type} [Labels L]

/-- **C123** (tree16; tree32 with room) An iteration, and with it `Get`, `Children`, `Parents`, `GetByLabel`, `GetAll` and
`Size`, takes at most five rounds per claimed prefix, and one, whatever was claimed and released before. -/
theorem C123_tree (hI : I = tree16 ∨ I = tree32) {length : Nat} {g : GTree I L} {M : Map I.P L} (h : Reach I length g M) :
    ∃ n k, g.count = .ok n ∧ k ≤ 5 * n + 1 ∧ ∀ fuel, k ≤ fuel → roundsLeft g.tree fuel Verif.Tree.Tree.iterate = .ok k := by
  obtain ⟨s, h1, _⟩ := (h.ginv hI).tree
  obtain ⟨vis, k, e1, e2, e3⟩ := Verif.Tree.iteration_cost h1
  refine ⟨vis.length, k, ?_, e2, e3⟩
  unfold GTree.count
  rw [e1]
  rfl

/-- a tree with a claimed prefix -/
example : ∃ (g : GTree tree16 Bool) (M : Map tree16.P Bool), Reach tree16 4 g M ∧ M (pre (P := tree16.P) ⟨3, 16⟩) ≠ none := by
  obtain ⟨g, r⟩ := reach_claim (.inl rfl) (.new (g := ⟨Verif.Tree.newTree id16, 15, 4⟩) rfl : Reach tree16 4 _ _) (id := ⟨3, 16⟩)
    (by decide) (by decide) true (fun h => by cases h)
  exact ⟨g, _, r, by simp [put]⟩

/-- **C123** (tree64) -/
theorem C123_tree64 {length : Nat} {g : GTree tree64 L} {st : Shared L} (h : Reach64 length g st) :
    ∃ n k, g.count = .ok n ∧ k ≤ 5 * n + 1 ∧ ∀ fuel, k ≤ fuel → roundsLeft g.tree fuel Verif.Tree.Tree.iterate = .ok k := by
  obtain ⟨s, h1⟩ := h.inv.tree
  obtain ⟨vis, k, e1, e2, e3⟩ := Verif.Tree.iteration_cost h1.inv
  refine ⟨vis.length, k, ?_, e2, e3⟩
  unfold GTree.count
  rw [e1]
  rfl

example : ∃ (g : GTree tree64 Bool) (st : Shared Bool), Reach64 8 g st ∧ g.count = .ok 0 := ⟨_, _, .new rfl, rfl⟩

end Verif.GTree
