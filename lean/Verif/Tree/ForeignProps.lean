import Verif.Tree.Props

/-!
Ids of another package. `Set`, `Add` and `Delete` of a tree take any `tree.ID`, so a tree of one
width can be called with ids of another; `ClaimID`, `Update` and `ReleaseID` of tree16, tree32 and
tree64 hand the id they are given to the tree unchanged (tree16.go:55-75, 112-115, 140-151, 167-173),
and `GetAll` of table16 makes ids of the package id32 (table16.go:128, C95).
-/

namespace Verif.Tree
open Verif.Id
variable {T : Type} [Inhabited T]

/-! ### Spec -/

/-- a call with an id of one of the three packages -/
structure AnyOp (T : Type) where
  Q : Pkg
  known : Q = id16 ∨ Q = id32 ∨ Q = id64
  op : Op Q T

/-- the id is not longer than the ids of its package -/
def AnyOp.Ok (o : AnyOp T) : Prop := o.op.id.len ≤ o.Q.W

/-- calls one after the other -/
def runAny (t : Tree T) : List (AnyOp T) → Out (List Res × Tree T)
  | [] => .ok ([], t)
  | o :: os => do
    let (r, t) ← o.op.exec t
    let (rs, t) ← runAny t os
    return (r :: rs, t)

theorem runAny_own {P : Pkg} (hP : P = id16 ∨ P = id32 ∨ P = id64) : ∀ (os : List (Op P T)) (t : Tree T),
    runAny t (os.map (fun o => ⟨P, hP, o⟩)) = run t os := by
  intro os
  induction os with
  | nil => intro t; rfl
  | cons o os ih =>
    intro t
    rw [List.map_cons, runAny, run]
    simp only [ih]

/-- **C102** (what holds) Calls with ids of the package of the tree do not panic. Missing: calls with
ids of the other packages. -/
theorem C102_own_ids_partial {P : Pkg} (hP : P = id16 ∨ P = id32 ∨ P = id64) (os : List (AnyOp T))
    (hos : ∀ o ∈ os, o.Ok) (hown : ∀ o ∈ os, o.Q = P) : ∃ rs t, runAny (newTree P) os = .ok (rs, t) := by
  have hex : ∃ os' : List (Op P T), (∀ o ∈ os', o.id.len ≤ P.W) ∧ os = os'.map (fun o => ⟨P, hP, o⟩) := by
    induction os with
    | nil => exact ⟨[], by simp, rfl⟩
    | cons o os ih =>
      obtain ⟨os', h1, h2⟩ := ih (fun o h => hos o (by simp [h])) (fun o h => hown o (by simp [h]))
      obtain ⟨Q, hQ, o⟩ := o
      have hq : Q = P := hown ⟨Q, hQ, o⟩ (by simp)
      subst hq
      refine ⟨o :: os', ?_, by simp [h2]⟩
      intro o' ho'
      rcases List.mem_cons.1 ho' with rfl | ho'
      · exact hos ⟨Q, hQ, o'⟩ (by simp)
      · exact h1 o' ho'
  obtain ⟨os', h1, rfl⟩ := hex
  rw [runAny_own]
  obtain ⟨rs, t, s, h2, _⟩ := run_inv (widthOk_of hP) (Inv.new (T := T) P) h1
  exact ⟨rs, t, h2⟩

/-- the claims of 5 and of 4 as ids of the package `Q` -/
def claims54 {Q : Pkg} (hQ : Q = id16 ∨ Q = id32 ∨ Q = id64) : List (AnyOp Nat) :=
  [⟨Q, hQ, .set ⟨5, Q.W⟩ 1⟩, ⟨Q, hQ, .set ⟨4, Q.W⟩ 2⟩]

/-- **C102** (violated) For every tree and every other package of ids: storing 5 and 4 succeeds, both are
visited by an iteration, storing 5 again panics, and deleting 5 deletes nothing. -/
theorem C102_foreign_ids_violated {P Q : Pkg} (hP : P = id16 ∨ P = id32 ∨ P = id64)
    (hQ : Q = id16 ∨ Q = id32 ∨ Q = id64) (hne : P ≠ Q) :
    (∀ o ∈ claims54 hQ, o.Ok) ∧ ∃ t, runAny (newTree P) (claims54 hQ) = .ok ([.added true 1, .added true 1], t) ∧
      (∃ vis, t.visit = .ok vis ∧ vis.length = 2) ∧
      (∃ msg, t.set (⟨5, Q.W⟩ : MyId Q) 3 = .panic msg) ∧
      t.delete (⟨5, Q.W⟩ : MyId Q) (fun _ _ => true) 0 = .ok (0, t) := by
  rcases hP with rfl | rfl | rfl <;> rcases hQ with rfl | rfl | rfl
  all_goals first
    | exact absurd rfl hne
    | skip
  all_goals
    refine ⟨by simp [claims54, AnyOp.Ok, Op.id], _, rfl, ⟨_, rfl, rfl⟩, ⟨_, rfl⟩, rfl⟩

/-- with ids of the package of the tree the same calls leave 5 in the tree, where it can be replaced and
deleted -/
example : ∃ t, runAny (newTree id16) (claims54 (.inl rfl : id16 = id16 ∨ id16 = id32 ∨ id16 = id64)) =
      .ok ([.added true 1, .added true 1], t) ∧
    (∃ t', t.set (⟨5, 16⟩ : MyId id16) 3 = .ok (false, 1, t')) ∧
    (∃ t', t.delete (⟨5, 16⟩ : MyId id16) (fun _ _ => true) 0 = .ok (1, t')) :=
  ⟨_, rfl, ⟨_, rfl⟩, ⟨_, rfl⟩⟩

end Verif.Tree
