import Verif.Conc.TreeModel
import Verif.GTree.Spec

/-!
What a single call on a tree of claimed prefixes does, if no other call is executed at the same time: the calls
and replies of `TreeModel`, the maps of `GTree/Spec`.
-/

namespace Verif.Conc
open Verif.Id Verif.GTree

variable {I : Impl} {L : Type}

/-- One call. `ClaimFree` returns an id of full length that is not claimed itself, or fails; `Parents` is described
as it is (see `C56`). -/
def TStep (length : Nat) (M : Map I.P L) : TCall I L → Map I.P L → TReply I L → Prop
  | .clone, M', r => M' = M ∧ r = .done
  | .get id, M', r => M' = M ∧ ((∃ e, M (pre id) = some e ∧ e.id = id ∧ r = .got e) ∨
      ((∀ e, M (pre id) = some e → e.id ≠ id) ∧ r = .err))
  | .update id l, M', r | .claim id l, M', r =>
      if id.id.toNat < 2 ^ length then M' = GTree.put M id l ∧ r = .done else M' = M ∧ r = .err
  | .claimFree l, M', r => (M' = M ∧ r = .err) ∨ ∃ x : BitVec I.P.W, x.toNat < 2 ^ length ∧ M (pre ⟨x, I.P.W⟩) = none ∧
      M' = GTree.put M ⟨x, I.P.W⟩ l ∧ r = .got ⟨⟨x, I.P.W⟩, l⟩
  | .claimRange s l, M', r => ((¬ ∃ x : Rng I.P, parseRange s = some x) ∧ M' = M ∧ r = .err) ∨
      ∃ (x : Rng I.P) (ids : List (MyId I.P)), parseRange s = some x ∧ x.ids = some ids ∧ M' = puts M l ids ∧ r = .done
  | .release id, M', r =>
      if id.id.toNat < 2 ^ length then
        (∀ q, M' q = if q = pre id then (M q).filter (fun e => decide (e.id ≠ id)) else M q) ∧ r = .done
      else M' = M ∧ r = .err
  | .releaseByLabel sel, M', r => (∀ q, M' q = (M q).filter (fun e => !sel e.labels)) ∧ r = .done
  | .children id, M', r => M' = M ∧ (id.len ≤ I.P.W → ∃ l, Listing l M ∧
      r = .entries (l.filter fun e => decide (pre id <+: pre e.id ∧ pre id ≠ pre e.id)))
  | .parents id, M', r => M' = M ∧ (id.len ≤ I.P.W → ∃ l, Listing l M ∧
      r = .entries (l.filter fun e => decide ((pre e.id <+: pre id ∨ pre id <+: pre e.id) ∧ e.id.len < I.P.W)))
  | .getByLabel sel, M', r => M' = M ∧ ∃ l, Listing l M ∧ r = .entries (l.filter fun e => sel e.labels)
  | .getAll, M', r => M' = M ∧ ∃ l, Listing l M ∧ r = .all (l.map some)
  | .size, M', r => M' = M ∧ ∃ l, Listing l M ∧ r = .nat l.length

/-- One call, with weaker conditions: `ClaimFree` may return an id that is claimed, the replies of `Clone`,
`GetByLabel`, `GetAll` and `Size` can be anything, and `ReleaseByLabel` releases some prefixes, with any reply. -/
def TStepW (length : Nat) (M : Map I.P L) : TCall I L → Map I.P L → TReply I L → Prop
  | .claimFree l, M', r => (M' = M ∧ r = .err) ∨ ∃ x : BitVec I.P.W, x.toNat < 2 ^ length ∧
      M' = GTree.put M ⟨x, I.P.W⟩ l ∧ r = .got ⟨⟨x, I.P.W⟩, l⟩
  | .clone, M', _ | .getByLabel _, M', _ | .getAll, M', _ | .size, M', _ => M' = M
  | .releaseByLabel _, M', _ => ∀ q, M' q = M q ∨ M' q = none
  | c, M', r => TStep length M c M' r

/-- One call, with more about `ClaimFree`: the id that it returns is in no claimed prefix, unless one is claimed that
contains the id 0 and is not longer than the root prefix (see `C57_covered_violated`); in tree16 it fails only if all
ids are in claimed prefixes (see `C57_full32_violated`). -/
def TStepX (length : Nat) (M : Map I.P L) (c : TCall I L) (M' : Map I.P L) (r : TReply I L) : Prop :=
  TStep length M c M' r ∧ ∀ l, c = .claimFree l →
    (∀ e, r = .got e → (∀ q e', M q = some e' → Covers e'.id 0 → I.rootLen length < e'.id.len) → ¬ Covered M e.id.id) ∧
    (r = .err → I = tree16 → ∀ x : BitVec I.P.W, x.toNat < 2 ^ length → Covered M x)

/-- a whole history -/
inductive TRun (St : Map I.P L → TCall I L → Map I.P L → TReply I L → Prop) :
    Map I.P L → List (TCall I L) → List (TReply I L) → Map I.P L → Prop
  | nil (M) : TRun St M [] [] M
  | cons {M M' M'' c cs r rs} : St M c M' r → TRun St M' cs rs M'' → TRun St M (c :: cs) (r :: rs) M''

/-- the replies are possible if the calls are executed one after the other on a new tree -/
def TreeRuns (St : Map I.P L → TCall I L → Map I.P L → TReply I L → Prop) (cs : List (TCall I L)) (rs : List (TReply I L)) :
    Prop := ∃ M, TRun St Map.empty cs rs M

end Verif.Conc
