import Verif.Ranged.Model
import Verif.IdxTable.Spec

/-!
Specification of a ranged table: a partial map from the integers of `[start, stop]` to label sets.
Independent of the model's functions; uses only the types `U64` and `TEntry`.
-/

namespace Verif.Ranged
open Verif.IdxTable (U64 Ascending)

/-- abstract state: labels claimed under each external id -/
abbrev LMap (L : Type) := U64 → Option L
variable {L : Type}

def LMap.put (s : LMap L) (id : U64) (l : L) : LMap L := fun i => if i = id then some l else s i
def LMap.drop (s : LMap L) (id : U64) : LMap L := fun i => if i = id then none else s i

/-- `id` lies in the closed interval -/
def InR (start stop : Nat) (id : U64) : Prop := start ≤ id.toNat ∧ id.toNat ≤ stop

instance (start stop : Nat) (id : U64) : Decidable (InR start stop id) :=
  inferInstanceAs (Decidable (_ ∧ _))

/-- `id` can be handed out -/
def AvailR (start stop : Nat) (s : LMap L) (id : U64) : Prop := InR start stop id ∧ s id = none

/-- `id` is the lowest id that can be handed out -/
def LeastR (start stop : Nat) (s : LMap L) (id : U64) : Prop :=
  AvailR start stop s id ∧ ∀ j, AvailR start stop s j → id ≤ j

/-- the calls of `table.Table` (pkg/table/table.go:8-20) -/
inductive RCall (L : Type)
  | get (id : U64)
  | claim (id : U64) (l : L)
  | claimFree (l : L)
  | release (id : U64)
  | update (id : U64) (l : L)
  | size
  | has (id : U64)
  | isFree (id : U64)
  | findFree
  | getAll
  | getByLabel (sel : L → Bool)

/-- replies; of the entry returned by `Get` only the labels are kept here (its id is C18) -/
inductive RReply (L : Type)
  | ok
  | err
  | panic
  | labels (l : L)
  | entry (e : TEntry L)
  | entries (es : List (TEntry L))
  | id (i : U64)
  | bool (b : Bool)
  | nat (n : Nat)

/-- `es` lists, ascending, the entries of `s` selected by `sel`, with external ids -/
def Lists (len : Nat) (s : LMap L) (sel : L → Bool) (es : List (TEntry L)) : Prop :=
  Ascending (es.map TEntry.id) ∧
  ∀ e, e ∈ es ↔ s e.id = some e.labels ∧ e.len = len ∧ sel e.labels = true

/-- one call: state before, call, state after, reply. `len1` is the length reported in the entry
of `ClaimFree`, `len2` the one in the entries of `GetAll` and `GetByLabel`. -/
def RStep (start stop len1 len2 : Nat) (s : LMap L) : RCall L → LMap L → RReply L → Prop
  | .get id, s', r => s' = s ∧ (∀ l, s id = some l → r = .labels l) ∧ (s id = none → r = .err)
  | .claim id l, s', r =>
      (AvailR start stop s id ∧ s' = s.put id l ∧ r = .ok) ∨
      (¬ AvailR start stop s id ∧ s' = s ∧ r = .err)
  | .claimFree l, s', r =>
      (∃ i, LeastR start stop s i ∧ s' = s.put i l ∧ r = .entry ⟨i, len1, l⟩) ∨
      ((∀ i, ¬ AvailR start stop s i) ∧ s' = s ∧ r = .err)
  | .release id, s', r =>
      (InR start stop id ∧ s' = s.drop id ∧ r = .ok) ∨ (¬ InR start stop id ∧ s' = s ∧ r = .err)
  | .update id l, s', r =>
      (s id ≠ none ∧ s' = s.put id l ∧ r = .ok) ∨ (s id = none ∧ s' = s ∧ r = .err)
  | .size, s', r => s' = s ∧ ∃ ids : List U64, Ascending ids ∧ (∀ i, i ∈ ids ↔ s i ≠ none) ∧
      r = .nat ids.length
  | .has id, s', r => s' = s ∧ ∃ b, (b = true ↔ s id ≠ none) ∧ r = .bool b
  | .isFree id, s', r => s' = s ∧ ∃ b, (b = true ↔ AvailR start stop s id) ∧ r = .bool b
  | .findFree, s', r => s' = s ∧
      ((∃ i, LeastR start stop s i ∧ r = .id i) ∨ ((∀ i, ¬ AvailR start stop s i) ∧ r = .err))
  | .getAll, s', r => s' = s ∧ ∃ es, Lists len2 s (fun _ => true) es ∧ r = .entries es
  | .getByLabel sel, s', r => s' = s ∧ ∃ es, Lists len2 s sel es ∧ r = .entries es

/-- a whole history -/
inductive RRun (start stop len1 len2 : Nat) : LMap L → List (RCall L) → List (RReply L) → LMap L → Prop
  | nil (s) : RRun start stop len1 len2 s [] [] s
  | cons {s s' s'' c cs r rs} : RStep start stop len1 len2 s c s' r →
      RRun start stop len1 len2 s' cs rs s'' → RRun start stop len1 len2 s (c :: cs) (r :: rs) s''

/-! What the table of the full range `[0, stop]` does instead (C17): no id is ever found free. -/

/-- one call -/
def RStepFull (stop len1 len2 : Nat) (s : LMap L) : RCall L → LMap L → RReply L → Prop
  | .claimFree _, s', r => s' = s ∧ r = .err
  | .findFree, s', r => s' = s ∧ r = .err
  | c, s', r => RStep 0 stop len1 len2 s c s' r

/-- a whole history -/
inductive RRunFull (stop len1 len2 : Nat) : LMap L → List (RCall L) → List (RReply L) → LMap L → Prop
  | nil (s) : RRunFull stop len1 len2 s [] [] s
  | cons {s s' s'' c cs r rs} : RStepFull stop len1 len2 s c s' r →
      RRunFull stop len1 len2 s' cs rs s'' → RRunFull stop len1 len2 s (c :: cs) (r :: rs) s''

end Verif.Ranged
