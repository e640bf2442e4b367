import Verif.IdxTable.Model

/-!
Specification of the index table, independent of the model's helpers: an abstract partial map from
`uint64` ids to payloads, and for every call the relation between the map before, the map after
and the reply.  Only the types `U64` and `Entry` of the model are used, plus `Call`/`Reply`, the
vocabulary of the public interface (table.go:9-30).
-/

namespace Verif.IdxTable
variable {α : Type}

/-- abstract state: the payload claimed under each id -/
abbrev PMap (α : Type) := U64 → Option α

/-- `s` with the payload `d` stored under each id of `ids` -/
def PMap.put (s : PMap α) (ids : List U64) (d : α) : PMap α :=
  fun i => if i ∈ ids then some d else s i

/-- `s` without `id` -/
def PMap.drop (s : PMap α) (id : U64) : PMap α := fun i => if i = id then none else s i

/-- `id` can be handed out: inside the table and not claimed -/
def Avail (size : U64) (s : PMap α) (id : U64) : Prop := id < size ∧ s id = none

/-- strictly ascending -/
def Ascending (l : List U64) : Prop := l.Pairwise (· < ·)

/-- `ids` lists, ascending, exactly the ids satisfying `P` -/
def Enumerates (ids : List U64) (P : U64 → Prop) : Prop := Ascending ids ∧ ∀ i, i ∈ ids ↔ P i

/-- the calls of the interface `Table[T1]` (table.go:9-30) -/
inductive Call (α : Type)
  | get (id : U64)
  | claim (id : U64) (d : α)
  | claimDynamic (d : α)
  | claimRange (start size : U64) (d : α)
  | claimSize (size : U64) (d : α)
  | release (id : U64)
  | update (id : U64) (d : α)
  | iterate
  | iterateFree
  | size
  | has (id : U64)
  | isFree (id : U64)
  | findFree
  | findFreeRange (start size : U64)
  | findFreeSize (size : U64)
  | getAll

/-- what a call returns (`entries` holds `none` for a nil interface) -/
inductive Reply (α : Type)
  | ok
  | err
  | entry (e : Entry α)
  | entries (es : List (Option (Entry α)))
  | id (i : U64)
  | ids (is : List U64)
  | bool (b : Bool)
  | nat (n : Nat)

/-- What `FindFreeRange(start, n)` returns when it succeeds, in terms of the available ids.  With
`stop = start+n-1` (wrapping): both ends lie in the table, every available id strictly between
`start` and `stop` has an available predecessor, and the result enumerates the available ids from
`start` up to the least available id that is above `start` and not below `stop`. -/
def RangeResult (size : U64) (s : PMap α) (start n : U64) (ids : List U64) : Prop :=
  start < size ∧ start + n - 1 < size ∧
  (∀ x, Avail size s x → start < x → x < start + n - 1 → Avail size s (x - 1)) ∧
  ∃ z, Avail size s z ∧ start < z ∧ start + n - 1 ≤ z ∧
    (∀ y, Avail size s y → start < y → start + n - 1 ≤ y → z ≤ y) ∧
    Enumerates ids (fun x => Avail size s x ∧ start ≤ x ∧ x ≤ z)

/-- What `FindFreeSize(n)` returns when it succeeds: the `n` lowest available ids, `n >= 1`. -/
def SizeResult (size : U64) (s : PMap α) (n : U64) (ids : List U64) : Prop :=
  1 ≤ n.toNat ∧ ids.length = n.toNat ∧ Ascending ids ∧ (∀ i ∈ ids, Avail size s i) ∧
  (∀ i ∈ ids, ∀ j, Avail size s j → j < i → j ∈ ids)

/-- `i` is the least available id -/
def LeastAvail (size : U64) (s : PMap α) (i : U64) : Prop :=
  Avail size s i ∧ ∀ j, Avail size s j → i ≤ j

/-- One call on a table of capacity `size`: state before, call, state after, reply. -/
def SpecStep (size : U64) (s : PMap α) : Call α → PMap α → Reply α → Prop
  | .get id, s', r => s' = s ∧
      (∀ d, s id = some d → r = .entry ⟨id, d⟩) ∧ (s id = none → r = .err)
  | .claim id d, s', r =>
      (Avail size s id ∧ s' = s.put [id] d ∧ r = .ok) ∨ (¬ Avail size s id ∧ s' = s ∧ r = .err)
  | .claimDynamic d, s', r =>
      (∃ i, LeastAvail size s i ∧ s' = s.put [i] d ∧ r = .entry ⟨i, d⟩) ∨
      ((∀ i, ¬ Avail size s i) ∧ s' = s ∧ r = .err)
  | .claimRange start n d, s', r =>
      (∃ ids, RangeResult size s start n ids ∧ s' = s.put ids d ∧ r = .ok) ∨
      ((∀ ids, ¬ RangeResult size s start n ids) ∧ s' = s ∧ r = .err)
  | .claimSize n d, s', r =>
      (∃ ids, SizeResult size s n ids ∧ s' = s.put ids d ∧
        r = .entries (ids.map fun i => some ⟨i, d⟩)) ∨
      ((∀ ids, ¬ SizeResult size s n ids) ∧ s' = s ∧ r = .err)
  | .release id, s', r => (id < size ∧ s' = s.drop id ∧ r = .ok) ∨ (¬ id < size ∧ s' = s ∧ r = .err)
  | .update id d, s', r =>
      (s id ≠ none ∧ s' = s.put [id] d ∧ r = .ok) ∨ (s id = none ∧ s' = s ∧ r = .err)
  | .iterate, s', r => s' = s ∧ ∃ ids, Enumerates ids (fun i => s i ≠ none) ∧ r = .ids ids
  | .iterateFree, s', r => s' = s ∧ ∃ ids, Enumerates ids (Avail size s) ∧ r = .ids ids
  | .size, s', r => s' = s ∧ ∃ ids, Enumerates ids (fun i => s i ≠ none) ∧ r = .nat ids.length
  | .has id, s', r => s' = s ∧ ∃ b, (b = true ↔ s id ≠ none) ∧ r = .bool b
  | .isFree id, s', r => s' = s ∧ ∃ b, (b = true ↔ s id = none) ∧ r = .bool b
  | .findFree, s', r => s' = s ∧
      ((∃ i, LeastAvail size s i ∧ r = .id i) ∨ ((∀ i, ¬ Avail size s i) ∧ r = .err))
  | .findFreeRange start n, s', r => s' = s ∧
      ((∃ ids, RangeResult size s start n ids ∧ r = .ids ids) ∨
       ((∀ ids, ¬ RangeResult size s start n ids) ∧ r = .err))
  | .findFreeSize n, s', r => s' = s ∧
      ((∃ ids, SizeResult size s n ids ∧ r = .ids ids) ∨
       ((∀ ids, ¬ SizeResult size s n ids) ∧ r = .err))
  | .getAll, s', r => s' = s ∧ ∃ es : List (Entry α), Ascending (es.map Entry.id) ∧
      (∀ e, e ∈ es ↔ s e.id = some e.data) ∧ r = .entries (es.map some)

/-- a whole history -/
inductive SpecRun (size : U64) : PMap α → List (Call α) → List (Reply α) → PMap α → Prop
  | nil (s) : SpecRun size s [] [] s
  | cons {s s' s'' c cs r rs} : SpecStep size s c s' r → SpecRun size s' cs rs s'' →
      SpecRun size s (c :: cs) (r :: rs) s''

/-! What the table of capacity zero does (C14): `Claim` and `Release` accept every id, the rest is as specified, in
particular no id is available. -/

/-- one call -/
def ZeroStep (s : PMap α) : Call α → PMap α → Reply α → Prop
  | .claim id d, s', r => (s id = none ∧ s' = s.put [id] d ∧ r = .ok) ∨ (s id ≠ none ∧ s' = s ∧ r = .err)
  | .release id, s', r => s' = s.drop id ∧ r = .ok
  | c, s', r => SpecStep 0 s c s' r

/-- a whole history -/
inductive ZeroRun : PMap α → List (Call α) → List (Reply α) → PMap α → Prop
  | nil (s) : ZeroRun s [] [] s
  | cons {s s' s'' c cs r rs} : ZeroStep s c s' r → ZeroRun s' cs rs s'' → ZeroRun s (c :: cs) (r :: rs) s''

end Verif.IdxTable
