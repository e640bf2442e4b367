import Verif.Conc.Lang
import Verif.IdxTable.Api

/-!
The methods of the index table as concurrent programs: `pkg/idxtable/table.go` with its locks, one
action per access to the map. The shared memory is the table (the size never changes).
Simplification: `for key := range r.table` (table.go:154) reads the keys in one action.
-/

namespace Verif.Conc
open Verif.IdxTable
variable {α : Type}

/-- programs on the index table -/
abbrev TProg (α β : Type) := Prog (Table α) β

/-- table.go:48-53 `validate` (reads only the constant size) -/
def validateP (id : U64) : TProg α (Except Err Unit) := get (fun t => validate t id)

/-- table.go:211-214 `isFree` -/
def isFreeP (id : U64) : TProg α Bool := get (fun t => isFreeB t id)

/-- table.go:286-295 `add`: two reads and a write -/
def addP (e : Entry α) : TProg α (Except Err Unit) := do
  match ← validateP e.id with
  | .error er => return .error er
  | .ok () =>
    if !(← isFreeP e.id) then return .error .alreadyExists
    else
      put (fun t => { t with m := t.m.set e.id e })
      return .ok ()

/-- table.go:297-306 `update` -/
def updateP (e : Entry α) : TProg α (Except Err Unit) := do
  match ← validateP e.id with
  | .error er => return .error er
  | .ok () =>
    if (← isFreeP e.id) then return .error .notCreated
    else
      put (fun t => { t with m := t.m.set e.id e })
      return .ok ()

/-- table.go:308-314 `delete` -/
def deleteP (id : U64) : TProg α (Except Err Unit) := do
  match ← validateP id with
  | .error er => return .error er
  | .ok () =>
    put (fun t => { t with m := t.m.del id })
    return .ok ()

/-- table.go:177-183 the loop of `iterateFree`: `n` more ids from `i` on, one read each -/
def freeKeysP : Nat → Nat → List U64 → TProg α (List U64)
  | 0, _, acc => return acc
  | n + 1, i, acc => do
    if ← isFreeP (BitVec.ofNat 64 i) then freeKeysP n (i + 1) (acc ++ [BitVec.ofNat 64 i])
    else freeKeysP n (i + 1) acc

/-- table.go:171-189 `iterateFree` -/
def iterateFreeP : TProg α Iter := do
  let size ← get (fun t => t.size)
  let keys ← freeKeysP size.toNat 0 []
  return ⟨-1, sortKeys keys⟩

/-- table.go:152-162 `iterate` -/
def iterateP : TProg α Iter := do
  let keys ← get (fun t => t.m.keys)
  return iterate keys

/-- table.go:145-150 `Iterate` -/
def IterateP : TProg α Iter := withRLock iterateP

/-- table.go:164-169 `IterateFree` -/
def IterateFreeP : TProg α Iter := withRLock iterateFreeP

/-- table.go:231-261 `findFreeRange`; after `iterateFree` it works on local data -/
def findFreeRangeP (start size : U64) : TProg α (Except Err (List U64)) := do
  let stop := start + size - 1
  let s ← get (fun t => t.size)
  if start > s - 1 then return .error .startTooBig
  else if stop > s - 1 then return .error .endTooBig
  else
    let free ← iterateFreeP
    return findFreeRangeLoop start stop (free.keys.length + 1) free []

/-- table.go:269-284 `findFreeSize` -/
def findFreeSizeP (size : U64) : TProg α (Except Err (List U64)) := do
  let s ← get (fun t => t.size)
  if size > s then return .error .sizeTooBig
  else
    let free ← iterateFreeP
    return findFreeSizeLoop size (free.keys.length + 1) free 0 []

/-- table.go:100-106 the loop of `ClaimRange` -/
def addAllP (d : α) : List U64 → TProg α (Except Err Unit)
  | [] => return .ok ()
  | id :: ids => do
    match ← addP ⟨id, d⟩ with
    | .error er => return .error er
    | .ok () => addAllP d ids

/-- table.go:118-128 the loop of `ClaimSize` -/
def addAllEP (d : α) : List U64 → List (Entry α) → TProg α (Except Err (List (Entry α)))
  | [], entries => return .ok entries
  | id :: ids, entries => do
    match ← addP ⟨id, d⟩ with
    | .error er => return .error er
    | .ok () => addAllEP d ids (entries ++ [⟨id, d⟩])

/-- table.go:55-68 `Get` -/
def GetP (id : U64) : TProg α (Except Err (Entry α)) := withRLock do
  match ← validateP id with
  | .error e => return .error e
  | .ok () =>
    match ← get (fun t => t.m.get? id) with
    | none => return .error .notFound
    | some e => return .ok e

/-- table.go:70-75 `Claim` -/
def ClaimP (id : U64) (d : α) : TProg α (Except Err Unit) := withLock (addP ⟨id, d⟩)

/-- table.go:77-90 `ClaimDynamic` -/
def ClaimDynamicP (d : α) : TProg α (Except Err (Entry α)) := withLock do
  let free ← iterateFreeP
  let it := free.advance
  if h : it.inBounds then
    let e : Entry α := ⟨it.id h, d⟩
    match ← addP e with
    | .error er => return .error er
    | .ok () => return .ok e
  else return .error .noFree

/-- table.go:92-108 `ClaimRange` -/
def ClaimRangeP (start size : U64) (d : α) : TProg α (Except Err Unit) := withLock do
  match ← findFreeRangeP start size with
  | .error e => return .error e
  | .ok ids => addAllP d ids

/-- table.go:110-129 `ClaimSize` -/
def ClaimSizeP (size : U64) (d : α) : TProg α (Except Err (List (Entry α))) := withLock do
  match ← findFreeSizeP size with
  | .error e => return .error e
  | .ok ids => addAllEP d ids []

/-- table.go:131-136 `Release` -/
def ReleaseP (id : U64) : TProg α (Except Err Unit) := withLock (deleteP id)

/-- table.go:138-143 `Update` -/
def UpdateP (id : U64) (d : α) : TProg α (Except Err Unit) := withLock (updateP ⟨id, d⟩)

/-- table.go:191-196 `Size` -/
def SizeP : TProg α Nat := withRLock (get (fun t => t.m.len))

/-- table.go:197-203 `Has` -/
def HasP (id : U64) : TProg α Bool := withRLock (get (fun t => (t.m.get? id).isSome))

/-- table.go:205-209 `IsFree` -/
def IsFreeP (id : U64) : TProg α Bool := withRLock (isFreeP id)

/-- table.go:216-223 `FindFree`: the mutex is released before the iterator is read -/
def FindFreeP : TProg α (Except Err U64) := do
  let free ← IterateFreeP
  let it := free.advance
  if h : it.inBounds then return .ok (it.id h) else return .error .noFree

/-- table.go:225-229 `FindFreeRange` -/
def FindFreeRangeP (start size : U64) : TProg α (Except Err (List U64)) :=
  withRLock (findFreeRangeP start size)

/-- table.go:263-267 `FindFreeSize` -/
def FindFreeSizeP (size : U64) : TProg α (Except Err (List U64)) := withRLock (findFreeSizeP size)

/-- table.go:323-325 the loop of `GetAll`, every `Value()` a read of the map -/
def collectP : Nat → Iter → List (Option (Entry α)) → TProg α (List (Option (Entry α)))
  | 0, _, acc => return acc
  | fuel + 1, it, acc => do
    let it := it.advance
    if h : it.inBounds then
      let v ← get (fun t => it.value t.m h)
      collectP fuel it (acc ++ [v])
    else return acc

/-- table.go:316-327 `GetAll`: calls `Iterate`, which takes the read lock a second time -/
def GetAllP : TProg α (List (Option (Entry α))) := withRLock do
  let _ ← get (fun t => t.m.len)
  let it ← IterateP
  collectP (it.keys.length + 1) it []

/-- the calls of the interface (table.go:9-30) -/
def codeOf : Call α → TProg α (Reply α)
  | .get id => do return replyEntry (← GetP id)
  | .claim id d => do return replyUnit (← ClaimP id d)
  | .claimDynamic d => do return replyEntry (← ClaimDynamicP d)
  | .claimRange start n d => do return replyUnit (← ClaimRangeP start n d)
  | .claimSize n d => do return replyEntries (← ClaimSizeP n d)
  | .release id => do return replyUnit (← ReleaseP id)
  | .update id d => do return replyUnit (← UpdateP id d)
  | .iterate => do return .ids (← IterateP).drain
  | .iterateFree => do return .ids (← IterateFreeP).drain
  | .size => do return .nat (← SizeP)
  | .has id => do return .bool (← HasP id)
  | .isFree id => do return .bool (← IsFreeP id)
  | .findFree => do return replyId (← FindFreeP)
  | .findFreeRange start n => do return replyIds (← FindFreeRangeP start n)
  | .findFreeSize n => do return replyIds (← FindFreeSizeP n)
  | .getAll => do return .entries (← GetAllP)

end Verif.Conc
