import Verif.GoMap

/-!
Model of `pkg/idxtable` (`table.go`, `iterator.go`, `entry.go`).

Simplifications, for the whole file:
* locks are left out here (every method body is one critical section; the locking itself is the
  subject of `Verif/Conc`);
* an `error` is an element of `Err` (the text of the message is dropped, the reason is kept);
* mutation through the receiver becomes returning the new table.
-/

namespace Verif.IdxTable

/-- Go `uint64` -/
abbrev U64 := BitVec 64

/-- The reasons for which a method of the table fails (one per `fmt.Errorf` in `table.go`). -/
inductive Err
  | tooBig        -- table.go:50   id > size-1
  | notFound      -- table.go:65
  | noFree        -- table.go:89 and table.go:222
  | startTooBig   -- table.go:235
  | endTooBig     -- table.go:238
  | inUse         -- table.go:252
  | noRange       -- table.go:260
  | sizeTooBig    -- table.go:271
  | noSize        -- table.go:283
  | alreadyExists -- table.go:291
  | notCreated    -- table.go:302
deriving DecidableEq, Repr

/-- entry.go:8-23 `entry[T1]`, `NewEntry` (the constructor), `ID`, `Data` (the projections). -/
structure Entry (α : Type) where
  id : U64
  data : α
deriving DecidableEq, Repr

/-- table.go:42-46 `table[T1]` without its mutex. -/
structure Table (α : Type) where
  size : U64
  m : GoMap U64 (Entry α)

/-- iterator.go:3-7 `Iterator[T1]`.  The third field of the Go struct, `table`, aliases the live
map of the table the iterator was made from; it is not copied here, `Iter.value` takes the map
as it is at the time of the call. -/
structure Iter where
  current : U64
  keys : List U64

variable {α : Type}

/-- table.go:32-40 `NewTable` -/
def newTable (size : U64) : Table α := ⟨size, GoMap.empty⟩

/-- table.go:48-53 `validate`; `r.size-1` wraps when the size is 0. -/
def validate (t : Table α) (id : U64) : Except Err Unit :=
  if id > t.size - 1 then .error .tooBig else .ok ()

/-- table.go:211-214 `isFree` -/
def isFreeB (t : Table α) (id : U64) : Bool := (t.m.get? id).isNone

/-- table.go:205-209 `IsFree` -/
def isFree (t : Table α) (id : U64) : Bool := isFreeB t id

/-- table.go:197-203 `Has` -/
def has (t : Table α) (id : U64) : Bool := (t.m.get? id).isSome

/-- table.go:191-196 `Size` -/
def sizeOf (t : Table α) : Nat := t.m.len

/-- table.go:55-68 `Get` -/
def get (t : Table α) (id : U64) : Except Err (Entry α) :=
  match validate t id with
  | .error e => .error e
  | .ok () =>
    match t.m.get? id with
    | none => .error .notFound
    | some e => .ok e

/-- table.go:286-295 `add` -/
def add (t : Table α) (e : Entry α) : Table α × Except Err Unit :=
  match validate t e.id with
  | .error er => (t, .error er)
  | .ok () =>
    if !isFreeB t e.id then (t, .error .alreadyExists)
    else ({ t with m := t.m.set e.id e }, .ok ())

/-- table.go:297-306 `update` -/
def updateE (t : Table α) (e : Entry α) : Table α × Except Err Unit :=
  match validate t e.id with
  | .error er => (t, .error er)
  | .ok () =>
    if isFreeB t e.id then (t, .error .notCreated)
    else ({ t with m := t.m.set e.id e }, .ok ())

/-- table.go:308-314 `delete` -/
def delete (t : Table α) (id : U64) : Table α × Except Err Unit :=
  match validate t id with
  | .error er => (t, .error er)
  | .ok () => ({ t with m := t.m.del id }, .ok ())

/-- table.go:70-75 `Claim` -/
def claim (t : Table α) (id : U64) (d : α) : Table α × Except Err Unit := add t ⟨id, d⟩

/-- table.go:131-136 `Release` -/
def release (t : Table α) (id : U64) : Table α × Except Err Unit := delete t id

/-- table.go:138-143 `Update` -/
def update (t : Table α) (id : U64) (d : α) : Table α × Except Err Unit := updateE t ⟨id, d⟩

/-- `sort.Slice(keys, func(i, j) { return keys[i] < keys[j] })` (table.go:157-159, 184-186).
`sort.Slice` is not stable, but equal `uint64` keys are indistinguishable. -/
def sortKeys (ks : List U64) : List U64 := ks.mergeSort (fun a b => !(decide (b < a)))

/-- iterator.go:17-20 `Next`: the cursor wraps from `1<<64-1` to 0 on the first call. The result
is the advanced iterator; `Iter.inBounds` is the returned boolean. -/
def Iter.advance (it : Iter) : Iter := { it with current := it.current + 1 }

/-- iterator.go:19, the boolean returned by `Next` (`len(r.keys)` is below `2^63` in Go, so the
conversion to `uint64` does not lose anything). -/
def Iter.inBounds (it : Iter) : Prop := it.current.toNat < it.keys.length

instance (it : Iter) : Decidable it.inBounds := inferInstanceAs (Decidable (_ < _))

/-- iterator.go:13-15 `ID`: the index expression is in bounds exactly when `Next` returned true,
otherwise Go panics. -/
def Iter.id (it : Iter) (h : it.inBounds) : U64 := it.keys[it.current.toNat]'h

/-- iterator.go:9-11 `Value`: reads the *live* map `m`; `none` is the nil interface a missing key
yields. -/
def Iter.value (it : Iter) (m : GoMap U64 (Entry α)) (h : it.inBounds) : Option (Entry α) :=
  m.get? (it.id h)

/-- iterator.go:22-27 `IsConsecutive` (`keys[current]-1` wraps). -/
def Iter.isConsecutive (it : Iter) (h : it.inBounds) : Bool :=
  if it.current < 1 then false
  else decide (it.keys[(it.current - 1).toNat]? = some (it.id h - 1))

/-- table.go:152-162 `iterate`; `order` is the order in which Go yields the map keys. -/
def iterate (order : List U64) : Iter := ⟨-1, sortKeys order⟩

/-- table.go:145-150 `Iterate` with the representation order of the map; `C10` shows that the
order is irrelevant. -/
def iterateT (t : Table α) : Iter := iterate t.m.keys

/-- table.go:177-183: the loop `for id := uint64(0); id < r.size; id++` collecting the ids that
are not in the map. -/
def freeKeys (t : Table α) : List U64 :=
  ((List.range t.size.toNat).map (BitVec.ofNat 64)).filter (fun id => isFreeB t id)

/-- table.go:164-189 `IterateFree`, `iterateFree` (the local map `table` of the Go code is never
read and is left out). -/
def iterateFree (t : Table α) : Iter := ⟨-1, sortKeys (freeKeys t)⟩

/-- table.go:77-90 `ClaimDynamic` -/
def claimDynamic (t : Table α) (d : α) : Table α × Except Err (Entry α) :=
  let it := (iterateFree t).advance
  if h : it.inBounds then
    let e : Entry α := ⟨it.id h, d⟩
    match add t e with
    | (t', .error er) => (t', .error er)
    | (t', .ok ()) => (t', .ok e)
  else (t, .error .noFree)

/-- table.go:216-223 `FindFree` -/
def findFree (t : Table α) : Except Err U64 :=
  let it := (iterateFree t).advance
  if h : it.inBounds then .ok (it.id h) else .error .noFree

/-- table.go:241-260 the loop of `findFreeRange`; `fuel` bounds the iterations (`C07`: the number
of keys plus one always suffices). -/
def findFreeRangeLoop (start stop : U64) : Nat → Iter → List U64 → Except Err (List U64)
  | 0, _, _ => .error .noRange
  | fuel + 1, it, entries =>
    let it := it.advance
    if h : it.inBounds then
      let id := it.id h
      if id < start then findFreeRangeLoop start stop fuel it entries
      else if id = start then findFreeRangeLoop start stop fuel it (entries ++ [id])
      else if id > start ∧ id < stop then
        if !it.isConsecutive h then .error .inUse
        else findFreeRangeLoop start stop fuel it (entries ++ [id])
      else .ok (entries ++ [id])
    else .error .noRange

/-- table.go:225-261 `FindFreeRange`, `findFreeRange`; `start+size-1` and `r.size-1` wrap. -/
def findFreeRange (t : Table α) (start size : U64) : Except Err (List U64) :=
  let stop := start + size - 1
  if start > t.size - 1 then .error .startTooBig
  else if stop > t.size - 1 then .error .endTooBig
  else
    let free := iterateFree t
    findFreeRangeLoop start stop (free.keys.length + 1) free []

/-- table.go:273-283 the loop of `findFreeSize`; `size-1` wraps when the size is 0. -/
def findFreeSizeLoop (size : U64) : Nat → Iter → U64 → List U64 → Except Err (List U64)
  | 0, _, _, _ => .error .noSize
  | fuel + 1, it, i, entries =>
    let it := it.advance
    if h : it.inBounds then
      let i := i + 1
      let entries := entries ++ [it.id h]
      if i > size - 1 then .ok entries
      else findFreeSizeLoop size fuel it i entries
    else .error .noSize

/-- table.go:263-284 `FindFreeSize`, `findFreeSize` -/
def findFreeSize (t : Table α) (size : U64) : Except Err (List U64) :=
  if size > t.size then .error .sizeTooBig
  else
    let free := iterateFree t
    findFreeSizeLoop size (free.keys.length + 1) free 0 []

/-- table.go:100-106 the loop of `ClaimRange` -/
def addAll (t : Table α) (d : α) : List U64 → Table α × Except Err Unit
  | [] => (t, .ok ())
  | id :: ids =>
    match add t ⟨id, d⟩ with
    | (t', .error er) => (t', .error er)
    | (t', .ok ()) => addAll t' d ids

/-- table.go:92-108 `ClaimRange` -/
def claimRange (t : Table α) (start size : U64) (d : α) : Table α × Except Err Unit :=
  match findFreeRange t start size with
  | .error e => (t, .error e)
  | .ok ids => addAll t d ids

/-- table.go:118-128 the loop of `ClaimSize`, accumulating the entries -/
def addAllE (t : Table α) (d : α) : List U64 → List (Entry α) →
    Table α × Except Err (List (Entry α))
  | [], entries => (t, .ok entries)
  | id :: ids, entries =>
    match add t ⟨id, d⟩ with
    | (t', .error er) => (t', .error er)
    | (t', .ok ()) => addAllE t' d ids (entries ++ [⟨id, d⟩])

/-- table.go:110-129 `ClaimSize` -/
def claimSize (t : Table α) (size : U64) (d : α) : Table α × Except Err (List (Entry α)) :=
  match findFreeSize t size with
  | .error e => (t, .error e)
  | .ok ids => addAllE t d ids []

/-- table.go:322-325 the loop `for iter.Next() { entries = append(entries, iter.Value()) }`.
An element `none` is a nil interface. -/
def collectLoop (m : GoMap U64 (Entry α)) : Nat → Iter → List (Option (Entry α)) →
    List (Option (Entry α))
  | 0, _, acc => acc
  | fuel + 1, it, acc =>
    let it := it.advance
    if h : it.inBounds then collectLoop m fuel it (acc ++ [it.value m h]) else acc

/-- table.go:316-327 `GetAll`, with an explicit map order -/
def getAllOrd (t : Table α) (order : List U64) : List (Option (Entry α)) :=
  let it := iterate order
  collectLoop t.m (it.keys.length + 1) it []

/-- table.go:316-327 `GetAll` -/
def getAll (t : Table α) : List (Option (Entry α)) := getAllOrd t t.m.keys

end Verif.IdxTable
