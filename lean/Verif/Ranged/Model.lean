import Verif.IdxTable.Model

/-!
Model of `pkg/table/table16`, `table32`, `table64`.  The three packages are the same text up to
the integer width, the identifier package used for the stored ids and the width check; they are
modelled once, parametrised by `Width`, whose three instances carry the literals of each package.
Lines are those of `table16.go`; where `table32.go`/`table64.go` differ, the lines are given too.

Simplifications:
* label sets are values of an arbitrary type `L` (a Go `labels.Set` is a map; that a caller could
  mutate it after handing it over is not modelled), a selector is an arbitrary predicate on `L`;
* the tree ids stored in an entry are kept as the pair (value, length) that `ID()` and `Length()`
  report;
* sequential calls only (the interleaving of the two index-table calls inside `Claim` and
  `ClaimFree` is the subject of `Verif/Conc`).
-/

namespace Verif.Ranged
open Verif.IdxTable

/-- the constants in which the three packages differ -/
structure Width where
  /-- bits of the id type: `uint16`, `uint32`, `uint64` -/
  W : Nat
  /-- literal of the first check of `validateID` (table16.go:152, table32.go:151; absent in
  table64.go) -/
  maxCheck : Option U64
  /-- length of the id of the entries stored by `Claim`/`Update` and returned by `ClaimFree`:
  `idN.IDBitSize` -/
  storedLen : Nat
  /-- length of the id of the entries returned by `GetAll`, `GetByLabel` (table16.go:128,144;
  table32.go:127,143; table64.go:127,143) -/
  outLen : Nat
  /-- bits of the id type used for those entries (`id32` in table16.go:128) -/
  outW : Nat

/-- table16.go -/
def w16 : Width := ⟨16, some 65535, 16, 32, 32⟩
/-- table32.go -/
def w32 : Width := ⟨32, some 4294967295, 32, 32, 32⟩
/-- table64.go -/
def w64 : Width := ⟨64, none, 64, 64, 64⟩

/-- pkg/tree/entry.go:16-39 `entry`, with its id given by `ID().ID()` and `ID().Length()` -/
structure TEntry (L : Type) where
  id : U64
  len : Nat
  labels : L
deriving DecidableEq, Repr

/-- failures: of `validateID`, of `Claim` (line 51), or passed on from the index table -/
inductive RErr
  | tooBig | outOfRange | claimed | idx (e : Err)
deriving DecidableEq, Repr

/-- table16.go:24-28 `table16` -/
structure RTable (P : Width) (L : Type) where
  tab : Table (TEntry L)
  start : BitVec P.W
  stop : BitVec P.W

variable {P : Width} {L : Type}

/-- table16.go:14-22 `New`: the size is computed in the narrow type and wraps -/
def new (start stop : BitVec P.W) : RTable P L :=
  ⟨newTable ((stop - start + 1).setWidth 64), start, stop⟩

/-- table16.go:164-167 `calculateIndex` -/
def calculateIndex (id start : BitVec P.W) : U64 := (id - start).setWidth 64

/-- table16.go:169-171 `calculateIDFromIndex` -/
def calculateIDFromIndex (start : BitVec P.W) (id : U64) : BitVec P.W := start + id.setWidth P.W

/-- the first check of `validateID`: table16.go:152 `id > 65535`, table32.go:151
`id > 4294967295`, absent in table64.go -/
def exceeds (P : Width) (id : U64) : Bool :=
  match P.maxCheck with
  | some m => decide (id > m)
  | none => false

/-- table16.go:151-162 `validateID` (table64.go:150-158 lacks the first check) -/
def validateID (r : RTable P L) (id : U64) : Except RErr Unit :=
  if exceeds P id then .error .tooBig
  else if id.setWidth P.W < r.start then .error .outOfRange
  else if id.setWidth P.W > r.stop then .error .outOfRange
  else .ok ()

/-- `idN.NewID(uintN(newid), idN.IDBitSize)` wrapped in `tree.NewEntry`, table16.go:54-55 -/
def storedEntry (P : Width) (idx : U64) (l : L) : TEntry L :=
  ⟨(idx.setWidth P.W).setWidth 64, P.storedLen, l⟩

/-- table16.go:30-42 `Get` -/
def get (r : RTable P L) (id : U64) : Except RErr (TEntry L) :=
  match validateID r id with
  | .error e => .error e
  | .ok () =>
    match IdxTable.get r.tab (calculateIndex (id.setWidth P.W) r.start) with
    | .error e => .error (.idx e)
    | .ok e => .ok e.data

/-- pass on the result of an index table call -/
def lift (r : RTable P L) (p : Table (TEntry L) × Except Err Unit) :
    RTable P L × Except RErr Unit :=
  ({ r with tab := p.1 }, match p.2 with | .ok () => .ok () | .error e => .error (.idx e))

/-- table16.go:44-57 `Claim` -/
def claim (r : RTable P L) (id : U64) (l : L) : RTable P L × Except RErr Unit :=
  match validateID r id with
  | .error e => (r, .error e)
  | .ok () =>
    let newid := calculateIndex (id.setWidth P.W) r.start
    if !isFree r.tab newid then (r, .error .claimed)
    else lift r (IdxTable.claim r.tab newid (storedEntry P newid l))

/-- table16.go:116-122 `FindFree` -/
def findFree (r : RTable P L) : Except RErr U64 :=
  match IdxTable.findFree r.tab with
  | .error e => .error (.idx e)
  | .ok id => .ok ((calculateIDFromIndex r.start id).setWidth 64)

/-- table16.go:59-72 `ClaimFree` -/
def claimFree (r : RTable P L) (l : L) : RTable P L × Except RErr (TEntry L) :=
  match findFree r with
  | .error e => (r, .error e)
  | .ok id =>
    match claim r id l with
    | (r', .error e) => (r', .error e)
    | (r', .ok ()) => (r', .ok (storedEntry P id l))

/-- table16.go:74-81 `Release` -/
def release (r : RTable P L) (id : U64) : RTable P L × Except RErr Unit :=
  match validateID r id with
  | .error e => (r, .error e)
  | .ok () => lift r (IdxTable.release r.tab (calculateIndex (id.setWidth P.W) r.start))

/-- table16.go:83-92 `Update` -/
def update (r : RTable P L) (id : U64) (l : L) : RTable P L × Except RErr Unit :=
  match validateID r id with
  | .error e => (r, .error e)
  | .ok () =>
    let newid := calculateIndex (id.setWidth P.W) r.start
    lift r (IdxTable.update r.tab newid (storedEntry P newid l))

/-- table16.go:94-96 `Size` -/
def sizeOf (r : RTable P L) : Nat := IdxTable.sizeOf r.tab

/-- table16.go:98-105 `Has` -/
def has (r : RTable P L) (id : U64) : Bool :=
  match validateID r id with
  | .error _ => false
  | .ok () => IdxTable.has r.tab (calculateIndex (id.setWidth P.W) r.start)

/-- table16.go:107-114 `IsFree` -/
def isFree (r : RTable P L) (id : U64) : Bool :=
  match validateID r id with
  | .error _ => false
  | .ok () => IdxTable.isFree r.tab (calculateIndex (id.setWidth P.W) r.start)

/-- the remapped entry of table16.go:128 and 144, from an index and labels -/
def outEntry (r : RTable P L) (idx : U64) (l : L) : TEntry L :=
  ⟨(((calculateIDFromIndex r.start idx).setWidth P.outW)).setWidth 64, P.outLen, l⟩

/-- table16.go:126-131 the loop of `GetAll`; `none` is the nil pointer panic that a nil entry
would cause at `entry.ID()` -/
def getAllLoop (r : RTable P L) : List (Option (Entry (TEntry L))) → Option (List (TEntry L))
  | [] => some []
  | none :: _ => none
  | some e :: es => (getAllLoop r es).map (outEntry r e.id e.data.labels :: ·)

/-- table16.go:124-133 `GetAll` -/
def getAll (r : RTable P L) : Option (List (TEntry L)) := getAllLoop r (IdxTable.getAll r.tab)

/-- table16.go:140-147 the loop of `GetByLabel` over the values of the iterator (which equal those
of `GetAll` of the index table when nothing runs concurrently); `none` is the panic of
`iter.Value().Data()` on a nil value. It remaps the id stored in the entry, not the key. -/
def getByLabelLoop (r : RTable P L) (sel : L → Bool) :
    List (Option (Entry (TEntry L))) → Option (List (TEntry L))
  | [] => some []
  | none :: _ => none
  | some e :: es =>
    if sel e.data.labels then
      (getByLabelLoop r sel es).map (outEntry r e.data.id e.data.labels :: ·)
    else getByLabelLoop r sel es

/-- table16.go:135-149 `GetByLabel` -/
def getByLabel (r : RTable P L) (sel : L → Bool) : Option (List (TEntry L)) :=
  getByLabelLoop r sel (IdxTable.getAll r.tab)

end Verif.Ranged
