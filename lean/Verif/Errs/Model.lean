import Verif.IdxTable.Api
import Verif.Ranged.Model
import Verif.IPTable.Model
import Verif.GTree.EntryStrProps

/-!
The texts of the errors of the tables and of the trees (`fmt.Errorf`). The other models keep only that a call
fails; here each function has the control flow of the method again, and its result is the text of the error, `none`
for a nil error. `C109_fails` shows that a call has a text here exactly if it fails there.

* `%d` of an unsigned integer is its shortest decimal numeral, `%s` of a string its bytes, `%d` of a struct its
  fields in braces (package fmt, not part of /repo). An id that is a pointer is printed with a `&` before the brace;
  this is left out.
* The texts of `ParseRange` and of the set builders are in `SetModel.lean`; the text of a set builder is a parameter
  here.
-/

namespace Verif.IdxTable
open Verif.Id (fmtUint)
open Verif.GTree (ascii)

/-- bytes -/
abbrev Text := List UInt8

/-- `%d` of a `uint64` -/
def num (x : U64) : Text := fmtUint x.toNat

variable {α : Type}

/-- table.go:48-53 `validate` -/
def validateMsg (t : Table α) (id : U64) : Option Text :=
  if id > t.size - 1 then
    some (ascii "id " ++ num id ++ ascii " is bigger then max allowed entries: " ++ num (t.size - 1))
  else none

/-- table.go:55-68 `Get` -/
def getMsg (t : Table α) (id : U64) : Option Text :=
  match validateMsg t id with
  | some m => some m
  | none =>
    match t.m.get? id with
    | none => some (ascii "no entry found for: " ++ num id)
    | some _ => none

/-- table.go:286-295 `add` -/
def addMsg (t : Table α) (id : U64) : Option Text :=
  match validateMsg t id with
  | some m => some m
  | none => if !isFreeB t id then some (ascii "entry " ++ num id ++ ascii " already exists") else none

/-- table.go:297-306 `update`, called by table.go:138-143 `Update` -/
def updateMsg (t : Table α) (id : U64) : Option Text :=
  match validateMsg t id with
  | some m => some m
  | none => if isFreeB t id then some (ascii "entry " ++ num id ++ ascii " not created") else none

/-- table.go:308-314 `delete`, called by table.go:131-136 `Release` -/
def releaseMsg (t : Table α) (id : U64) : Option Text := validateMsg t id

/-- table.go:77-90 `ClaimDynamic` -/
def claimDynamicMsg (t : Table α) : Option Text :=
  let it := (iterateFree t).advance
  if h : it.inBounds then addMsg t (it.id h) else some (ascii "no free entry found")

/-- table.go:216-223 `FindFree` -/
def findFreeMsg (t : Table α) : Option Text :=
  let it := (iterateFree t).advance
  if it.inBounds then none else some (ascii "no free entry found")

/-- table.go:260 -/
def noRangeText (start size : U64) : Text :=
  ascii "could not find free range that fit in start " ++ num start ++ ascii ", size " ++ num size

/-- table.go:241-260 the loop of `findFreeRange`; the id printed in line 252 is the one of the iterator -/
def findFreeRangeLoopMsg (start size stop : U64) : Nat → Iter → Option Text
  | 0, _ => some (noRangeText start size)
  | fuel + 1, it =>
    let it := it.advance
    if h : it.inBounds then
      let id := it.id h
      if id < start then findFreeRangeLoopMsg start size stop fuel it
      else if id = start then findFreeRangeLoopMsg start size stop fuel it
      else if id > start ∧ id < stop then
        if !it.isConsecutive h then
          some (ascii "entry " ++ num id ++ ascii " in use in range: start: " ++ num start ++ ascii ", end " ++ num stop)
        else findFreeRangeLoopMsg start size stop fuel it
      else none
    else some (noRangeText start size)

/-- table.go:225-261 `FindFreeRange`, `findFreeRange` -/
def findFreeRangeMsg (t : Table α) (start size : U64) : Option Text :=
  let stop := start + size - 1
  if start > t.size - 1 then
    some (ascii "start " ++ num start ++ ascii " is bigger then max allowed entries: " ++ num t.size)
  else if stop > t.size - 1 then
    some (ascii "end " ++ num stop ++ ascii " is bigger then max allowed entries: " ++ num t.size)
  else
    let free := iterateFree t
    findFreeRangeLoopMsg start size stop (free.keys.length + 1) free

/-- table.go:273-283 the loop of `findFreeSize` -/
def findFreeSizeLoopMsg (size : U64) : Nat → Iter → U64 → Option Text
  | 0, _, _ => some (ascii "could not find free entries that fit in size " ++ num size)
  | fuel + 1, it, i =>
    let it := it.advance
    if it.inBounds then
      let i := i + 1
      if i > size - 1 then none else findFreeSizeLoopMsg size fuel it i
    else some (ascii "could not find free entries that fit in size " ++ num size)

/-- table.go:263-284 `FindFreeSize`, `findFreeSize` -/
def findFreeSizeMsg (t : Table α) (size : U64) : Option Text :=
  if size > t.size then some (ascii "size " ++ num size ++ ascii " is bigger then max allowed entries: " ++ num t.size)
  else
    let free := iterateFree t
    findFreeSizeLoopMsg size (free.keys.length + 1) free 0

/-- table.go:100-106, 119-127 the loops of `ClaimRange` and `ClaimSize` -/
def addAllMsg (t : Table α) (d : α) : List U64 → Option Text
  | [] => none
  | id :: ids =>
    match addMsg t id with
    | some m => some m
    | none => addAllMsg (add t ⟨id, d⟩).1 d ids

/-- table.go:92-108 `ClaimRange` -/
def claimRangeMsg (t : Table α) (start size : U64) (d : α) : Option Text :=
  match findFreeRangeMsg t start size, findFreeRange t start size with
  | some m, _ => some m
  | none, .ok ids => addAllMsg t d ids
  | none, .error _ => none

/-- table.go:110-129 `ClaimSize` -/
def claimSizeMsg (t : Table α) (size : U64) (d : α) : Option Text :=
  match findFreeSizeMsg t size, findFreeSize t size with
  | some m, _ => some m
  | none, .ok ids => addAllMsg t d ids
  | none, .error _ => none

/-- the text of the error that a call returns -/
def errMsg (t : Table α) : Call α → Option Text
  | .get id => getMsg t id
  | .claim id _ => addMsg t id
  | .claimDynamic _ => claimDynamicMsg t
  | .claimRange start n d => claimRangeMsg t start n d
  | .claimSize n d => claimSizeMsg t n d
  | .release id => releaseMsg t id
  | .update id _ => updateMsg t id
  | .findFree => findFreeMsg t
  | .findFreeRange start n => findFreeRangeMsg t start n
  | .findFreeSize n => findFreeSizeMsg t n
  | _ => none

end Verif.IdxTable

namespace Verif.Ranged
open Verif.IdxTable (U64 Text num getMsg addMsg updateMsg releaseMsg findFreeMsg)
open Verif.Id (fmtUint)
open Verif.GTree (ascii)
variable {P : Width} {L : Type}

/-- table16.go:153 and table32.go:152; table64.go has no such check -/
def Width.limit (P : Width) : Text := num (P.maxCheck.getD 0)

/-- table16.go:156, 159 -/
def outText (r : RTable P L) (id : U64) : Text :=
  ascii "id " ++ num id ++ ascii ", does not fit in the range from " ++ fmtUint r.start.toNat ++ ascii " to " ++
    fmtUint r.stop.toNat

/-- table16.go:151-162 `validateID` -/
def validateIDMsg (r : RTable P L) (id : U64) : Option Text :=
  if exceeds P id then some (ascii "id " ++ num id ++ ascii ", cannot be bigger than " ++ P.limit)
  else if id.setWidth P.W < r.start then some (outText r id)
  else if id.setWidth P.W > r.stop then some (outText r id)
  else none

/-- table16.go:30-42 `Get` -/
def getTxt (r : RTable P L) (id : U64) : Option Text :=
  match validateIDMsg r id with
  | some m => some m
  | none => getMsg r.tab (calculateIndex (id.setWidth P.W) r.start)

/-- table16.go:44-57 `Claim` -/
def claimTxt (r : RTable P L) (id : U64) : Option Text :=
  match validateIDMsg r id with
  | some m => some m
  | none =>
    let newid := calculateIndex (id.setWidth P.W) r.start
    if !IdxTable.isFree r.tab newid then
      some (ascii "claim failed id " ++ fmtUint (calculateIDFromIndex r.start newid).toNat ++ ascii " already claimed")
    else addMsg r.tab newid

/-- table16.go:116-122 `FindFree` -/
def findFreeTxt (r : RTable P L) : Option Text := findFreeMsg r.tab

/-- table16.go:59-72 `ClaimFree` -/
def claimFreeTxt (r : RTable P L) : Option Text :=
  match findFreeTxt r, findFree r with
  | some m, _ => some m
  | none, .ok id => claimTxt r id
  | none, .error _ => none

/-- table16.go:74-81 `Release` -/
def releaseTxt (r : RTable P L) (id : U64) : Option Text :=
  match validateIDMsg r id with
  | some m => some m
  | none => releaseMsg r.tab (calculateIndex (id.setWidth P.W) r.start)

/-- table16.go:83-92 `Update` -/
def updateTxt (r : RTable P L) (id : U64) : Option Text :=
  match validateIDMsg r id with
  | some m => some m
  | none => updateMsg r.tab (calculateIndex (id.setWidth P.W) r.start)

end Verif.Ranged

namespace Verif.IPTable
open Verif.IdxTable (U64 Text getMsg addMsg updateMsg releaseMsg findFreeMsg)
open Verif.GTree (ascii)
variable {R : Type}

/-- the bytes of a string -/
def bytes (s : String) : Text := s.toUTF8.data.toList

/-- `netip.Addr.String` (not part of /repo): an arbitrary function -/
abbrev Show := Addr → Text

/-- iptable.go:152-162 `validateIP` -/
def validateIPMsg (parse : String → Option Addr) (sh : Show) (r : IPTab R) (addr : String) : Option Text :=
  match parse addr with
  | none => some (ascii "ip address " ++ bytes addr ++ ascii " is invalid")
  | some ip =>
    if r.ipRange.contains ip then none
    else some (ascii "ip address " ++ bytes addr ++ ascii ", does not fit in the range from " ++ sh r.ipRange.lo ++
      ascii " to " ++ sh r.ipRange.hi)

/-- the index of an address that `validateIP` accepts (iptable.go:51, 65, 78, 88) -/
def indexOf (parse : String → Option Addr) (r : IPTab R) (addr : String) : U64 :=
  calculateIndex ((parse addr).getD .zero) r.ipRange.lo

/-- iptable.go:44-57 `Get` -/
def getTxt (parse : String → Option Addr) (sh : Show) (r : IPTab R) (addr : String) : Option Text :=
  match validateIPMsg parse sh r addr with
  | some m => some m
  | none => getMsg r.tab (indexOf parse r addr)

/-- iptable.go:59-70 `Claim` -/
def claimTxt (parse : String → Option Addr) (sh : Show) (r : IPTab R) (addr : String) : Option Text :=
  match validateIPMsg parse sh r addr with
  | some m => some m
  | none =>
    if !IdxTable.isFree r.tab (indexOf parse r addr) then
      some (ascii "claim failed ip " ++ bytes addr ++ ascii " already claimed")
    else addMsg r.tab (indexOf parse r addr)

/-- iptable.go:72-80 `Release` -/
def releaseTxt (parse : String → Option Addr) (sh : Show) (r : IPTab R) (addr : String) : Option Text :=
  match validateIPMsg parse sh r addr with
  | some m => some m
  | none => releaseMsg r.tab (indexOf parse r addr)

/-- iptable.go:82-93 `Update` -/
def updateTxt (parse : String → Option Addr) (sh : Show) (r : IPTab R) (addr : String) : Option Text :=
  match validateIPMsg parse sh r addr with
  | some m => some m
  | none =>
    if IdxTable.isFree r.tab (indexOf parse r addr) then
      some (ascii "update failed ip " ++ bytes addr ++ ascii " not claimed")
    else updateMsg r.tab (indexOf parse r addr)

/-- iptable.go:119-127 `FindFree` -/
def findFreeTxt (r : IPTab R) : Option Text := findFreeMsg r.tab

end Verif.IPTable

namespace Verif.GTree
open Verif.Id
open Verif.Tree (Out)
variable {I : Impl} {L : Type} [Labels L]

/-- tree32.go:13-23 `New` -/
def newMsg (I : Impl) (length : Nat) : Option Text :=
  if length > I.P.W then
    some (ascii "cannot create a tree which bitlength > " ++ fmtUint I.P.W ++ ascii ", got: " ++ fmtUint length)
  else none

/-- tree32.go:251-259 `validate`; the second test never succeeds -/
def GTree.validateMsg (g : GTree I L) (id : MyId I.P) : Option Text :=
  if id.id > g.size then some (ascii "max id allowed is " ++ fmtUint g.size.toNat ++ ascii ", got " ++ fmtUint id.id.toNat)
  else none

/-- tree32.go:46-52 the loop of `Get` and the error after it; the id is printed with its length -/
def getLoopMsg {P : Pkg} (id : MyId P) : List (Option (Entry P L)) → Out (Option Text)
  | [] => .ok (some (ascii "entry {" ++ fmtUint id.id.toNat ++ ascii " " ++ fmtUint id.len ++ ascii "} not found"))
  | e :: es => do
    let e ← deref e
    if e.id = id then return none else getLoopMsg id es

/-- tree32.go:41-53 `Get` -/
def GTree.getMsg (g : GTree I L) (id : MyId I.P) : Out (Option Text) := do
  let es ← g.entries
  getLoopMsg id es

/-- tree32.go:66-75 `ClaimID`; `Update` and the first test of `ReleaseID` have the same text; neither has other errors -/
def GTree.claimIDMsg (g : GTree I L) (id : MyId I.P) : Option Text := g.validateMsg id

/-- tree32.go:117-138 `findFree`; `bt` is the text of the error of the set builder -/
def GTree.findFreeMsg (bt : Text) (g : GTree I L) : Out (Option Text) := do
  let root : MyId I.P := ⟨0, I.rootLen g.length⟩
  let b ← ofRes (Builder.empty.addId root)
  let ch ← g.children root
  let b ← removeAll ch b
  let (_, set, err) ← ofRes b.ipSet
  if err then return some bt
  else match ← ofRes (set.removeFreePrefix I.P.W) with
    | none => return some (ascii "no free id available")
    | some (a, _) => return g.validateMsg a

/-- tree32.go:77-92 `ClaimFree` -/
def GTree.claimFreeMsg (bt : Text) (g : GTree I L) : Out (Option Text) := do
  match ← g.findFreeMsg bt with
  | none => return none
  | some m => return some (ascii "no free ids available, err: " ++ m)

end Verif.GTree
