import Verif.IdxTable.Model

/-!
Model of `pkg/iptable/iptable.go`.

External code that is modelled from its documentation (not part of /repo):
* `net/netip.Addr`: `Addr` below, with `BitLen`, `As16`, `Compare`, `WithZone("")`, `AddrFrom16`,
  `As4`, `AddrFrom4`;
* `netip.ParseAddr`: an arbitrary function `parse : String → Option Addr`, a parameter of every
  theorem, so nothing is assumed about the text syntax;
* `netipx.IPRangeFrom`, `IPRange.IsValid`, `IPRange.Contains`;
* `math/big`: integers are `Nat`/`Int`, `Uint64()`/`Int64()` keep the low 64 bits.

Simplifications: a `table.Route` is a value of an arbitrary type `R`, a selector an arbitrary
predicate on `R`; sequential calls only.
-/

namespace Verif.IPTable
open Verif.IdxTable

/-- `netip.Addr`: the zero value, an IPv4 address, an IPv6 address with a zone (`""`: none) -/
inductive Addr
  | zero
  | v4 (a : BitVec 32)
  | v6 (a : BitVec 128) (zone : String)
deriving DecidableEq, Repr

/-- `Addr.BitLen` -/
def Addr.bitLen : Addr → Nat
  | .zero => 0
  | .v4 _ => 32
  | .v6 _ _ => 128

/-- `Addr.IsValid` -/
def Addr.isValid : Addr → Bool
  | .zero => false
  | _ => true

/-- `Addr.Is4` -/
def Addr.is4 : Addr → Bool
  | .v4 _ => true
  | _ => false

/-- `Addr.Zone` -/
def Addr.zone : Addr → String
  | .v6 _ z => z
  | _ => ""

/-- `Addr.WithZone("")` -/
def Addr.noZone : Addr → Addr
  | .v6 a _ => .v6 a ""
  | a => a

/-- `Addr.As16`: IPv4 addresses are mapped to `::ffff:a.b.c.d` -/
def Addr.as16 : Addr → BitVec 128
  | .zero => 0
  | .v4 a => 0xffff00000000 + a.setWidth 128
  | .v6 a _ => a

/-- iptable.go:178-184 `ipToInt` -/
def ipToInt (ip : Addr) : Nat := ip.as16.toNat

/-- `Addr.Compare`: by bit length, then by value, then (IPv6) by zone -/
def Addr.compare (a b : Addr) : Ordering :=
  if a.bitLen < b.bitLen then .lt
  else if a.bitLen > b.bitLen then .gt
  else if a.as16.toNat < b.as16.toNat then .lt
  else if a.as16.toNat > b.as16.toNat then .gt
  else if a.zone < b.zone then .lt
  else if b.zone < a.zone then .gt
  else .eq

/-- `netipx.IPRange` -/
structure IPRange where
  lo : Addr
  hi : Addr

/-- `netipx.IPRangeFrom` -/
def ipRangeFrom (lo hi : Addr) : IPRange := ⟨lo.noZone, hi.noZone⟩

/-- `netipx.IPRange.IsValid` -/
def IPRange.isValid (r : IPRange) : Bool :=
  r.lo.isValid && r.lo.bitLen == r.hi.bitLen && r.lo.zone == r.hi.zone &&
    !(r.hi.compare r.lo == .lt)

/-- `netipx.IPRange.Contains` -/
def IPRange.contains (r : IPRange) (a : Addr) : Bool :=
  r.isValid && a.zone == "" && !(a.compare r.lo == .lt) && !(r.hi.compare a == .lt)

/-- the failures of the IP table: iptable.go:156, 159, 67, 90, or those of the index table -/
inductive IErr
  | invalid | outOfRange | claimed | notClaimed | idx (e : Err)
deriving DecidableEq, Repr

/-- iptable.go:39-42 `ipTable` -/
structure IPTab (R : Type) where
  tab : Table R
  ipRange : IPRange

variable {R : Type}

/-- `big.Int.Uint64` of `ip - start` as in iptable.go:164-167 `calculateIndex`: the low 64 bits of
the absolute value -/
def calculateIndex (ip start : Addr) : U64 :=
  BitVec.ofNat 64 ((ipToInt ip : Int) - (ipToInt start : Int)).natAbs

/-- iptable.go:169-176 `numIPs` followed by the conversion `uint64(...)` of line 33:
`big.Int.Int64` is the low 64 bits of the absolute value, negated for negative numbers; the
addition wraps -/
def numIPs (start stop : Addr) : U64 :=
  let diff : Int := (ipToInt stop : Int) - (ipToInt start : Int)
  let low : U64 := BitVec.ofNat 64 diff.natAbs
  (if diff < 0 then -low else low) + 1

/-- iptable.go:30-37 `New` -/
def new (lo hi : Addr) : IPTab R := ⟨newTable (numIPs lo hi), ipRangeFrom lo hi⟩

/-- iptable.go:186-206 `calculateIPFromIndex`. `Bytes()` has at most 17 bytes; with 17, `copy`
keeps the first 16, i.e. drops the lowest byte. `As4` panics (`none`) unless the address is
IPv4-mapped. -/
def calculateIPFromIndex (start : Addr) (id : U64) : Option Addr :=
  let sum := ipToInt start + id.toNat
  let ip16 : BitVec 128 := if sum < 2 ^ 128 then BitVec.ofNat 128 sum else BitVec.ofNat 128 (sum / 256)
  if start.is4 then
    if ip16.toNat / 2 ^ 32 = 0xffff then some (.v4 (ip16.setWidth 32)) else none
  else some (.v6 ip16 "")

/-- iptable.go:152-162 `validateIP` -/
def validateIP (parse : String → Option Addr) (r : IPTab R) (addr : String) : Except IErr Addr :=
  match parse addr with
  | none => .error .invalid
  | some ip => if r.ipRange.contains ip then .ok ip else .error .outOfRange

/-- pass on the result of an index table call -/
def lift (r : IPTab R) (p : Table R × Except Err Unit) : IPTab R × Except IErr Unit :=
  ({ r with tab := p.1 }, match p.2 with | .ok () => .ok () | .error e => .error (.idx e))

/-- iptable.go:44-57 `Get` -/
def get (parse : String → Option Addr) (r : IPTab R) (addr : String) : Except IErr R :=
  match validateIP parse r addr with
  | .error e => .error e
  | .ok ip =>
    match IdxTable.get r.tab (calculateIndex ip r.ipRange.lo) with
    | .error e => .error (.idx e)
    | .ok e => .ok e.data

/-- iptable.go:59-70 `Claim` -/
def claim (parse : String → Option Addr) (r : IPTab R) (addr : String) (d : R) :
    IPTab R × Except IErr Unit :=
  match validateIP parse r addr with
  | .error e => (r, .error e)
  | .ok ip =>
    let id := calculateIndex ip r.ipRange.lo
    if !IdxTable.isFree r.tab id then (r, .error .claimed)
    else lift r (IdxTable.claim r.tab id d)

/-- iptable.go:72-80 `Release` -/
def release (parse : String → Option Addr) (r : IPTab R) (addr : String) :
    IPTab R × Except IErr Unit :=
  match validateIP parse r addr with
  | .error e => (r, .error e)
  | .ok ip => lift r (IdxTable.release r.tab (calculateIndex ip r.ipRange.lo))

/-- iptable.go:82-93 `Update` -/
def update (parse : String → Option Addr) (r : IPTab R) (addr : String) (d : R) :
    IPTab R × Except IErr Unit :=
  match validateIP parse r addr with
  | .error e => (r, .error e)
  | .ok ip =>
    let id := calculateIndex ip r.ipRange.lo
    if IdxTable.isFree r.tab id then (r, .error .notClaimed)
    else lift r (IdxTable.update r.tab id d)

/-- iptable.go:95-97 `Size` -/
def sizeOf (r : IPTab R) : Nat := IdxTable.sizeOf r.tab

/-- iptable.go:99-107 `Has` -/
def has (parse : String → Option Addr) (r : IPTab R) (addr : String) : Bool :=
  match validateIP parse r addr with
  | .error _ => false
  | .ok ip => IdxTable.has r.tab (calculateIndex ip r.ipRange.lo)

/-- iptable.go:109-117 `IsFree` -/
def isFree (parse : String → Option Addr) (r : IPTab R) (addr : String) : Bool :=
  match validateIP parse r addr with
  | .error _ => false
  | .ok ip => IdxTable.isFree r.tab (calculateIndex ip r.ipRange.lo)

/-- results of `FindFree`: `panic` is the panic of `As4` -/
inductive Found
  | addr (a : Addr)
  | err (e : IErr)
  | panic
deriving DecidableEq, Repr

/-- iptable.go:119-127 `FindFree` -/
def findFree (r : IPTab R) : Found :=
  match IdxTable.findFree r.tab with
  | .error e => .err (.idx e)
  | .ok id =>
    match calculateIPFromIndex r.ipRange.lo id with
    | some a => .addr a
    | none => .panic

/-- iptable.go:131-133 the loop of `GetAll`; `none`: nil pointer panic -/
def getAllLoop : List (Option (Entry R)) → Option (List R)
  | [] => some []
  | none :: _ => none
  | some e :: es => (getAllLoop es).map (e.data :: ·)

/-- iptable.go:129-135 `GetAll` -/
def getAll (r : IPTab R) : Option (List R) := getAllLoop (IdxTable.getAll r.tab)

/-- iptable.go:142-147 the loop of `GetByLabel` over the values of the iterator -/
def getByLabelLoop (sel : R → Bool) : List (Option (Entry R)) → Option (List R)
  | [] => some []
  | none :: _ => none
  | some e :: es =>
    if sel e.data then (getByLabelLoop sel es).map (e.data :: ·) else getByLabelLoop sel es

/-- iptable.go:137-150 `GetByLabel` -/
def getByLabel (r : IPTab R) (sel : R → Bool) : Option (List R) :=
  getByLabelLoop sel (IdxTable.getAll r.tab)

end Verif.IPTable
