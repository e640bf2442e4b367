import Verif.IPTable.Model
import Verif.Ranged.Model
import Verif.GTree.Model

/-!
The tests of the repository and its demo program, as programs on the models. A test is true if none of its
assertions fails. Go ranges over the maps of a test case in an arbitrary order, which may differ from loop to loop;
the orders are parameters.
-/

namespace Verif.Tests
open Verif.IdxTable (U64 Table)
open Verif.Id

/-! ### pkg/idxtable/table_test.go -/

/-- table_test.go:10-30 `TestNewTable` -/
def idxNew (size : U64) (expected : Nat) : Bool :=
  IdxTable.sizeOf (IdxTable.newTable (α := String) size) == expected

/-- `for id, d := range entries { err := r.Claim(id, d); assert }`; `ok` is the expected success -/
def idxClaims (ok : Bool) : List (U64 × String) → Table String → Bool × Table String
  | [], t => (true, t)
  | (id, d) :: l, t =>
    let (t, r) := IdxTable.claim t id d
    let (b, t) := idxClaims ok l t
    (r.isOk == ok && b, t)

/-- table_test.go:32-80 `TestClaim` -/
def idxClaim (size : U64) (succ fail succ' fail' : List (U64 × String)) (expected : Nat) : Bool :=
  let (b, t) := idxClaims true succ (IdxTable.newTable size)
  let (b', t) := idxClaims false fail t
  b && b' && succ'.all (fun x => IdxTable.has t x.1) && fail'.all (fun x => !IdxTable.has t x.1) &&
    IdxTable.sizeOf t == expected

/-- table_test.go:114-121 the two loops calling `Release` -/
def idxReleases : List U64 → Table String → Bool × Table String
  | [], t => (true, t)
  | id :: l, t =>
    let (t, r) := IdxTable.release t id
    let (b, t) := idxReleases l t
    (r.isOk && b, t)

/-- table_test.go:83-150 `TestRelease` -/
def idxRelease (size : U64) (succ succ' : List (U64 × String)) (del del' : List U64) (expected : Nat) : Bool :=
  let (b, t) := idxClaims true succ (IdxTable.newTable size)
  let (b1, t) := idxReleases del t
  let (b2, t) := idxReleases del' t
  b && b1 && b2 &&
    succ'.all (fun x =>
      if del.contains x.1 then !(IdxTable.get t x.1).isOk && !IdxTable.has t x.1
      else (IdxTable.get t x.1).isOk && IdxTable.has t x.1) &&
    IdxTable.sizeOf t == expected

/-- table_test.go:152-189 `TestIterate`; `order` is the order of the map of the table -/
def idxIterate (size : U64) (succ : List (U64 × String)) (order : Table String → List U64) (keys : List U64) : Bool :=
  let (b, t) := idxClaims true succ (IdxTable.newTable size)
  b && (IdxTable.iterate (order t)).keys == keys

/-- table_test.go:191-253 `TestClaimRange`; the loop checks the ids from `start` up to `size` -/
def idxClaimRange (total : U64) (succ : List (U64 × String)) (start size : U64) (expected : Nat) (err : Bool) : Bool :=
  let (b, t) := idxClaims true succ (IdxTable.newTable total)
  let (t, r) := IdxTable.claimRange t start size "a"
  b && if err then !r.isOk else r.isOk &&
    ((List.range size.toNat).drop start.toNat).all (fun i => IdxTable.has t (BitVec.ofNat 64 i)) && IdxTable.sizeOf t == expected

/-- table_test.go:255-292 `TestClaimSize` -/
def idxClaimSize (size total : U64) (expected : Nat) (err : Bool) : Bool :=
  let (t, r) := IdxTable.claimSize (IdxTable.newTable size) total "a"
  if err then !r.isOk else r.isOk && IdxTable.sizeOf t == expected

/-! ### pkg/table/tableN/tableN_test.go -/

section
variable {P : Ranged.Width} {L : Type}

/-- table32_test.go:51-59 the two loops calling `Claim` -/
def tableClaims (ok : Bool) : List (U64 × L) → Ranged.RTable P L → Bool × Ranged.RTable P L
  | [], t => (true, t)
  | (id, l) :: es, t =>
    let (t, r) := Ranged.claim t id l
    let (b, t) := tableClaims ok es t
    (r.isOk == ok && b, t)

/-- table32_test.go:12-79 `TestClaim`; `Q` is the package of the ids, `s` the range -/
def tableClaim (P : Ranged.Width) (Q : Pkg) (h : Q.W = P.W) (s : List UInt8) (succ fail succ' fail' : List (U64 × L))
    (expected : Nat) : Bool :=
  match (parseRange s : Option (Rng Q)) with
  | none => false
  | some r =>
    let (b, t) := tableClaims true succ (Ranged.new (P := P) (r.lo.id.cast h) (r.hi.id.cast h))
    let (b', t) := tableClaims false fail t
    b && b' && succ'.all (fun x => Ranged.has t x.1) && fail'.all (fun x => !Ranged.has t x.1) &&
      Ranged.sizeOf t == expected && (Ranged.findFree t).isOk

end

/-! ### pkg/iptable/tptable_test.go -/

section
variable {R : Type} (parse : String → Option IPTable.Addr)

/-- tptable_test.go:40-48 the two loops calling `Claim` -/
def ipClaims (ok : Bool) : List (String × R) → IPTable.IPTab R → Bool × IPTable.IPTab R
  | [], t => (true, t)
  | (a, d) :: es, t =>
    let (t, r) := IPTable.claim parse t a d
    let (b, t) := ipClaims ok es t
    (r.isOk == ok && b, t)

/-- tptable_test.go:12-68 `TestClaim`; `lo`, `hi` are the ends of the range parsed by `netipx` -/
def ipClaim (lo hi : IPTable.Addr) (succ fail succ' fail' : List (String × R)) (expected : Nat) : Bool :=
  let (b, t) := ipClaims parse true succ (IPTable.new lo hi)
  let (b', t) := ipClaims parse false fail t
  b && b' && succ'.all (fun x => IPTable.has parse t x.1) && fail'.all (fun x => !IPTable.has parse t x.1) &&
    IPTable.sizeOf t == expected &&
    match IPTable.findFree t with
    | .addr _ => true
    | _ => false

end

/-! ### pkg/tree/treeN/treeN_test.go -/

section
open Verif.GTree
open Verif.Tree (Out)
variable {I : Impl} {L : Type} [Labels L]

/-- no error -/
def Ret.isOk {α : Type} : Ret α → Bool
  | .ok _ => true
  | .err => false

/-- tree16_test.go:35-45 the two loops calling `ClaimID` -/
def treeClaims (ok : Bool) : List (MyId I.P × L) → GTree I L → Out (Bool × GTree I L)
  | [], g => .ok (true, g)
  | (id, l) :: es, g => do
    let (r, g) ← g.claimID id l
    let (b, g) ← treeClaims ok es g
    return (Ret.isOk r == ok && b, g)

/-- tree16_test.go:47-58 the two loops calling `Get` -/
def treeGets (ok : Bool) (g : GTree I L) : List (MyId I.P × L) → Out Bool
  | [] => .ok true
  | (id, _) :: es => do
    let r ← g.get id
    let b ← treeGets ok g es
    return r.isSome == ok && b

/-- tree16_test.go:12-64 `TestClaim` -/
def treeClaim (I : Impl) (length : Nat) (succ fail succ' fail' : List (MyId I.P × L)) (expected : Nat) : Out Bool :=
  match new I L length with
  | none => .ok false
  | some g => do
    let (b, g) ← treeClaims true succ g
    let (b', g) ← treeClaims false fail g
    let b1 ← treeGets true g succ'
    let b2 ← treeGets false g fail'
    let es ← g.getAll
    return b && b' && b1 && b2 && es.length == expected

/-- tree16_test.go:83-90 -/
def treeRanges (l : L) : List (List UInt8) → GTree I L → Out (Bool × GTree I L)
  | [], g => .ok (true, g)
  | s :: ss, g =>
    match (parseRange s : Option (Rng I.P)) with
    | none => .ok (false, g)
    | some r =>
      match r.ids with
      | none => .panic "index out of range"
      | some ids => do
        let (b, g) ← treeClaims true (ids.map fun id => (id, l)) g
        let (b', g) ← treeRanges l ss g
        return (b && b', g)

/-- tree16_test.go:66-106 `TestRandomClaim`, tree32_test.go:66-106 `TestASClaim`; the last loop only prints -/
def treeRandom (I : Impl) (length : Nat) (l : L) (ranges : List (List UInt8)) (entries : List (MyId I.P)) : Out Bool :=
  match new I L length with
  | none => .ok false
  | some g => do
    let (b, g) ← treeRanges l ranges g
    let (b', g) ← treeClaims true (entries.map fun id => (id, l)) g
    let _ ← g.getAll
    return b && b'

/-- the test ends without a panic and no assertion fails -/
def passes : Out Bool → Bool
  | .ok b => b
  | _ => false

/-! ### test/main.go -/

/-- a line printed by the demo program -/
inductive Line (L : Type)
  /-- main.go:151 -/
  | lastID (i : MyId id16)
  /-- main.go:162 -/
  | claimed (n : Nat)
  /-- main.go:174 -/
  | got16 (e : Entry id16 L)
  /-- main.go:189 -/
  | got32 (e : Entry id32 L)
  /-- main.go:186 -/
  | claimFailed (n : Nat)
  /-- main.go:223 and 225 the error of `Get`, of `ClaimID` -/
  | err
  /-- main.go:232 -/
  | parents (es : List (Entry id16 L))

variable (lab : Nat → L)

/-- main.go:158-163 `n` rounds from `id` on -/
def demoClaims : Nat → Nat → GTree tree16 L → Out (List (Line L))
  | 0, _, _ => .ok []
  | n + 1, id, g => do
    let (r, g) ← g.claimID ⟨BitVec.ofNat 16 id, 16⟩ (lab id)
    match r with
    | .err => .panic "main"
    | .ok _ => do
      let out ← demoClaims n (id + 1) g
      return .claimed id :: out

/-- main.go:169-175 -/
def demoFree16 : Nat → Nat → GTree tree16 L → Out (List (Line L))
  | 0, _, _ => .ok []
  | n + 1, id, g => do
    let (r, g) ← g.claimFree (lab id)
    match r with
    | .err => .panic "main"
    | .ok e => do
      let out ← demoFree16 n (id + 1) g
      return .got16 e :: out

/-- main.go:183-190 -/
def demoFree32 : Nat → Nat → GTree tree32 L → Out (List (Line L) × GTree tree32 L)
  | 0, _, g => .ok ([], g)
  | n + 1, id, g => do
    let (r, g) ← g.claimFree (lab id)
    let (out, g) ← demoFree32 n (id + 1) g
    match r with
    | .err => return (.claimFailed id :: out, g)
    | .ok e => return (.got32 e :: out, g)

/-- main.go:219-236 `handleId`; `nil` stands for the nil labels -/
def handleId (nil : L) (g : GTree tree16 L) (id : BitVec 16) : Out (List (Line L) × GTree tree16 L) := do
  match ← g.get ⟨id, 16⟩ with
  | some _ => .panic "main"
  | none => do
    let (r, g) ← g.claimID ⟨id, 16⟩ nil
    let e : List (Line L) := match r with
      | .err => [.err]
      | .ok _ => []
    match ← g.get ⟨id, 16⟩ with
    | none => .panic "main"
    | some _ => do
      let ps ← g.parents ⟨id, 16⟩
      return (.err :: e ++ [.parents ps], g)

/-- the table returned by `New`, or the panic of main -/
def must {α : Type} : Option α → Out α
  | some a => .ok a
  | none => .panic "main"

/-- main.go:29-217 `main`: the lines printed. `lab i` are the labels `id: i`, `rng` the labels `range: test`, `sel` the
selector of main.go:192-202 (its construction does not fail), `s` the text of the range. The result of `ClaimRange` is not
looked at. -/
def demo (rng nil : L) (sel : L → Bool) (s : List UInt8) : Out (List (Line L)) := do
  let vt ← must (new tree16 L 12)
  let o1 ← demoClaims lab 4096 0 vt
  let vt ← must (new tree16 L 12)
  let o2 ← demoFree16 lab 4096 0 vt
  let vt ← must (new tree32 L 12)
  let (o3, vt) ← demoFree32 lab 4096 0 vt
  let _ ← vt.releaseByLabel sel
  let vt ← must (new tree16 L 12)
  let (_, vt) ← vt.claimRange s rng
  let (o4, vt) ← handleId nil vt 1000
  let (o5, _) ← handleId nil vt 100
  return .lastID (lastID ⟨0, 16 - 12⟩) :: o1 ++ o2 ++ o3 ++ o4 ++ o5

end

end Verif.Tests
