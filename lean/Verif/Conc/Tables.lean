import Verif.Conc.Sim
import Verif.Conc.Model
import Verif.Ranged.Api
import Verif.IPTable.Api

/-!
The ranged tables and the IP table as concurrent programs: they have no lock of their own, and call
the index table one or more times. Citations: table16.go (table32.go, table64.go have the same
text up to the width), iptable.go.

* Between any two calls of the index table every other goroutine may run.
* `iter.Value()` reads the map of the index table without its lock (iterator.go:9-11): a `peek`.
* `start`, `end` and the IP range are constants, so the checks of the id are computed here
  with the model of the sequential package.
* The last branch of each `match` on a reply is not reached: the index table answers a call with its
  own kind of reply.
-/

namespace Verif.Conc
open Verif.IdxTable (U64 Table Entry Call Reply)

section Ranged
open Verif.Ranged
variable {P : Width} {L : Type}

/-- programs on the index table below a ranged table -/
abbrev RClient (L : Type) := Client (Call (TEntry L)) (Reply (TEntry L)) (Table (TEntry L)) (RReply L)

/-- table16.go:44-57 `Claim`, continued with `k true` after success -/
def rclaimC (r : RTable P L) (id : U64) (l : L) (k : Bool → RClient L) : RClient L :=
  match validateID r id with
  | .error _ => k false
  | .ok () =>
    let newid := calculateIndex (id.setWidth P.W) r.start
    .call (.isFree newid) fun
      | .bool true => .call (.claim newid (storedEntry P newid l)) fun
        | .ok => k true
        | _ => k false
      | _ => k false

/-- table16.go:116-122 `FindFree`, continued -/
def rfindFreeC (r : RTable P L) (k : Option U64 → RClient L) : RClient L :=
  .call .findFree fun
    | .id i => k (some ((calculateIDFromIndex r.start i).setWidth 64))
    | _ => k none

/-- table16.go:140-147 the loop of `GetByLabel`: each value is read without a lock; a key that has been
released since the iterator was made has a nil value -/
def rbyLabelC (r : RTable P L) (sel : L → Bool) : List U64 → List (TEntry L) → RClient L
  | [], acc => .ret (.entries acc)
  | k :: ks, acc => .peek fun t =>
    match t.m.get? k with
    | none => .ret .panic
    | some e =>
      if sel e.data.labels then rbyLabelC r sel ks (acc ++ [outEntry r e.data.id e.data.labels])
      else rbyLabelC r sel ks acc

/-- the calls of `table.Table` (pkg/table/table.go:8-20); of `r` only the constants are used -/
def rcode (r : RTable P L) : RCall L → RClient L
  -- table16.go:30-42
  | .get id =>
    match validateID r id with
    | .error _ => .ret .err
    | .ok () => .call (.get (calculateIndex (id.setWidth P.W) r.start)) fun
      | .entry e => .ret (.labels e.data.labels)
      | _ => .ret .err
  | .claim id l => rclaimC r id l fun b => .ret (if b then .ok else .err)
  -- table16.go:59-72
  | .claimFree l => rfindFreeC r fun
    | none => .ret .err
    | some id => rclaimC r id l fun b => .ret (if b then .entry (storedEntry P id l) else .err)
  -- table16.go:74-81
  | .release id =>
    match validateID r id with
    | .error _ => .ret .err
    | .ok () => .call (.release (calculateIndex (id.setWidth P.W) r.start)) fun
      | .ok => .ret .ok
      | _ => .ret .err
  -- table16.go:83-92
  | .update id l =>
    match validateID r id with
    | .error _ => .ret .err
    | .ok () =>
      let newid := calculateIndex (id.setWidth P.W) r.start
      .call (.update newid (storedEntry P newid l)) fun
        | .ok => .ret .ok
        | _ => .ret .err
  -- table16.go:94-96
  | .size => .call .size fun
    | .nat n => .ret (.nat n)
    | _ => .ret .err
  -- table16.go:98-105
  | .has id =>
    match validateID r id with
    | .error _ => .ret (.bool false)
    | .ok () => .call (.has (calculateIndex (id.setWidth P.W) r.start)) fun
      | .bool b => .ret (.bool b)
      | _ => .ret .err
  -- table16.go:107-114
  | .isFree id =>
    match validateID r id with
    | .error _ => .ret (.bool false)
    | .ok () => .call (.isFree (calculateIndex (id.setWidth P.W) r.start)) fun
      | .bool b => .ret (.bool b)
      | _ => .ret .err
  | .findFree => rfindFreeC r fun
    | none => .ret .err
    | some id => .ret (.id id)
  -- table16.go:124-133
  | .getAll => .call .size fun _ => .call .getAll fun
    | .entries es => .ret (replyEntries (getAllLoop r es))
    | _ => .ret .err
  -- table16.go:135-149
  | .getByLabel sel => .call .size fun _ => .call .iterate fun
    | .ids ks => rbyLabelC r sel ks []
    | _ => .ret .err

/-- the calls of a ranged table as programs -/
def rprog (start stop : BitVec P.W) (c : RCall L) : Prog (Table (TEntry L)) (RReply L) :=
  (rcode (new start stop : RTable P L) c).compile codeOf

end Ranged

section IP
open Verif.IPTable
variable {R : Type}

/-- programs on the index table below an IP table -/
abbrev IClient (R : Type) := Client (Call R) (Reply R) (Table R) (IReply R)

/-- iptable.go:142-147 the loop of `GetByLabel`: each value is read without a lock, selected ones are read
again -/
def ibyLabelC (sel : R → Bool) : List U64 → List R → IClient R
  | [], acc => .ret (.routes acc)
  | k :: ks, acc => .peek fun t =>
    match t.m.get? k with
    | none => .ret .panic
    | some e =>
      if sel e.data then .peek fun t =>
        match t.m.get? k with
        | none => .ret .panic
        | some e => ibyLabelC sel ks (acc ++ [e.data])
      else ibyLabelC sel ks acc

/-- the calls of `IPTable` (iptable.go:14-28); of `r` only the range is used -/
def icode (parse : String → Option Addr) (r : IPTab R) : ICall R → IClient R
  -- iptable.go:44-57
  | .get x =>
    match validateIP parse r x with
    | .error _ => .ret .err
    | .ok ip => .call (.get (calculateIndex ip r.ipRange.lo)) fun
      | .entry e => .ret (.route e.data)
      | _ => .ret .err
  -- iptable.go:59-70
  | .claim x d =>
    match validateIP parse r x with
    | .error _ => .ret .err
    | .ok ip =>
      let id := calculateIndex ip r.ipRange.lo
      .call (.isFree id) fun
        | .bool true => .call (.claim id d) fun
          | .ok => .ret .ok
          | _ => .ret .err
        | _ => .ret .err
  -- iptable.go:72-80
  | .release x =>
    match validateIP parse r x with
    | .error _ => .ret .err
    | .ok ip => .call (.release (calculateIndex ip r.ipRange.lo)) fun
      | .ok => .ret .ok
      | _ => .ret .err
  -- iptable.go:82-93
  | .update x d =>
    match validateIP parse r x with
    | .error _ => .ret .err
    | .ok ip =>
      let id := calculateIndex ip r.ipRange.lo
      .call (.isFree id) fun
        | .bool false => .call (.update id d) fun
          | .ok => .ret .ok
          | _ => .ret .err
        | _ => .ret .err
  -- iptable.go:95-97
  | .size => .call .size fun
    | .nat n => .ret (.nat n)
    | _ => .ret .err
  -- iptable.go:99-107
  | .has x =>
    match validateIP parse r x with
    | .error _ => .ret (.bool false)
    | .ok ip => .call (.has (calculateIndex ip r.ipRange.lo)) fun
      | .bool b => .ret (.bool b)
      | _ => .ret .err
  -- iptable.go:109-117
  | .isFree x =>
    match validateIP parse r x with
    | .error _ => .ret (.bool false)
    | .ok ip => .call (.isFree (calculateIndex ip r.ipRange.lo)) fun
      | .bool b => .ret (.bool b)
      | _ => .ret .err
  -- iptable.go:119-127
  | .findFree => .call .findFree fun
    | .id i =>
      match calculateIPFromIndex r.ipRange.lo i with
      | some a => .ret (.addr a)
      | none => .ret .panic
    | _ => .ret .err
  -- iptable.go:129-135
  | .getAll => .call .getAll fun
    | .entries es => .ret (replyRoutes (getAllLoop es))
    | _ => .ret .err
  -- iptable.go:137-150
  | .getByLabel sel => .call .iterate fun
    | .ids ks => ibyLabelC sel ks []
    | _ => .ret .err

/-- the calls of an IP table as programs -/
def iprog (parse : String → Option Addr) (lo hi : Addr) (c : ICall R) : Prog (Table R) (IReply R) :=
  (icode parse (new lo hi : IPTab R) c).compile codeOf

end IP
end Verif.Conc
