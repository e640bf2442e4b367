import Verif.GoMap
import Verif.Id.Model

/-!
Model of pkg/tree (tree.go, tree_manual.go, node.go): a path compressed binary tree in an array.

* A tree is used with the ids of one package (`P`, of width `P.W`), as `tree16`, `tree32` and
  `tree64` do: `newTree P` is `NewTree(name, id<W>.IsLeftBitSet, id<W>.IDBitSize)`. The name (used
  in one panic message) is left out.
* `uint` node indexes are naturals (a slice cannot have more than `2^63` elements). `uint8` lengths
  are naturals below 256 with explicit reduction.
* Pointers into `nodes` (`root`, `parent`, `node`, `newNode`, ...) are node indexes. This is right
  as long as no `append` moves the array while pointers are held; `newNode`, which is only called
  then, yields the outcome `realloc` if the `append` would exceed the capacity. `C46` shows that this
  never happens. The capacity is modelled exactly, including its growth in `add`.
* `treeNode` values are never shared other than through the array.
* Map reads of a missing key give the zero value of `T`, `default`.
* `PrintNodes` and `PrintValues` (debug output) are in `GTree/DumpModel.lean`.
-/

namespace Verif.Tree
open Verif.Id

/-- a result, a panic, or one of two situations the model does not follow further (shown not to
occur): the node array is moved while pointers into it are held; a loop does not end within the
number of rounds the model allows it -/
inductive Out (α : Type)
  | ok (a : α)
  | panic (msg : String)
  | realloc
  | diverge

def Out.bind {α β : Type} : Out α → (α → Out β) → Out β
  | .ok a, f => f a
  | .panic m, _ => .panic m
  | .realloc, _ => .realloc
  | .diverge, _ => .diverge

instance : Monad Out where
  pure := .ok
  bind := Out.bind

/-- node.go:3-9 `treeNode` -/
structure Node where
  left : Nat
  right : Nat
  id : BitVec 64
  len : Nat
  cnt : Nat
deriving DecidableEq, Inhabited

/-- tree.go:41-48 `Tree`; `leftFn` is the width of the package whose `IsLeftBitSet` is used, `none`
for a nil function -/
structure Tree (T : Type) where
  leftFn : Option Nat
  length : Nat
  nodes : List Node
  cap : Nat
  avail : List Nat
  vals : GoMap (BitVec 64) T

variable {T : Type} [Inhabited T] {P : Pkg}

/-- tree.go:52-62 `NewTree` with the arguments of package `P` -/
def newTree (P : Pkg) : Tree T := ⟨some P.W, P.W, [default, default], 2, [], .empty⟩

/-- tree.go:66-79 `Clone`: `name`, `isLeftBitSetFn` and `length` are not set -/
def Tree.clone (t : Tree T) : Tree T := ⟨none, 0, t.nodes, t.cap, t.avail, t.vals⟩

/-- `r.nodes[i]` -/
def Tree.node (t : Tree T) (i : Nat) : Out Node :=
  match t.nodes[i]? with
  | some n => .ok n
  | none => .panic "index out of range"

/-- an assignment through a pointer to node `i` -/
def Tree.upd (t : Tree T) (i : Nat) (f : Node → Node) : Tree T :=
  { t with nodes := t.nodes.modify i f }

/-- `uint64(nodeIndex) << uint64(r.length)` -/
def Tree.key (t : Tree T) (i : Nat) : BitVec 64 := BitVec.ofNat 64 i <<< t.length

/-- `vals[key]` -/
def getV (vals : GoMap (BitVec 64) T) (k : BitVec 64) : T := (vals.get? k).getD default

/-- id32.go:14-16 `IsLeftBitSet` of the package of width `W` -/
def isLeftBitSet (W : Nat) (id : BitVec 64) : Bool := decide (((1 : BitVec W) <<< (W - 1)) ≤ id.setWidth W)

/-- id32.go:54-56 `IsLeftBitSet` of an id -/
def leftBit (i : MyId P) : Bool := decide (((1 : BitVec P.W) <<< (P.W - 1)) ≤ i.id)

/-- `uint8` subtraction -/
def sub8 (a b : Nat) : Nat := (a + 256 - b) % 256

/-- id32.go:47-51 `ShiftLeft` -/
def shiftLeft (i : MyId P) (n : Nat) : MyId P := ⟨i.id <<< n, sub8 i.len n⟩

/-- id32.go:62-64 `Matches` -/
def matchesId (i : MyId P) (id : BitVec 64) : Nat := leadingZeros (id.setWidth P.W ^^^ i.id) % 256

/-- node.go:12-25 `MatchCount` -/
def matchCount (n : Node) (i : MyId P) : Nat :=
  let length := if i.len > n.len then n.len else i.len
  let m := matchesId i n.id
  if m > length then length else m

/-- node.go:28-31 `ShiftLength` -/
def shiftLength (k : Nat) (n : Node) : Node := { n with id := n.id <<< k, len := sub8 n.len k }

/-- tree_manual.go:7-22 `initBuildLeftMasks`: entry `i` of the table for width `W` -/
def leftMask (W : Nat) : Nat → BitVec W
  | 0 => 0
  | i + 1 => leftMask W i ||| ((1 : BitVec W) <<< (W - (i + 1)))

/-- tree_manual.go:75-85 `MergeID16`, `MergeID32`, `MergeID64`; the tables have `W + 1` entries -/
def mergeID (W : Nat) (left : BitVec W) (ll : Nat) (right : BitVec W) (rl : Nat) :
    Out (BitVec W × Nat) :=
  if W < ll then .panic "index out of range"
  else if W < rl then .panic "index out of range"
  else .ok ((left &&& leftMask W ll) ||| ((right &&& leftMask W rl) >>> ll), (ll + rl) % 256)

/-- node.go:34-48 `MergeFromNodes`: the new prefix and length -/
def mergeFromNodes (left right : Node) (idLength : Nat) : Out (BitVec 64 × Nat) :=
  if idLength = 16 ∨ idLength = 32 ∨ idLength = 64 then do
    let (id, l) ← mergeID idLength (left.id.setWidth idLength) left.len
      (right.id.setWidth idLength) right.len
    return (id.setWidth 64, l)
  else .panic "unsupported id length"

/-- tree.go:88-98 the search loop of `addVal`: the first of the values with numbers `i`, `i+1`, ...
(`n` of them) that matches -/
def findMatch (vals : GoMap (BitVec 64) T) (key : BitVec 64) (m : T → T → Bool) (val : T) : Nat → Nat → Option Nat
  | 0, _ => none
  | n + 1, i =>
    if m (getV vals (key + BitVec.ofNat 64 i)) val then some i else findMatch vals key m val n (i + 1)

/-- tree.go:85-102 `addVal` -/
def Tree.addVal (t : Tree T) (val : T) (i : Nat) (m : Option (T → T → Bool)) (u : Option (T → T)) :
    Out (Bool × Tree T) := do
  let key := t.key i
  let n ← t.node i
  let found := match m with
    | none => none
    | some m => findMatch t.vals key m val n.cnt 0
  match found with
  | some j =>
    let k := key + BitVec.ofNat 64 j
    match u with
    | some u => return (false, { t with vals := t.vals.set k (u (getV t.vals k)) })
    | none => return (false, t)
  | none =>
    let t : Tree T := { t with vals := t.vals.set (key + BitVec.ofNat 64 n.cnt) val }
    return (true, t.upd i (fun n => { n with cnt := n.cnt + 1 }))

/-- tree.go:108-111 the loop of `moveTags` -/
def moveLoop (fromKey toKey : BitVec 64) : Nat → Nat → GoMap (BitVec 64) T → GoMap (BitVec 64) T
  | 0, _, vals => vals
  | n + 1, i, vals =>
    let fk := fromKey + BitVec.ofNat 64 i
    moveLoop fromKey toKey n (i + 1) ((vals.set (toKey + BitVec.ofNat 64 i) (getV vals fk)).del fk)

/-- tree.go:104-114 `moveTags` -/
def Tree.moveTags (t : Tree T) (fromI toI : Nat) : Out (Tree T) := do
  let f ← t.node fromI
  let t : Tree T := { t with vals := moveLoop (t.key fromI) (t.key toI) f.cnt 0 t.vals }
  let t := t.upd toI (fun n => { n with cnt := n.cnt + f.cnt })
  return t.upd fromI (fun n => { n with cnt := 0 })

/-- tree.go:118-134 `valsForNode(nil, i, nil)` -/
def Tree.valsForNode (t : Tree T) (i : Nat) : Out (List T) :=
  if i = 0 then return []
  else do
    let n ← t.node i
    return (List.range n.cnt).map (fun j => getV t.vals (t.key i + BitVec.ofNat 64 j))

/-- tree.go:148-151 the deletion loop of `deleteVal` -/
def delLoop (key : BitVec 64) : Nat → Nat → GoMap (BitVec 64) T → GoMap (BitVec 64) T
  | 0, _, vals => vals
  | n + 1, i, vals => delLoop key n (i + 1) (vals.del (key + BitVec.ofNat 64 i))

/-- tree.go:154-164 the loop of `deleteVal` that puts values back -/
def putBack (i : Nat) (m : T → T → Bool) (v : T) : List T → Tree T → Nat → Nat → Out (Tree T × Nat × Nat)
  | [], t, d, k => return (t, d, k)
  | tag :: buf, t, d, k =>
    if m tag v then putBack i m v buf t (d + 1) k
    else do
      let (_, t) ← t.addVal tag i (some m) none
      putBack i m v buf t d (k + 1)

/-- tree.go:138-166 `deleteVal` -/
def Tree.deleteVal (t : Tree T) (i : Nat) (v : T) (m : T → T → Bool) : Out (Tree T × Nat × Nat) := do
  let buf ← t.valsForNode i
  if buf.length = 0 then return (t, 0, 0)
  else
    let n ← t.node i
    let t : Tree T := { t with vals := delLoop (t.key i) n.cnt 0 t.vals }
    let t := t.upd i (fun n => { n with cnt := 0 })
    putBack i m v buf t 0 0

/-- tree_manual.go:25-36 `newNode` -/
def Tree.newNode (t : Tree T) (id : BitVec 64) (len : Nat) : Out (Nat × Tree T) :=
  match t.avail.getLast? with
  | some i =>
    let t : Tree T := { t with avail := t.avail.dropLast }
    if i < t.nodes.length then return (i, t.upd i (fun _ => ⟨0, 0, id, len, 0⟩))
    else .panic "index out of range"
  | none =>
    if t.nodes.length < t.cap then
      return (t.nodes.length, { t with nodes := t.nodes ++ [⟨0, 0, id, len, 0⟩] })
    else .realloc

/-- `id.ID()` -/
def MyId.val64 (i : MyId P) : BitVec 64 := i.id.setWidth 64

/-- `r.isLeftBitSetFn(id)` -/
def Tree.isLeft (t : Tree T) (id : BitVec 64) : Out Bool :=
  match t.leftFn with
  | some W => return isLeftBitSet W id
  | none => .panic "nil function"

/-- `r.nodes[i].ValCount` after `addVal` -/
def Tree.count (t : Tree T) (b : Bool) (i : Nat) : Out (Bool × Nat × Tree T) := do
  let n ← t.node i
  return (b, n.cnt, t)

/-- tree.go:263-270, 332-339 replace the child `i` of `parent` by `j` -/
def Tree.relink (t : Tree T) (parent i j : Nat) (msg : String) : Out (Tree T) := do
  let p ← t.node parent
  if p.left = i then return t.upd parent (fun n => { n with left := j })
  else if p.right ≠ i then .panic msg
  else return t.upd parent (fun n => { n with right := j })

/-- a new node for `id` holding `val` (`newNode` and `addVal`, used five times in `add`) -/
def Tree.newLeaf (t : Tree T) (id : MyId P) (val : T) (m : Option (T → T → Bool)) (u : Option (T → T)) :
    Out (Nat × Bool × Tree T) := do
  let (j, t) ← t.newNode (MyId.val64 id) id.len
  let (b, t) ← t.addVal val j m u
  return (j, b, t)

/-- tree.go:224-342 the loop of `add` -/
def addLoop (val : T) (m : Option (T → T → Bool)) (u : Option (T → T)) :
    Nat → Tree T → Nat → Nat → MyId P → Out (Bool × Nat × Tree T)
  | 0, _, _, _, _ => .diverge
  | fuel + 1, t, parent, i, id =>
    if i = 0 then .panic "Trying to traverse nodeIndex=0"
    else do
      let node ← t.node i
      if node.len = 0 then .panic "Reached a node with no id"
      else
      let mc := matchCount node id
      if mc = 0 then .panic "Should not have traversed to a node with no prefix match"
      else if mc = id.len then
        if mc = node.len then
          -- the whole prefix matched
          let (b, t) ← t.addVal val i m u
          t.count b i
        else
          -- new intermediate parent
          let (j, b, t) ← t.newLeaf id val m u
          let t := t.upd i (shiftLength mc)
          let node ← t.node i
          let l ← t.isLeft node.id
          let t := if !l then t.upd j (fun n => { n with left := i })
            else t.upd j (fun n => { n with right := i })
          let t ← t.relink parent i j "node isn't left or right parent - should be impossible! (1)"
          t.count b j
      else if mc = node.len then
        let id := shiftLeft id mc
        if !leftBit id then
          if node.left = 0 then
            let (j, b, t) ← t.newLeaf id val m u
            let t := t.upd i (fun n => { n with left := j })
            t.count b j
          else addLoop val m u fuel t i node.left id
        else if node.right = 0 then
          let (j, b, t) ← t.newLeaf id val m u
          let t := t.upd i (fun n => { n with right := j })
          t.count b j
        else addLoop val m u fuel t i node.right id
      else
        -- split this node
        let (c, t) ← t.newNode (MyId.val64 id) mc
        let id := shiftLeft id mc
        let (j, b, t) ← t.newLeaf id val m u
        let t := t.upd i (shiftLength mc)
        let node ← t.node i
        let l ← t.isLeft node.id
        let t := if !l then t.upd c (fun n => { n with left := i, right := j })
          else t.upd c (fun n => { n with right := i, left := j })
        let t ← t.relink parent i c "node isn't left or right parent - should be impossible! (2)"
        t.count b j

/-- tree.go:189-193 make sure of the capacity -/
def Tree.grow (t : Tree T) : Tree T :=
  if t.avail.length + t.cap < t.nodes.length + 10 then { t with cap := (t.cap + 1) * 2 } else t

/-- tree.go:186-343 `add`; the loop does at most one round per bit -/
def Tree.add (t : Tree T) (id : MyId P) (val : T) (m : Option (T → T → Bool)) (u : Option (T → T)) :
    Out (Bool × Nat × Tree T) := do
  let t := t.grow
  let root ← t.node 1
  if id.len = 0 then
    let (b, t) ← t.addVal val 1 m u
    t.count b 1
  else if !leftBit id then
    if root.left = 0 then
      let (j, b, t) ← t.newLeaf id val m u
      let t := t.upd 1 (fun n => { n with left := j })
      t.count b j
    else addLoop val m u (id.len + 1) t 1 root.left id
  else if root.right = 0 then
    let (j, b, t) ← t.newLeaf id val m u
    let t := t.upd 1 (fun n => { n with right := j })
    t.count b j
  else addLoop val m u (id.len + 1) t 1 root.right id

/-- tree.go:170-177 `Set` -/
def Tree.set (t : Tree T) (id : MyId P) (val : T) : Out (Bool × Nat × Tree T) :=
  t.add id val (some (fun _ _ => true)) (some (fun _ => val))

/-- tree.go:182-184 `Add` (`m = none`: a nil function) -/
def Tree.Add (t : Tree T) (id : MyId P) (val : T) (m : Option (T → T → Bool)) :
    Out (Bool × Nat × Tree T) := t.add id val m none

/-- tree.go:467-478, 485-496 merge the sibling `sib` into `parent`, which has lost its other child;
tree.go:475-476 and 493-494 read the sibling's children by its index and through the links of
`parent`, in both cases the children of the sibling -/
def Tree.mergeSibling (t : Tree T) (parent sib : Nat) : Out (Tree T) := do
  let p ← t.node parent
  let s ← t.node sib
  let (id, l) ← mergeFromNodes p s t.length
  let t := t.upd parent (fun n => { n with id := id, len := l })
  let t ← t.moveTags sib parent
  let s ← t.node sib
  let t := t.upd parent (fun n => { n with left := s.left, right := s.right })
  return { t with avail := t.avail ++ [sib] }

/-- tree.go:438-446, 450-458: the child `child` takes the place of `target` in `parent` and its
prefix is extended -/
def Tree.replaceByChild (t : Tree T) (target child parent : Nat) : Out (Tree T) := do
  let p ← t.node parent
  let t := if p.left = target then t.upd parent (fun n => { n with left := child })
    else t.upd parent (fun n => { n with right := child })
  let n ← t.node target
  let c ← t.node child
  let (id, l) ← mergeFromNodes n c t.length
  return t.upd child (fun n => { n with id := id, len := l })

/-- tree.go:424-505 `deleteNode`; the result (which case applied) is not used by the callers -/
def Tree.deleteNode (t : Tree T) (target parent : Nat) : Out (Tree T) :=
  if target = 1 then return t
  else do
    let n ← t.node target
    if n.left ≠ 0 ∧ n.right ≠ 0 then return t
    else
      let t ←
        if n.left ≠ 0 then t.replaceByChild target n.left parent
        else if n.right ≠ 0 then t.replaceByChild target n.right parent
        else do
          let p ← t.node parent
          if p.left = target then
            let t := t.upd parent (fun n => { n with left := 0 })
            if parent > 1 ∧ p.cnt = 0 ∧ p.right ≠ 0 then t.mergeSibling parent p.right else pure t
          else
            let t := t.upd parent (fun n => { n with right := 0 })
            if parent > 1 ∧ p.cnt = 0 ∧ p.left ≠ 0 then t.mergeSibling parent p.left else pure t
      let t := t.upd target (fun n => { n with left := 0, right := 0 })
      return { t with avail := t.avail ++ [target] }

/-- tree.go:377-405 the search loop of `DeleteWithBuffer`: parent and target index, if found -/
def findLoop (t : Tree T) : Nat → Nat → Nat → MyId P → Out (Option (Nat × Nat))
  | 0, _, _, _ => .diverge
  | fuel + 1, parent, i, id =>
    if i = 0 then return none
    else do
      let node ← t.node i
      let mc := matchCount node id
      if mc < node.len then return none
      else if mc = id.len then return some (parent, i)
      else
        let id := shiftLeft id mc
        if !leftBit id then findLoop t fuel i node.left id else findLoop t fuel i node.right id

/-- tree.go:354-406 the search of `DeleteWithBuffer` -/
def Tree.findTarget (t : Tree T) (id : MyId P) : Out (Option (Nat × Nat)) := do
  let root ← t.node 1
  if id.len = 0 then return some (0, 1)
  else if !leftBit id then findLoop t (id.len + 1) 1 root.left id
  else findLoop t (id.len + 1) 1 root.right id

/-- tree.go:347-421 `Delete`, `DeleteWithBuffer`: how many values were removed -/
def Tree.delete (t : Tree T) (id : MyId P) (m : T → T → Bool) (v : T) : Out (Nat × Tree T) := do
  match ← t.findTarget id with
  | none => return (0, t)
  | some (parent, i) =>
    let n ← t.node i
    if n.cnt = 0 then return (0, t)
    else
      let (t, d, keep) ← t.deleteVal i v m
      if keep > 0 then return (d, t)
      else
        let t ← t.deleteNode i parent
        return (d, t)

/-! ### Iteration -/

/-- tree.go:21-26 -/
inductive NextKind
  | self | left | right | up
deriving DecidableEq

/-- tree.go:508-514 `TreeIterator`, without the tree; `hist` is the history, last element first -/
structure Iter where
  index : Nat
  hist : List Nat
  next : NextKind
deriving DecidableEq

/-- tree.go:518-526 `Iterate` -/
def Tree.iterate : Iter := ⟨1, [], .self⟩

/-- how a round of the loop of `Next` ends -/
inductive Round
  /-- next round -/
  | cont (it : Iter)
  /-- `return true` -/
  | found (it : Iter)
  /-- `return false` -/
  | finished (it : Iter)

/-- tree.go:558-575 the last part of a round -/
def roundUp (t : Tree T) (it : Iter) : Out Round :=
  if it.next = .up then
    match it.hist with
    | [] => return .finished it
    | prev :: hist => do
      let p ← t.node prev
      if p.left = it.index then return .cont ⟨prev, hist, .right⟩
      else if p.right = it.index then return .cont ⟨prev, hist, .up⟩
      else .panic "unexpected state"
  else return .cont it

/-- tree.go:548-557 and the rest of a round -/
def roundRight (t : Tree T) (node : Node) (it : Iter) : Out Round :=
  if it.next = .right then
    if node.right ≠ 0 then roundUp t ⟨node.right, it.index :: it.hist, .self⟩
    else roundUp t { it with next := .up }
  else roundUp t it

/-- tree.go:539-547 and the rest of a round -/
def roundLeft (t : Tree T) (node : Node) (it : Iter) : Out Round :=
  if it.next = .left then
    if node.left ≠ 0 then roundRight t node ⟨node.left, it.index :: it.hist, .self⟩
    else roundRight t node { it with next := .right }
  else roundRight t node it

/-- tree.go:532-575 one round of the loop of `Next` -/
def round (t : Tree T) (it : Iter) : Out Round := do
  let node ← t.node it.index
  if it.next = .self then
    if node.cnt ≠ 0 then return .found { it with next := .left }
    else roundLeft t node { it with next := .left }
  else roundLeft t node it

/-- tree.go:530-577 `Next` -/
def nextLoop (t : Tree T) : Nat → Iter → Out (Bool × Iter)
  | 0, _ => .diverge
  | fuel + 1, it => do
    match ← round t it with
    | .cont it => nextLoop t fuel it
    | .found it => return (true, it)
    | .finished it => return (false, it)

/-- `Next` -/
def next (t : Tree T) (it : Iter) : Out (Bool × Iter) := nextLoop t (3 * t.nodes.length + 1) it

/-- a loop `for iter.Next() { ... iter.Vals() ... }` from `it` on: the node and the values
(tree.go:581-589) of each round -/
def visitLoop (t : Tree T) : Nat → Iter → Out (List (Nat × List T))
  | 0, _ => .diverge
  | fuel + 1, it => do
    let (b, it) ← next t it
    if b then
      let v ← t.valsForNode it.index
      let l ← visitLoop t fuel it
      return (it.index, v) :: l
    else return []

/-- iterate over the whole tree -/
def Tree.visit (t : Tree T) : Out (List (Nat × List T)) := visitLoop t (t.nodes.length + 1) Tree.iterate

end Verif.Tree
