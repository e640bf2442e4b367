import Verif.Tree.Model

/-!
Model of pkg/tree/tree16, tree32, tree64 (with pkg/tree/entry.go and pkg/tree/gtree): tables of
claimed prefixes on top of the prefix tree. Citations are for tree32.go; the three files differ in
the width and in the root prefix of `findFree` only.

* One call at a time: locks are left out here (see `Verif/Conc`).
* An entry is an id of the package of the tree, with labels; `tree.Entry` is an interface, so a value
  of the tree is `none` when it is nil. Method calls on nil panic.
* Ids passed in are ids of the package of the tree (the Go interface `tree.ID` admits others).
* Labels are an arbitrary type with the string function used for comparison (`labels.Set.String`); a
  selector is an arbitrary predicate on labels (`labels.Selector.Matches`). The Go type is a map, that is a
  reference; for callers that change their map after the call see `AliasProps.lean`.
* Iteration is `Tree.visit`, all values visited, before the loop body runs. The bodies do not change the
  tree, and the visit does not panic (`C43`), so this is the same as running them in turn.
* Error texts are in `Errs/Model.lean`, `PrintNodes` and `PrintValues` in `DumpModel.lean`.
-/

namespace Verif.GTree
open Verif.Id
open Verif.Tree (Tree Out newTree)

/-- which of the three packages: the ids, and the length of the root prefix in `findFree` for a tree
of the given length -/
structure Impl where
  P : Pkg
  rootLen : Nat → Nat

/-- tree16.go:118 -/
def tree16 : Impl := ⟨id16, fun l => Verif.Tree.sub8 16 l⟩
/-- tree32.go:118 -/
def tree32 : Impl := ⟨id32, fun l => l⟩
/-- tree64.go:119 -/
def tree64 : Impl := ⟨id64, fun l => Verif.Tree.sub8 64 l⟩

/-- `labels.Set` with its `String` function -/
class Labels (L : Type) where
  str : L → String

/-- entry.go:16-19 `entry`; entry.go:34-39 `NewEntry` -/
structure Entry (P : Pkg) (L : Type) where
  id : MyId P
  labels : L

variable {I : Impl} {L : Type} [Labels L]

/-- entry.go:25-32 `Equal` -/
def Entry.equal {P : Pkg} (e1 e2 : Entry P L) : Bool :=
  e1.id.id == e2.id.id && e1.id.len == e2.id.len && Labels.str e1.labels == Labels.str e2.labels

/-- tree32.go:25-30 -/
structure GTree (I : Impl) (L : Type) where
  tree : Tree (Option (Entry I.P L))
  size : BitVec I.P.W
  length : Nat

/-- tree32.go:13-23 `New`; `none` is the error -/
def new (I : Impl) (L : Type) (length : Nat) : Option (GTree I L) :=
  if length > I.P.W then none
  else some ⟨newTree I.P, ((1 : BitVec I.P.W) <<< length) - 1, length⟩

/-- tree32.go:32-39 `Clone` -/
def GTree.clone (g : GTree I L) : GTree I L := ⟨g.tree.clone, g.size, g.length⟩

/-- a value or an error -/
inductive Ret (α : Type)
  | ok (a : α)
  | err

/-- a method call on an interface value -/
def deref {α : Type} : Option α → Out α
  | some a => .ok a
  | none => .panic "nil dereference"

/-- gtree.go:37-41 `Entry` on each value visited -/
def firsts {V : Type} : List (Nat × List V) → Out (List V)
  | [] => .ok []
  | (_, []) :: _ => .panic "index out of range"
  | (_, v :: _) :: vis => do
    let vs ← firsts vis
    return v :: vs

/-- tree32.go:242-249 `Iterate`, and the entries it goes through -/
def GTree.entries (g : GTree I L) : Out (List (Option (Entry I.P L))) := do
  let vis ← g.tree.visit
  firsts vis

/-- tree32.go:251-259 `validate` is nil (the second test never succeeds) -/
def GTree.valid (g : GTree I L) (id : MyId I.P) : Bool := !(decide (id.id > g.size))

/-- tree32.go:46-51 the loop of `Get` -/
def getLoop {P : Pkg} (id : MyId P) : List (Option (Entry P L)) → Out (Option (Entry P L))
  | [] => .ok none
  | e :: es => do
    let e ← deref e
    if e.id = id then return some e else getLoop id es

/-- tree32.go:41-53 `Get`; `none` is the error -/
def GTree.get (g : GTree I L) (id : MyId I.P) : Out (Option (Entry I.P L)) := do
  let es ← g.entries
  getLoop id es

/-- tree32.go:112-115 `set` -/
def GTree.set (g : GTree I L) (id : MyId I.P) (e : Entry I.P L) : Out (GTree I L) := do
  let (_, _, t) ← g.tree.set id (some e)
  return { g with tree := t }

/-- tree32.go:66-75 `ClaimID`; tree32.go:55-64 `Update` has the same text -/
def GTree.claimID (g : GTree I L) (id : MyId I.P) (l : L) : Out (Ret Unit × GTree I L) :=
  if !g.valid id then .ok (.err, g)
  else do
    let g ← g.set id ⟨id, l⟩
    return (.ok (), g)

/-- the loop of `Children` and `Parents`, with the test on the length -/
def overlapLoop {P : Pkg} (id : MyId P) (c : Nat → Bool) : List (Option (Entry P L)) → Out (List (Entry P L))
  | [] => .ok []
  | e :: es => do
    let e ← deref e
    match e.id.overlaps id with
    | none => .panic "index out of range"
    | some o => do
      let rest ← overlapLoop id c es
      return if o && c e.id.len then e :: rest else rest

/-- tree32.go:175-190 `Children` -/
def GTree.children (g : GTree I L) (id : MyId I.P) : Out (List (Entry I.P L)) := do
  let es ← g.entries
  overlapLoop id (fun l => decide (l > id.len)) es

/-- tree32.go:192-205 `Parents` -/
def GTree.parents (g : GTree I L) (id : MyId I.P) : Out (List (Entry I.P L)) := do
  let es ← g.entries
  overlapLoop id (fun l => decide (l < I.P.W)) es

/-- the panics of the id packages -/
def ofRes {α : Type} : Res α → Out α
  | .ok a => .ok a
  | .panicInvalid => .panic "invalid range"
  | .panicOverlap => .panic "unexpected additional overlap scenario"
  | .panicNil => .panic "nil dereference"

/-- tree32.go:122-124 the loop of `findFree` -/
def removeAll {P : Pkg} : List (Entry P L) → Builder P → Out (Builder P)
  | [], b => .ok b
  | e :: es, b => do
    let b ← ofRes (b.removeId e.id)
    removeAll es b

/-- tree32.go:117-138 `findFree` -/
def GTree.findFree (g : GTree I L) : Out (Ret (BitVec I.P.W)) := do
  let root : MyId I.P := ⟨0, I.rootLen g.length⟩
  let b ← ofRes (Builder.empty.addId root)
  let ch ← g.children root
  let b ← removeAll ch b
  let (_, set, err) ← ofRes b.ipSet
  if err then return .err
  else match ← ofRes (set.removeFreePrefix I.P.W) with
    | none => return .err
    | some (a, _) => return if g.valid a then .ok a.id else .err

/-- tree32.go:77-92 `ClaimFree` -/
def GTree.claimFree (g : GTree I L) (l : L) : Out (Ret (Entry I.P L) × GTree I L) := do
  match ← g.findFree with
  | .err => return (.err, g)
  | .ok x => do
    let g ← g.set ⟨x, I.P.W⟩ ⟨⟨x, I.P.W⟩, l⟩
    return (.ok ⟨⟨x, I.P.W⟩, l⟩, g)

/-- tree32.go:103-108 the loop of `ClaimRange` -/
def GTree.setAll (g : GTree I L) (l : L) : List (MyId I.P) → Out (GTree I L)
  | [] => .ok g
  | id :: ids => do
    let g ← g.set id ⟨id, l⟩
    g.setAll l ids

/-- tree32.go:94-110 `ClaimRange` -/
def GTree.claimRange (g : GTree I L) (s : List UInt8) (l : L) : Out (Ret Unit × GTree I L) :=
  match (parseRange s : Option (Rng I.P)) with
  | none => .ok (.err, g)
  | some r =>
    match r.ids with
    | none => .panic "index out of range"
    | some ids => do
      let g ← g.setAll l ids
      return (.ok (), g)

/-- tree32.go:167-173 `del`. Calling `Equal` on a nil entry would panic; here such a value is
different from every entry. For the widths 16 and 32 no value is nil (`C52`, `C59`). For width 64 the only
value is nil after a release, and then `Get` panics before `del` is called, or the prefix is no longer
stored and nothing is compared (`C92`). -/
def GTree.del (g : GTree I L) (id : MyId I.P) (e : Entry I.P L) : Out (GTree I L) := do
  let (_, t) ← g.tree.delete id (fun e1 e2 => match e1, e2 with
    | some e1, some e2 => e1.equal e2
    | _, _ => false) (some e)
  return { g with tree := t }

/-- tree32.go:140-151 `ReleaseID` -/
def GTree.releaseID (g : GTree I L) (id : MyId I.P) : Out (Ret Unit × GTree I L) :=
  if !g.valid id then .ok (.err, g)
  else do
    match ← g.get id with
    | none => return (.ok (), g)
    | some e => do
      let g ← g.del id e
      return (.ok (), g)

/-- the loop of `GetByLabel` -/
def labelLoop {P : Pkg} (sel : L → Bool) : List (Option (Entry P L)) → Out (List (Entry P L))
  | [] => .ok []
  | e :: es => do
    let e ← deref e
    let rest ← labelLoop sel es
    return if sel e.labels then e :: rest else rest

/-- tree32.go:207-218 `GetByLabel` -/
def GTree.getByLabel (g : GTree I L) (sel : L → Bool) : Out (List (Entry I.P L)) := do
  let es ← g.entries
  labelLoop sel es

/-- tree32.go:159-163 the loop of `ReleaseByLabel` -/
def GTree.delAll (g : GTree I L) : List (Entry I.P L) → Out (GTree I L)
  | [] => .ok g
  | e :: es => do
    let g ← g.del e.id e
    g.delAll es

/-- tree32.go:153-165 `ReleaseByLabel` -/
def GTree.releaseByLabel (g : GTree I L) (sel : L → Bool) : Out (GTree I L) := do
  let es ← g.getByLabel sel
  g.delAll es

/-- tree32.go:220-229 `GetAll` -/
def GTree.getAll (g : GTree I L) : Out (List (Option (Entry I.P L))) := g.entries

/-- tree32.go:231-240 `Size` -/
def GTree.count (g : GTree I L) : Out Nat := do
  let vis ← g.tree.visit
  return vis.length

end Verif.GTree
