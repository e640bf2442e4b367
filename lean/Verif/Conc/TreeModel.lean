import Verif.Conc.Sim
import Verif.GTree.Model

/-!
The trees of claimed prefixes (pkg/tree/tree16, tree32, tree64) as concurrent programs. Citations are for
tree32.go; tree16.go and tree64.go have the same text up to the width and the root prefix.

* The shared memory is the tree. `size` and `length` are constants.
* What happens between two lock operations is one access to the memory: the loop over the iterator in
  `Get`, `Children` and `Parents`, and `Set` and `Delete` of the prefix tree. Under the lock this makes no
  difference.
* `GetAll`, `GetByLabel` and `Size` read the tree without lock: each round of the loop of `Next` and each
  `Entry` is an access of its own. These loops may go on for as long as others change the tree. `tprog N` lets them
  run for `N` rounds more than they would need if nobody changed the tree from their start on; then the reply is
  `stuck`. The theorems hold for every `N`; an execution of the code, which is finite, is one of `tprog N` without
  `stuck` for a large `N`.
* `Clone` and `ClaimRange` access the tree without lock, too; for them the finer interleavings are missing
  (one access for `Clone` and for each `Set`), so that they are only used for showing what can go wrong.
* Panics unwind through the deferred unlocks; the reply is `panic`. What a panicking `Set` has changed
  before is not modelled.
* `PrintNodes`, `PrintValues`, and `Iterate` as a call of the client are not modelled.
-/

namespace Verif.Conc
open Verif.Id Verif.GTree
open Verif.Tree (Out)

variable {I : Impl} {L : Type} [Labels L]

/-- the critical sections; `setAll` is not one of the code, it stands for the loop of a `ClaimRange` that no other
call overlaps with (see `scode` in `TreeSync`) -/
inductive TSec (I : Impl) (L : Type)
  | get (id : MyId I.P)
  | children (id : MyId I.P)
  | parents (id : MyId I.P)
  | iterate
  | set (id : MyId I.P) (l : L)
  | del (id : MyId I.P) (e : Entry I.P L)
  | delAll (es : List (Entry I.P L))
  | setAll (l : L) (ids : List (MyId I.P))

/-- their results -/
inductive TSecR (I : Impl) (L : Type)
  | found (o : Option (Entry I.P L))
  | list (es : List (Entry I.P L))
  | ok
  | panic

def TSecR.ofFound : Out (Option (Entry I.P L)) → TSecR I L
  | .ok o => .found o
  | _ => .panic

def TSecR.ofList : Out (List (Entry I.P L)) → TSecR I L
  | .ok es => .list es
  | _ => .panic

/-- the tree after a method that changes it -/
def after (g : GTree I L) : Out (GTree I L) → GTree I L
  | .ok g' => g'
  | _ => g

/-- the reply of a method that changes the tree -/
def TSecR.ofTree : Out (GTree I L) → TSecR I L
  | .ok _ => .ok
  | _ => .panic

/-- tree32.go:242-249 `Iterate`: makes an iterator, which holds the tree -/
def titerateP : Prog (GTree I L) Unit := withRLock (get fun _ => ())

/-- change the tree -/
def changeP (f : GTree I L → Out (GTree I L)) : Prog (GTree I L) (TSecR I L) := do
  let r ← get (fun g => TSecR.ofTree (f g))
  put (fun g => after g (f g))
  return r

/-- tree32.go:103-108 the loop of `ClaimRange` -/
def setAllP (l : L) : List (MyId I.P) → Prog (GTree I L) (TSecR I L)
  | [] => .ret .ok
  | id :: ids => (changeP fun g => g.set id ⟨id, l⟩).bind fun
    | .ok => setAllP l ids
    | _ => .ret .panic

/-- the critical sections as programs -/
def tsec : TSec I L → Prog (GTree I L) (TSecR I L)
  -- tree32.go:41-53 `Get`
  | .get id => withRLock do
    titerateP
    get fun g => .ofFound (g.get id)
  -- tree32.go:175-190 `Children`
  | .children id => withRLock do
    titerateP
    get fun g => .ofList (g.children id)
  -- tree32.go:192-205 `Parents`
  | .parents id => withRLock do
    titerateP
    get fun g => .ofList (g.parents id)
  | .iterate => do
    titerateP
    return .ok
  -- tree32.go:61-63, 72-74, 86-91
  | .set id l => withLock (changeP fun g => g.set id ⟨id, l⟩)
  -- tree32.go:148-150
  | .del id e => withLock (changeP fun g => g.del id e)
  -- tree32.go:156-164
  | .delAll es => withLock (changeP fun g => g.delAll es)
  | .setAll l ids => withLock (setAllP l ids)

/-- the calls of `gtree.GTree` (gtree.go:10-27) -/
inductive TCall (I : Impl) (L : Type)
  | clone
  | get (id : MyId I.P)
  | update (id : MyId I.P) (l : L)
  | claim (id : MyId I.P) (l : L)
  | claimFree (l : L)
  | claimRange (s : List UInt8) (l : L)
  | release (id : MyId I.P)
  | releaseByLabel (sel : L → Bool)
  | children (id : MyId I.P)
  | parents (id : MyId I.P)
  | getByLabel (sel : L → Bool)
  | getAll
  | size

/-- replies -/
inductive TReply (I : Impl) (L : Type)
  | done
  | err
  | got (e : Entry I.P L)
  | entries (es : List (Entry I.P L))
  | all (es : List (Option (Entry I.P L)))
  | nat (n : Nat)
  | panic
  | stuck

/-- programs on the critical sections -/
abbrev TClient (I : Impl) (L : Type) := Client (TSec I L) (TSecR I L) (GTree I L) (TReply I L)

/-- what is left to do in `findFree` (tree32.go:122-138) when the children are known -/
def chooseFree (g : GTree I L) (b : Builder I.P) (ch : List (Entry I.P L)) : Out (Ret (BitVec I.P.W)) := do
  let b ← removeAll ch b
  let (_, set, err) ← ofRes b.ipSet
  if err then return .err
  else match ← ofRes (set.removeFreePrefix I.P.W) with
    | none => return .err
    | some (a, _) => return if g.valid a then .ok a.id else .err

/-- reply of a section that changes the tree -/
def replyDone (k : TReply I L) : TSecR I L → TClient I L
  | .ok => .ret k
  | _ => .ret .panic

/-- tree.go:530-577 `Next` of an iterator, without lock -/
def nextC : Nat → Tree.Iter → (Bool → Tree.Iter → TClient I L) → TClient I L
  | 0, _, _ => .ret .stuck
  | n + 1, it, k => .peek fun g =>
    match Tree.round g.tree it with
    | .ok (.cont it) => nextC n it k
    | .ok (.found it) => k true it
    | .ok (.finished it) => k false it
    | _ => .ret .panic

/-- gtree.go:37-41 `Entry` of an iterator at the node `i`, without lock -/
def entryC (i : Nat) (k : Option (Entry I.P L) → TClient I L) : TClient I L := .peek fun g =>
  match g.tree.valsForNode i with
  | .ok (v :: _) => k v
  | _ => .ret .panic

/-- `for iter.Next() { body }`, without lock -/
def loopC {A : Type} (N : Nat) (body : A → Nat → (A → TClient I L) → TClient I L) :
    Nat → Tree.Iter → A → (A → TClient I L) → TClient I L
  | 0, _, _, _ => .ret .stuck
  | n + 1, it, acc, k => .peek fun g => nextC (N + (3 * g.tree.nodes.length + 1)) it fun b it =>
    if b then body acc it.index fun acc => loopC N body n it acc k else k acc

/-- the loop over the whole tree -/
def walkC {A : Type} (N : Nat) (body : A → Nat → (A → TClient I L) → TClient I L) (acc : A) (k : A → TClient I L) : TClient I L :=
  .peek fun g => loopC N body (N + (g.tree.nodes.length + 1)) Tree.Tree.iterate acc k

/-- tree32.go:225 the body of the loop of `GetAll` -/
def allBody (acc : List (Option (Entry I.P L))) (i : Nat) (k : List (Option (Entry I.P L)) → TClient I L) : TClient I L :=
  entryC i fun v => k (acc ++ [v])

/-- tree32.go:236 the body of the loop of `Size` -/
def sizeBody (acc : Nat) (_ : Nat) (k : Nat → TClient I L) : TClient I L := k (acc + 1)

/-- tree32.go:212-214 the body of the loop of `GetByLabel`: the entry is read twice -/
def labelBody (sel : L → Bool) (acc : List (Option (Entry I.P L))) (i : Nat)
    (k : List (Option (Entry I.P L)) → TClient I L) : TClient I L :=
  entryC i fun
    | none => .ret .panic
    | some e => if sel e.labels then entryC i fun v => k (acc ++ [v]) else k acc

/-- the entries before the first nil -/
def beforeNil {A : Type} : List (Option A) → List A
  | some e :: es => e :: beforeNil es
  | _ => []

/-- the reply with these entries -/
def replyList (es : List (Option (Entry I.P L))) : TReply I L :=
  if es.all Option.isSome then .entries (beforeNil es) else .all es

/-- tree32.go:159-164 the loop of `ReleaseByLabel` panics at a nil entry -/
def releaseC (es : List (Option (Entry I.P L))) : TClient I L :=
  .call (.delAll (beforeNil es)) fun r => if es.all Option.isSome then replyDone .done r else .ret .panic

/-- the calls, apart from `ClaimRange`; of `g` only the constants are used -/
def tcode (N : Nat) (g : GTree I L) : TCall I L → TClient I L
  -- tree32.go:32-39: the tree is read without lock
  | .clone => .peek fun _ => .ret .done
  | .get id => .call (.get id) fun
    | .found (some e) => .ret (.got e)
    | .found none => .ret .err
    | _ => .ret .panic
  -- tree32.go:55-64
  | .update id l => if !g.valid id then .ret .err else .call (.set id l) (replyDone .done)
  -- tree32.go:66-75
  | .claim id l => if !g.valid id then .ret .err else .call (.set id l) (replyDone .done)
  -- tree32.go:77-92, with `findFree` (117-138)
  | .claimFree l =>
    match ofRes (Builder.empty.addId (⟨0, I.rootLen g.length⟩ : MyId I.P)) with
    | .ok b => .call (.children ⟨0, I.rootLen g.length⟩) fun
      | .list ch =>
        match chooseFree g b ch with
        | .ok (.ok x) => .call (.set ⟨x, I.P.W⟩ l) (replyDone (.got ⟨⟨x, I.P.W⟩, l⟩))
        | .ok .err => .ret .err
        | _ => .ret .panic
      | _ => .ret .panic
    | _ => .ret .panic
  -- see `tprog`
  | .claimRange _ _ => .ret .err
  -- tree32.go:140-151
  | .release id => if !g.valid id then .ret .err else .call (.get id) fun
    | .found (some e) => .call (.del id e) (replyDone .done)
    | .found none => .ret .done
    | _ => .ret .panic
  -- tree32.go:153-165
  | .releaseByLabel sel => .call .iterate fun _ => walkC N (labelBody sel) [] releaseC
  | .children id => .call (.children id) fun
    | .list es => .ret (.entries es)
    | _ => .ret .panic
  | .parents id => .call (.parents id) fun
    | .list es => .ret (.entries es)
    | _ => .ret .panic
  -- tree32.go:207-218
  | .getByLabel sel => .call .iterate fun _ => walkC N (labelBody sel) [] fun es => .ret (replyList es)
  -- tree32.go:220-229
  | .getAll => .call .iterate fun _ => walkC N allBody [] fun es => .ret (.all es)
  -- tree32.go:231-240
  | .size => .call .iterate fun _ => walkC N sizeBody 0 fun n => .ret (.nat n)

/-- tree32.go:94-110 `ClaimRange` -/
def claimRangeP (s : List UInt8) (l : L) : Prog (GTree I L) (TReply I L) :=
  match (parseRange s : Option (Rng I.P)) with
  | none => .ret .err
  | some r =>
    match r.ids with
    | none => .ret .panic
    -- 103-108, without lock
    | some ids => (setAllP l ids).bind fun
      | .ok => .ret .done
      | _ => .ret .panic

/-- the calls of a tree as programs -/
def tprog (N : Nat) (g : GTree I L) : TCall I L → Prog (GTree I L) (TReply I L)
  | .claimRange s l => claimRangeP s l
  | c => (tcode N g c).compile tsec

/-- the effect of the loop of `ClaimRange` -/
def setAllS (l : L) : List (MyId I.P) → GTree I L → GTree I L × TSecR I L
  | [], g => (g, .ok)
  | id :: ids, g =>
    match g.set id ⟨id, l⟩ with
    | .ok g' => setAllS l ids g'
    | _ => (g, .panic)

/-- the effect of a critical section -/
def tsem (g : GTree I L) : TSec I L → GTree I L × TSecR I L
  | .get id => (g, .ofFound (g.get id))
  | .children id => (g, .ofList (g.children id))
  | .parents id => (g, .ofList (g.parents id))
  | .iterate => (g, .ok)
  | .set id l => (after g (g.set id ⟨id, l⟩), .ofTree (g.set id ⟨id, l⟩))
  | .del id e => (after g (g.del id e), .ofTree (g.del id e))
  | .delAll es => (after g (g.delAll es), .ofTree (g.delAll es))
  | .setAll l ids => setAllS l ids g

end Verif.Conc
