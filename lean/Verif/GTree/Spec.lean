import Verif.GTree.Model
import Verif.Tree.Spec
import Verif.Id.Spec

/-!
Specification of the trees of claimed prefixes: an abstract map from prefixes (lists of bits) to
entries, and what each call does to it.
-/

namespace Verif.GTree
open Verif.Id
open Verif.Tree (Out pfx NeedsAtMost ListsMap)

/-- the prefix of an id -/
def pre {P : Pkg} (i : MyId P) : List Bool := pfx i.id i.len

/-- the abstract map -/
abbrev Map (P : Pkg) (L : Type) := List Bool → Option (Entry P L)

/-- store an entry under the prefix of an id -/
def put {P : Pkg} {L : Type} (M : Map P L) (id : MyId P) (l : L) : Map P L :=
  fun q => if q = pre id then some ⟨id, l⟩ else M q

/-- store an entry for each of the ids -/
def puts {P : Pkg} {L : Type} (M : Map P L) (l : L) (ids : List (MyId P)) : Map P L :=
  ids.foldl (fun M id => put M id l) M

/-- calls that change a tree -/
inductive Op (P : Pkg) (L : Type)
  | claim (id : MyId P) (l : L)
  | update (id : MyId P) (l : L)
  | claimFree (l : L)
  | claimRange (s : List UInt8) (l : L)
  | release (id : MyId P)
  | releaseByLabel (sel : L → Bool)

/-- results -/
inductive Result (P : Pkg) (L : Type)
  | done
  | err
  | got (e : Entry P L)

/-- lengths of the ids passed -/
def Op.Fits {P : Pkg} {L : Type} : Op P L → Prop
  | .claim id _ => id.len ≤ P.W
  | .update id _ => id.len ≤ P.W
  | .release id => id.len ≤ P.W
  | _ => True

def Ret.result {P : Pkg} {L : Type} : Ret Unit → Result P L
  | .ok _ => .done
  | .err => .err

variable {I : Impl} {L : Type} [Labels L]

/-- execute a call -/
def GTree.exec (g : GTree I L) : Op I.P L → Out (Result I.P L × GTree I L)
  | .claim id l => do let (r, g) ← g.claimID id l; return (r.result, g)
  | .update id l => do let (r, g) ← g.claimID id l; return (r.result, g)
  | .claimFree l => do
    let (r, g) ← g.claimFree l
    return (match r with | .ok e => .got e | .err => .err, g)
  | .claimRange s l => do let (r, g) ← g.claimRange s l; return (r.result, g)
  | .release id => do let (r, g) ← g.releaseID id; return (r.result, g)
  | .releaseByLabel sel => do let g ← g.releaseByLabel sel; return (.done, g)

/-- what a call may return in a tree of the given length, and do to the map. `ClaimFree` may return
any id of full length below `2^length`, or fail (`C57` says more). `ClaimRange` stores the prefixes
that `IDs` of the range yields (see `C32`, `C58`). -/
def Effect {P : Pkg} {L : Type} (length : Nat) (M : Map P L) : Op P L → Result P L → Map P L → Prop
  | .claim id l, r, M' | .update id l, r, M' =>
    if id.id.toNat < 2 ^ length then r = .done ∧ M' = put M id l else r = .err ∧ M' = M
  | .claimFree l, r, M' =>
    (r = .err ∧ M' = M) ∨
    ∃ x : BitVec P.W, x.toNat < 2 ^ length ∧ r = .got ⟨⟨x, P.W⟩, l⟩ ∧ M' = put M ⟨x, P.W⟩ l
  | .claimRange s l, r, M' =>
    ((¬ ∃ x : Rng P, parseRange s = some x) ∧ r = .err ∧ M' = M) ∨
    ∃ (x : Rng P) (ids : List (MyId P)), parseRange s = some x ∧ x.ids = some ids ∧ r = .done ∧ M' = puts M l ids
  | .release id, r, M' =>
    if id.id.toNat < 2 ^ length then
      r = .done ∧ (∀ q, M' q = if q = pre id then (M q).filter (fun e => decide (e.id ≠ id)) else M q)
    else r = .err ∧ M' = M
  | .releaseByLabel sel, r, M' => r = .done ∧ ∀ q, M' q = (M q).filter (fun e => !sel e.labels)

/-- the empty map -/
def Map.empty {P : Pkg} {L : Type} : Map P L := fun _ => none

/-- for width 32 the tree needs at most `2^32` nodes (see `C42`); this is so if at most `2^31` prefixes are stored, and
if all ids are below `2^31` -/
def Room {P : Pkg} {L : Type} (M : Map P L) : Prop := P.W = 32 → NeedsAtMost (2 ^ 32) (fun q => M q ≠ none)

/-- the tree `g` of the given length was reached by a history of calls, and the map is `M` -/
inductive Reach (I : Impl) (length : Nat) : GTree I L → Map I.P L → Prop
  | new {g} : new I L length = some g → Reach I length g Map.empty
  | step {g M o r g' M'} : Reach I length g M → o.Fits → g.exec o = .ok (r, g') → Effect length M o r M' →
      Room M' → Reach I length g' M'

/-- a sequence of calls with their results, from `g`, `M` to `g'`, `M'` -/
inductive Steps (I : Impl) (length : Nat) :
    GTree I L → Map I.P L → List (Op I.P L × Result I.P L) → GTree I L → Map I.P L → Prop
  | nil {g M} : Steps I length g M [] g M
  | cons {g M o r g₁ M₁ h g' M'} : o.Fits → g.exec o = .ok (r, g₁) → Effect length M o r M₁ → Room M₁ →
      Steps I length g₁ M₁ h g' M' → Steps I length g M ((o, r) :: h) g' M'

/-- the call with this result claims or releases the prefix `q`, under which an entry with the labels
`l` is stored -/
def Touches {P : Pkg} {L : Type} (q : List Bool) (l : L) : Op P L × Result P L → Prop
  | (.claim id _, _) | (.update id _, _) | (.release id, _) => pre id = q
  | (.claimFree _, r) => ∃ e, r = .got e ∧ pre e.id = q
  | (.claimRange s _, _) => ∃ (x : Rng P) (ids : List (MyId P)), parseRange s = some x ∧ x.ids = some ids ∧
      ∃ i ∈ ids, pre i = q
  | (.releaseByLabel sel, _) => sel l = true

/-- some stored entry covers the value -/
def Covered {P : Pkg} {L : Type} (M : Map P L) (x : BitVec P.W) : Prop := ∃ q e, M q = some e ∧ Covers e.id x

/-- `l` lists the entries of the map in the order of their prefixes -/
def Listing {P : Pkg} {L : Type} (l : List (Entry P L)) (M : Map P L) : Prop :=
  ListsMap (l.map (fun e => (pre e.id, e))) M

end Verif.GTree
