import Verif.Tree.Model

/-!
Specification of the prefix tree: histories of calls, the abstract map, and what a tree in the model
stores, read off its node array. Nothing here uses the lemmas about the model.
-/

namespace Verif.Tree
open Verif.Id
variable {T : Type} {P : Pkg}

/-! ### Histories -/

/-- a call that changes a tree -/
inductive Op (P : Pkg) (T : Type)
  | set (id : MyId P) (v : T)
  | add (id : MyId P) (v : T) (m : Option (T → T → Bool))
  | delete (id : MyId P) (m : T → T → Bool) (v : T)

/-- the result of a call -/
inductive Res
  /-- of `Set` and `Add`: whether a value was added, number of values afterwards -/
  | added (new : Bool) (count : Nat)
  /-- of `Delete`: number of values removed -/
  | deleted (n : Nat)
deriving DecidableEq

/-- the id of a call -/
def Op.id : Op P T → MyId P
  | .set id _ => id
  | .add id _ _ => id
  | .delete id _ _ => id

/-- no call of `Add` -/
def Op.NoAdd : Op P T → Prop
  | .add _ _ _ => False
  | _ => True

/-- execute a call -/
def Op.exec [Inhabited T] (t : Tree T) : Op P T → Out (Res × Tree T)
  | .set id v => do let (b, c, t) ← t.set id v; return (.added b c, t)
  | .add id v m => do let (b, c, t) ← t.Add id v m; return (.added b c, t)
  | .delete id m v => do let (n, t) ← t.delete id m v; return (.deleted n, t)

/-- execute a history -/
def run [Inhabited T] (t : Tree T) : List (Op P T) → Out (List Res × Tree T)
  | [] => .ok ([], t)
  | o :: os => do
    let (r, t) ← o.exec t
    let (rs, t) ← run t os
    return (r :: rs, t)

/-- `t` is reached from a new tree, with ids no longer than the width -/
def Reach [Inhabited T] (P : Pkg) (t : Tree T) : Prop :=
  ∃ (os : List (Op P T)) (rs : List Res), (∀ o ∈ os, o.id.len ≤ P.W) ∧ run (newTree P) os = .ok (rs, t)

/-- the same without calls of `Add` -/
def ReachSet [Inhabited T] (P : Pkg) (t : Tree T) : Prop :=
  ∃ (os : List (Op P T)) (rs : List Res), (∀ o ∈ os, o.id.len ≤ P.W ∧ o.NoAdd) ∧
    run (newTree P) os = .ok (rs, t)

/-! ### The abstract map -/

/-- the prefix of an id: its first `len` bits, most significant first -/
def pfx {W : Nat} (x : BitVec W) (len : Nat) : List Bool := (List.range len).map (fun i => x.getMsbD i)

/-- the prefix a call is about -/
def Op.pfx (o : Op P T) : List Bool := Tree.pfx o.id.id o.id.len

/-- the map after a call of `Set` or `Delete` -/
def Op.map (o : Op P T) (M : List Bool → Option T) : List Bool → Option T :=
  match o with
  | .set _ v => fun q => if q = o.pfx then some v else M q
  | .delete _ m v => fun q => if q = o.pfx then (M q).filter (fun w => !m w v) else M q
  | .add _ _ _ => M

/-- the result of a call of `Set` or `Delete` -/
def Op.res (o : Op P T) (M : List Bool → Option T) : Res :=
  match o with
  | .set _ _ => .added (M o.pfx).isNone 1
  | .delete _ m v => .deleted (match M o.pfx with | some w => if m w v then 1 else 0 | none => 0)
  | .add _ _ _ => .deleted 0

/-- the map after a history -/
def mapOf : List (Op P T) → (List Bool → Option T) → List Bool → Option T
  | [], M => M
  | o :: os, M => mapOf os (o.map M)

/-- the results of a history -/
def resOf : List (Op P T) → (List Bool → Option T) → List Res
  | [], _ => []
  | o :: os, M => o.res M :: resOf os (o.map M)

/-- the map has at most `n` keys -/
def AtMost (n : Nat) (M : List Bool → Option T) : Prop :=
  ∃ ks : List (List Bool), ks.length ≤ n ∧ ∀ q, M q ≠ none → q ∈ ks

/-- the prefixes for which a tree needs a node: the empty one, those stored, and those after which two stored ones differ -/
def Needs (S : List Bool → Prop) (q : List Bool) : Prop :=
  q = [] ∨ S q ∨ ∃ r r', S (q ++ false :: r) ∧ S (q ++ true :: r')

/-- a tree that stores the prefixes `S` needs at most `n` nodes -/
def NeedsAtMost (n : Nat) (S : List Bool → Prop) : Prop :=
  ∃ ks : List (List Bool), ks.length ≤ n ∧ ∀ q, Needs S q → q ∈ ks

/-- `L` lists the map, ordered by key -/
structure ListsMap (L : List (List Bool × T)) (M : List Bool → Option T) : Prop where
  sorted : L.Pairwise (fun a b => a.1 < b.1)
  mem : ∀ q v, (q, v) ∈ L ↔ M q = some v

/-! ### What a tree stores -/

/-- the bits of a node below its parent -/
def Node.bits (W : Nat) (n : Node) : List Bool := (List.range n.len).map (fun i => n.id.getLsbD (W - 1 - i))

/-- node `i` is reached from the root along the prefix `q` -/
inductive At (W : Nat) (t : Tree T) : List Bool → Nat → Prop
  | root : At W t [] 1
  | left {q i n c} : At W t q i → t.nodes[i]? = some n → n.left ≠ 0 → t.nodes[n.left]? = some c →
      At W t (q ++ c.bits W) n.left
  | right {q i n c} : At W t q i → t.nodes[i]? = some n → n.right ≠ 0 → t.nodes[n.right]? = some c →
      At W t (q ++ c.bits W) n.right

/-- the values under the prefix `q` are `l` -/
def Holds [Inhabited T] (W : Nat) (t : Tree T) (q : List Bool) (l : List T) : Prop :=
  (∃ i, At W t q i ∧ t.valsForNode i = .ok l) ∨ ((∀ i, ¬ At W t q i) ∧ l = [])

/-- the keys of the value map do not overlap -/
structure Small (W : Nat) (t : Tree T) : Prop where
  nodes : t.nodes.length ≤ 2 ^ (64 - W) + 1
  counts : ∀ (q : List Bool) (i : Nat) (n : Node), At W t q i → t.nodes[i]? = some n → n.cnt ≤ 2 ^ W

/-- a tree reached without ever having overlapping keys -/
inductive ReachSmall [Inhabited T] (P : Pkg) : Tree T → Prop
  | new : ReachSmall P (newTree P)
  | step {t t' : Tree T} {o : Op P T} {r : Res} : ReachSmall P t → o.id.len ≤ P.W → o.exec t = .ok (r, t') →
      Small P.W t' → ReachSmall P t'

end Verif.Tree
