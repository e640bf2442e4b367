import Verif.Errs.Model
import Verif.GTree.EntryStrProps

/-!
The debugging output of trees, `PrintNodes` and `PrintValues` (tree.go:593-605; tree16.go:262-268, tree32.go:261-267,
tree64.go:262-268; the argument of `PrintNodes` of pkg/tree is not used).

* `fmt.Println` (not part of /repo) writes its operands with spaces between them and a newline after them. Integers are
  written in decimal. A struct is written as its fields in braces with spaces between them (`treeNode` has no `String`). An
  entry is written by its `String`, a nil interface as `<nil>`.
* The order in which `PrintValues` goes through the map is a parameter.
-/

namespace Verif.GTree
open Verif.Id
open Verif.Tree (Node)
variable {I : Impl}

/-- tree.go:595 -/
def nodeLine (i : Nat) (n : Node) : Text :=
  ascii "node " ++ fmtUint i ++ (ascii " {" ++ fmtUint n.left ++ (ascii " " ++ fmtUint n.right ++
    (ascii " " ++ fmtUint n.id.toNat ++ (ascii " " ++ fmtUint n.len ++ (ascii " " ++ fmtUint n.cnt ++ ascii "}")))))

/-- tree.go:594-596 the loop of `PrintNodes`, from the node `i` on -/
def printNodesLoop : Nat → List Node → Text
  | _, [] => []
  | i, n :: ns => nodeLine i n ++ 10 :: printNodesLoop (i + 1) ns

/-- tree.go:593-597 `PrintNodes` -/
def GTree.printNodes {L : Type} (g : GTree I L) : Text := printNodesLoop 0 g.tree.nodes

/-- tree.go:603 -/
def valLine (k : BitVec 64) (v : Option (Entry I.P LabelSet)) : Text :=
  ascii "val " ++ fmtUint k.toNat ++ (ascii " " ++ (match v with | some e => e.string | none => ascii "<nil>"))

/-- tree.go:601-605 `PrintValues`, if the loop goes through the map in the order `vs` -/
def printValues (vs : List (BitVec 64 × Option (Entry I.P LabelSet))) : Text :=
  vs.flatMap fun x => valLine x.1 x.2 ++ [10]

end Verif.GTree
