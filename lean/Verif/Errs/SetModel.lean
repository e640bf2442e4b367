import Verif.Errs.Model
import Verif.Id.Builder

/-!
The texts of the errors of `ParseRange` and of the set builder (range32.go, idset.go; id16 and id64 have the same
texts), and `IsZero` of a range.

* `%q` (`strconv.Quote`, not part of /repo) is an arbitrary function `q`.
* `%v` of an id is its `String` (id32.go:58-60), of an unsigned integer its decimal numeral.
* `errors.Join(a, b)` is `b` if `a` is nil; its text is the texts of both with a newline between. The text of `s.errs` is
  kept as the list of its lines.
-/

namespace Verif.Id
open Verif.IdxTable (Text)
open Verif.GTree (ascii)
variable {P : Pkg}

/-- range32.go:41-60 `ParseRange`: the text of the error -/
def parseRangeMsg (P : Pkg) (q : Text → Text) (s : Text) : Option Text :=
  match indexByte s 45 with
  | none => some (ascii "no hyphen in range " ++ q s)
  | some h =>
    match parseUint (s.take h) P.W with
    | none => some (ascii "invalid from id " ++ q (s.take h) ++ ascii " in range " ++ q s)
    | some _ =>
      match parseUint (s.drop (h + 1)) P.W with
      | none => some (ascii "invalid to id " ++ q (s.drop (h + 1)) ++ ascii " in range " ++ q s)
      | some _ => none

/-- idset.go:35, 49 -/
def rangeLine (w : String) (r : Rng P) : Text :=
  ascii w ++ ascii "(" ++ r.lo.string ++ ascii "-" ++ r.hi.string ++ ascii ")"

/-- idset.go:20, 29 -/
def idLine (w : String) (i : MyId P) : Text :=
  ascii w ++ ascii "(" ++ fmtUint i.id.toNat ++ ascii "-" ++ fmtUint i.len ++ ascii ")"

/-- idset.go:33-42 what `AddRange` adds to `s.errs` -/
def addRangeLines (r : Rng P) : List Text := if !r.isValid then [rangeLine "addRange" r] else []

/-- idset.go:45-52 what `RemoveRange` adds to `s.errs` -/
def removeRangeLines (r : Rng P) : List Text := if r.isValid then [] else [rangeLine "removeRange" r]

/-- what a call adds to `s.errs` (idset.go:16-31 `AddId`, `RemoveId`; nothing if `IsValid` panics; idset.go:55-62
`AddSet`) -/
def errLines : Op P → List Text
  | .addRange r => addRangeLines r
  | .removeRange r => removeRangeLines r
  | .addId i =>
    match rangeOfID i with
    | none => []
    | some r => if r.isValid then addRangeLines r else [idLine "addId" i]
  | .removeId i =>
    match rangeOfID i with
    | none => []
    | some r => if r.isValid then removeRangeLines r else [idLine "removeId" i]
  | .addSet rr => rr.flatMap addRangeLines
  | .ipSet => []

/-- idset.go:10-14 `IDSetBuilder` with the lines of the text of `errs` -/
structure LBuilder (P : Pkg) where
  b : Builder P
  lines : List Text

/-- the text of joined errors -/
def joinLines : List Text → Text
  | [] => []
  | [l] => l
  | l :: ls => l ++ 10 :: joinLines ls

/-- a call, and the text of the error it returns (idset.go:158-170 for `IPSet`; the other calls return nothing) -/
def LBuilder.step (s : LBuilder P) (op : Op P) : Res (LBuilder P × Option Text) :=
  match s.b.step op with
  | .ok b =>
    match op with
    | .ipSet => .ok (⟨b, []⟩, if s.lines = [] then none else some (joinLines s.lines))
    | op => .ok (⟨b, s.lines ++ errLines op⟩, none)
  | .panicInvalid => .panicInvalid
  | .panicOverlap => .panicOverlap
  | .panicNil => .panicNil

/-- a sequence of calls and the texts they return -/
def LBuilder.run (s : LBuilder P) : List (Op P) → Res (LBuilder P × List (Option Text))
  | [] => .ok (s, [])
  | op :: ops =>
    match s.step op with
    | .ok (s, t) =>
      match s.run ops with
      | .ok (s, ts) => .ok (s, t :: ts)
      | .panicInvalid => .panicInvalid
      | .panicOverlap => .panicOverlap
      | .panicNil => .panicNil
    | .panicInvalid => .panicInvalid
    | .panicOverlap => .panicOverlap
    | .panicNil => .panicNil

/-- the zero value -/
def LBuilder.empty : LBuilder P := ⟨Builder.empty, []⟩

/-- range32.go:71-73 `IsZero` (a range with nil ends is `none`) -/
def isZero (r : Option (Rng P)) : Bool := r.isNone

end Verif.Id

namespace Verif.GTree
open Verif.Id
open Verif.IdxTable (Text)
variable {I : Impl} {L : Type}

/-- tree32.go:94-110 `ClaimRange`: the only error is that of `ParseRange` (`set` returns nil) -/
def GTree.claimRangeMsg (_ : GTree I L) (q : Text → Text) (s : Text) : Option Text := parseRangeMsg I.P q s

end Verif.GTree
