import Verif.Id.Model

/-!
Specification of prefixes, ranges and id sets, over sets of integers. Only the types `MyId`, `Rng`
of the model are used.
-/

namespace Verif.Id
variable {P : Pkg}

/-- the integers with the same first `p.len` bits as `p.id` (the `W - p.len` low bits are dropped) -/
def Covers (p : MyId P) (x : BitVec P.W) : Prop :=
  x.toNat / 2 ^ (P.W - p.len) = p.id.toNat / 2 ^ (P.W - p.len)

/-- the low `W - p.len` bits are zero -/
def Aligned (p : MyId P) : Prop := p.len ≤ P.W ∧ 2 ^ (P.W - p.len) ∣ p.id.toNat

/-- `L` decomposes the interval from `a` to `b`: aligned prefixes, ascending and disjoint, covering
exactly `a..b` -/
structure Decomposes (L : List (MyId P)) (a b : BitVec P.W) : Prop where
  aligned : ∀ p ∈ L, Aligned p
  ascending : L.Pairwise (fun p q => ∀ x y, Covers p x → Covers q y → x < y)
  cover : ∀ x, (∃ p ∈ L, Covers p x) ↔ (a ≤ x ∧ x ≤ b)

/-- no exact cover by prefixes is shorter; every prefix inside lies inside a listed one -/
structure Minimal (L : List (MyId P)) (a b : BitVec P.W) : Prop where
  shortest : ∀ M : List (MyId P), (∀ q ∈ M, q.len ≤ P.W) →
    (∀ x, (∃ q ∈ M, Covers q x) ↔ (a ≤ x ∧ x ≤ b)) → L.length ≤ M.length
  maximal : ∀ q : MyId P, q.len ≤ P.W → (∀ x, Covers q x → a ≤ x ∧ x ≤ b) →
    ∃ p ∈ L, ∀ x, Covers q x → Covers p x

/-- both ends have the same first bit -/
def SameHalf (r : Rng P) : Prop :=
  r.lo.id.toNat / 2 ^ (P.W - 1) = r.hi.id.toNat / 2 ^ (P.W - 1)

/-- the ends lie on different sides of `2^63`, the first at the start of a block of `2^32` values and
the last at the end of one -/
def Misread (r : Rng P) : Prop :=
  ¬ SameHalf r ∧ 2 ^ 32 ∣ r.lo.id.toNat ∧ 2 ^ 32 ∣ r.hi.id.toNat + 1

/-- all values -/
def Whole (r : Rng P) : Prop := r.lo.id = 0 ∧ r.hi.id = BitVec.allOnes P.W

/-- `L` lists aligned prefixes, ascending and disjoint, covering exactly the values in `S` -/
structure Lists (L : List (MyId P)) (S : BitVec P.W → Prop) : Prop where
  aligned : ∀ p ∈ L, Aligned p
  ascending : L.Pairwise (fun p q => ∀ x y, Covers p x → Covers q y → x < y)
  cover : ∀ x, (∃ p ∈ L, Covers p x) ↔ S x

/-- an id (value and length) lies in the range -/
def Rng.Has (r : Rng P) (i : MyId P) : Prop :=
  i.len = r.lo.len ∧ r.lo.id ≤ i.id ∧ i.id ≤ r.hi.id

/-- both ends have the same length and are in order -/
def Rng.Valid (r : Rng P) : Prop := r.lo.len = r.hi.len ∧ r.lo.id ≤ r.hi.id

/-- union of a list of ranges -/
def HasAny (rr : List (Rng P)) (i : MyId P) : Prop := ∃ r ∈ rr, r.Has i

/-- a list of ranges is canonical: valid, strictly ascending by (length, value), disjoint and not
adjacent -/
def Canonical (rr : List (Rng P)) : Prop :=
  (∀ r ∈ rr, r.Valid) ∧
  rr.Pairwise (fun r s => r.hi.len < s.lo.len ∨
    (r.hi.len = s.lo.len ∧ r.hi.id.toNat + 1 < s.lo.id.toNat))

/-- a decimal digit in ASCII, and its value -/
def Digit (c : UInt8) (d : Nat) : Prop := c.toNat = 48 + d ∧ d < 10

/-- a non-empty decimal numeral and its value -/
inductive Numeral : List UInt8 → Nat → Prop
  | digit {c d} : Digit c d → Numeral [c] d
  | more {s n c d} : Numeral s n → Digit c d → Numeral (s ++ [c]) (10 * n + d)

/-! ### set algebra -/

/-- calls on a set builder; `addSet` has the ranges of the argument set -/
inductive Op (P : Pkg)
  | addRange (r : Rng P)
  | removeRange (r : Rng P)
  | addId (p : MyId P)
  | removeId (p : MyId P)
  | addSet (rr : List (Rng P))
  | ipSet

/-- the integers covered by a prefix, as ids of full length -/
def Block (p : MyId P) (i : MyId P) : Prop := i.len = P.W ∧ Covers p i.id

/-- what a call should do to the set; invalid ranges are ignored -/
def effect (S : MyId P → Prop) : Op P → MyId P → Prop
  | .addRange r => fun i => S i ∨ (r.Valid ∧ r.Has i)
  | .removeRange r => fun i => S i ∧ ¬ (r.Valid ∧ r.Has i)
  | .addId p => fun i => S i ∨ Block p i
  | .removeId p => fun i => S i ∧ ¬ Block p i
  | .addSet rr => fun i => S i ∨ HasAny rr i
  | .ipSet => S

/-- the set after a sequence of calls on an empty builder -/
def denote (ops : List (Op P)) : MyId P → Prop := ops.foldl effect (fun _ => False)

/-- the call has an invalid range -/
def Op.Bad : Op P → Prop
  | .addRange r => ¬ r.Valid
  | .removeRange r => ¬ r.Valid
  | _ => False

/-- an invalid range was passed since the last `IPSet` -/
def BadSince (ops : List (Op P)) : Prop :=
  ∃ a op b, ops = a ++ op :: b ∧ op.Bad ∧ Op.ipSet ∉ b

/-- id order: by length, then by value -/
def Before (a b : MyId P) : Prop := a.len < b.len ∨ (a.len = b.len ∧ a.id < b.id)

/-- prefix lengths do not exceed the width, and the ranges of a set are canonical (as `C37` says) -/
def Op.Fits : Op P → Prop
  | .addId p => p.len ≤ P.W
  | .removeId p => p.len ≤ P.W
  | .addSet rr => Canonical rr
  | _ => True

/-- the call does not touch the largest value -/
def Op.BelowMax : Op P → Prop
  | .addRange r => r.hi.id ≠ BitVec.allOnes P.W
  | .removeRange r => r.hi.id ≠ BitVec.allOnes P.W
  | .addId p => ¬ Covers p (BitVec.allOnes P.W)
  | .removeId p => ¬ Covers p (BitVec.allOnes P.W)
  | .addSet rr => ∀ r ∈ rr, r.hi.id ≠ BitVec.allOnes P.W
  | .ipSet => True

/-- the call adds nothing that starts at 1, and removes nothing that starts at 1 or ends at 0 -/
def Op.NotOne : Op P → Prop
  | .addRange r => r.lo.id ≠ 1
  | .removeRange r => r.lo.id ≠ 1 ∧ r.hi.id ≠ 0
  | .addId p => ¬ (p.len = P.W ∧ p.id = 1)
  | .removeId p => ¬ (p.len = P.W ∧ (p.id = 0 ∨ p.id = 1))
  | .addSet rr => ∀ r ∈ rr, r.lo.id ≠ 1
  | .ipSet => True

/-- the set consists of full length ids (as when built from `RangeFrom`, `AddId` and such sets) -/
def FullLength (rr : List (Rng P)) : Prop := ∀ r ∈ rr, r.lo.len = P.W

/-- the values in the set -/
def ValueIn (rr : List (Rng P)) (x : BitVec P.W) : Prop := HasAny rr ⟨x, P.W⟩

/-- an aligned block of length `l` lies in the set -/
def FreeBlock (rr : List (Rng P)) (l : Nat) (p : MyId P) : Prop :=
  p.len = l ∧ Aligned p ∧ ∀ x, Covers p x → ValueIn rr x

end Verif.Id
