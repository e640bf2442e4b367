/-!
Model of `pkg/tree/id16`, `pkg/tree/id32`, `pkg/tree/id64`.

The three packages are the same text up to the integer type, except for the parts collected in
`Pkg`. Citations give the lines of id32 unless the packages differ.

Simplifications: `tree.ID` values are the values of the package's own type `myidN` (ids of
different packages are not mixed, and `makeID`'s pointer `&myidN` is identified with the value it
points to: pointers are only returned by `IDs`; `PtrProps.lean` keeps them apart); `uint8` lengths are
natural numbers; the byte array of `LastID` is the integer it encodes (big endian); errors are a flag.
Panics and nil interfaces are explicit values.
-/

namespace Verif.Id

/-- what differs between the packages -/
structure Pkg where
  /-- `IDBitSize` -/
  W : Nat
  /-- the table `mask6` -/
  mask6 : List (BitVec W)
  /-- the bound checked by `Mask`: `IDBitSize`, but 32 in id64.go:132 -/
  maskMax : Nat
  /-- `addOne` -/
  addOne : BitVec W → BitVec W
  /-- `subOne` -/
  subOne : BitVec W → BitVec W

/-! ### Arithmetic of the packages -/

/-- id16/myuint16.go:58-63 `Add16(x, y, 0)`: sum and carry -/
def add16 (x y : BitVec 16) : BitVec 16 × BitVec 16 :=
  let sum64 : BitVec 64 := x.setWidth 64 + y.setWidth 64
  (sum64.setWidth 16, (sum64 >>> 16).setWidth 16)

/-- id16/myuint16.go:43-51 `Sub16(x, y, 0)`: difference and borrow -/
def sub16 (x y : BitVec 16) : BitVec 16 × BitVec 16 :=
  let diff := x - y
  (diff, ((~~~x &&& y) ||| (~~~(x ^^^ y) &&& diff)) >>> 15)

/-- `bits.Add32(x, y, 0)` of the standard library -/
def add32 (x y : BitVec 32) : BitVec 32 × BitVec 32 :=
  let sum64 : BitVec 64 := x.setWidth 64 + y.setWidth 64
  (sum64.setWidth 32, (sum64 >>> 32).setWidth 32)

/-- `bits.Sub32(x, y, 0)` of the standard library -/
def sub32 (x y : BitVec 32) : BitVec 32 × BitVec 32 :=
  let diff := x - y
  (diff, ((~~~x &&& y) ||| (~~~(x ^^^ y) &&& diff)) >>> 31)

/-- `bits.Add64(x, y, 0)` of the standard library -/
def add64 (x y : BitVec 64) : BitVec 64 × BitVec 64 :=
  let sum := x + y
  (sum, ((x &&& y) ||| ((x ||| y) &&& ~~~sum)) >>> 63)

/-- id16/myuint16.go:34-37 `addOne` -/
def addOne16 (u : BitVec 16) : BitVec 16 := (add16 u 1).1 + (add16 u 1).2
/-- id16/myuint16.go:28-31 `subOne` -/
def subOne16 (u : BitVec 16) : BitVec 16 := (sub16 u 1).1 - (sub16 u 1).2
/-- id32/myuint32.go:36-39 `addOne` -/
def addOne32 (u : BitVec 32) : BitVec 32 := (add32 u 1).1 + (add32 u 1).2
/-- id32/myuint32.go:30-33 `subOne` -/
def subOne32 (u : BitVec 32) : BitVec 32 := (sub32 u 1).1 - (sub32 u 1).2
/-- id64/myuint64.go:36-39 `addOne` -/
def addOne64 (u : BitVec 64) : BitVec 64 := (add64 u 1).1 + (add64 u 1).2
/-- id64/myuint64.go:30-33 `subOne`: computed in 32 bits -/
def subOne64 (u : BitVec 64) : BitVec 64 :=
  ((sub32 (u.setWidth 32) 1).1 - (sub32 (u.setWidth 32) 1).2).setWidth 64

/-- id16/myuint16.go:78-96 `mask6` -/
def mask16 : List (BitVec 16) :=
  [0x0000, 0x8000, 0xc000, 0xe000, 0xf000, 0xf800, 0xfc00, 0xfe00,
   0xff00, 0xff80, 0xffc0, 0xffe0, 0xfff0, 0xfff8, 0xfffc, 0xfffe,
   0xffff]

/-- id32/myuint32.go:53-87 `mask6` -/
def mask32 : List (BitVec 32) :=
  [0x00000000, 0x80000000, 0xc0000000, 0xe0000000, 0xf0000000, 0xf8000000,
   0xfc000000, 0xfe000000, 0xff000000, 0xff800000, 0xffc00000, 0xffe00000,
   0xfff00000, 0xfff80000, 0xfffc0000, 0xfffe0000, 0xffff0000, 0xffff8000,
   0xffffc000, 0xffffe000, 0xfffff000, 0xfffff800, 0xfffffc00, 0xfffffe00,
   0xffffff00, 0xffffff80, 0xffffffc0, 0xffffffe0, 0xfffffff0, 0xfffffff8,
   0xfffffffc, 0xfffffffe, 0xffffffff]

/-- id64/myuint64.go:53-119 `mask6` -/
def mask64 : List (BitVec 64) :=
  [0xffffffff00000000, 0x8000000000000000, 0xc000000000000000, 0xe000000000000000,
   0xf000000000000000, 0xf800000000000000, 0xfc00000000000000, 0xfe00000000000000,
   0xff00000000000000, 0xff80000000000000, 0xffc0000000000000, 0xffe0000000000000,
   0xfff0000000000000, 0xfff8000000000000, 0xfffc000000000000, 0xfffe000000000000,
   0xffff000000000000, 0xffff800000000000, 0xffffc00000000000, 0xffffe00000000000,
   0xfffff00000000000, 0xfffff80000000000, 0xfffffc0000000000, 0xfffffe0000000000,
   0xffffff0000000000, 0xffffff8000000000, 0xffffffc000000000, 0xffffffe000000000,
   0xfffffff000000000, 0xfffffff800000000, 0xfffffffc00000000, 0xfffffffe00000000,
   0xffffffff00000000, 0xffffffff80000000, 0xffffffffc0000000, 0xffffffffe0000000,
   0xfffffffff0000000, 0xfffffffff8000000, 0xfffffffffc000000, 0xfffffffffe000000,
   0xffffffffff000000, 0xffffffffff800000, 0xffffffffffc00000, 0xffffffffffe00000,
   0xfffffffffff00000, 0xfffffffffff80000, 0xfffffffffffc0000, 0xfffffffffffe0000,
   0xffffffffffff0000, 0xffffffffffff8000, 0xffffffffffffc000, 0xffffffffffffe000,
   0xfffffffffffff000, 0xfffffffffffff800, 0xfffffffffffffc00, 0xfffffffffffffe00,
   0xffffffffffffff00, 0xffffffffffffff80, 0xffffffffffffffc0, 0xffffffffffffffe0,
   0xfffffffffffffff0, 0xfffffffffffffff8, 0xfffffffffffffffc, 0xfffffffffffffffe,
   0xffffffffffffffff]

/-- package id16 -/
def id16 : Pkg := ⟨16, mask16, 16, addOne16, subOne16⟩
/-- package id32 -/
def id32 : Pkg := ⟨32, mask32, 32, addOne32, subOne32⟩
/-- package id64 -/
def id64 : Pkg := ⟨64, mask64, 32, addOne64, subOne64⟩

variable {P : Pkg}

/-- `bits.LeadingZerosN` -/
def leadingZeros {W : Nat} (x : BitVec W) : Nat :=
  if x.toNat = 0 then W else W - 1 - x.toNat.log2

/-! ### Ids -/

/-- id32.go:18-21 `myid32`; `⟨id, len⟩` is `NewID(id, len)` (id32.go:23-28) -/
structure MyId (P : Pkg) where
  id : BitVec P.W
  len : Nat
deriving DecidableEq

/-- the zero value `myid32{}` -/
def zeroId : MyId P := ⟨0, 0⟩

/-- id32.go:66-80 `Overlaps`; `none`: index out of range panic -/
def MyId.overlaps (r b : MyId P) : Option Bool :=
  let minbits := if r.len < b.len then r.len else b.len
  if minbits = 0 then some true
  else
    match P.mask6[minbits]? with
    | none => none
    | some m => some (r.id &&& m == b.id &&& m)

/-- id32.go:85-100 `Compare` -/
def MyId.compare (r id2 : MyId P) : Int :=
  if r.len < id2.len then -1
  else if r.len > id2.len then 1
  else if r.id < id2.id then -1
  else if r.id > id2.id then 1
  else 0

/-- id32.go:105 `Less` -/
def MyId.less (r id2 : MyId P) : Bool := r.compare id2 == -1

/-- id32.go:109-117 `Next` -/
def MyId.next (i : MyId P) : MyId P :=
  let v := P.addOne i.id
  if v = 0 then zeroId else { i with id := v }

/-- id32.go:121-127 `Prev` -/
def MyId.prev (i : MyId P) : MyId P :=
  if i.id = 0 then zeroId else { i with id := P.subOne i.id }

/-- result of `Mask`; an index out of range of the table would panic -/
inductive Masked (P : Pkg)
  | err
  | ok (i : MyId P)
  | panic

/-- id32.go:131-137 `Mask` -/
def MyId.mask (i : MyId P) (l : Nat) : Masked P :=
  if l > P.maskMax then .err
  else
    match P.mask6[l]? with
    | none => .panic
    | some m => .ok ⟨i.id &&& m, l⟩

/-! ### Ranges -/

/-- range32.go:13-16 `r32` with both ends set -/
structure Rng (P : Pkg) where
  lo : MyId P
  hi : MyId P
deriving DecidableEq

/-- range32.go:18-23 `RangeFrom` -/
def rangeFrom (lo hi : BitVec P.W) : Rng P := ⟨⟨lo, P.W⟩, ⟨hi, P.W⟩⟩

/-- range32.go:31-34 `SetTo` -/
def Rng.setTo (r : Rng P) (i : MyId P) : Rng P := { r with hi := i }

/-- range32.go:36-39 `SetFrom` -/
def Rng.setFrom (r : Rng P) (i : MyId P) : Rng P := { r with lo := i }

/-- range32.go:66-69 `IsValid` -/
def Rng.isValid (r : Rng P) : Bool := r.lo.len == r.hi.len && !(decide (r.hi.id < r.lo.id))

/-- range32.go:75-80 `Less` -/
def Rng.less (r o : Rng P) : Bool :=
  let cmp := r.lo.compare o.lo
  if cmp ≠ 0 then decide (cmp < 0) else o.hi.less r.hi

/-- range32.go:96-98 `EntirelyBefore` -/
def Rng.entirelyBefore (r o : Rng P) : Bool := r.hi.less o.lo

/-- range32.go:100 `lessOrEq` -/
def lessOrEq (a b : MyId P) : Bool := decide (a.compare b ≤ 0)

/-- range32.go:104-106 `CoveredBy` -/
def Rng.coveredBy (r o : Rng P) : Bool := lessOrEq o.lo r.lo && lessOrEq r.hi o.hi

/-- range32.go:110-112 `InMiddleOf` -/
def Rng.inMiddleOf (r o : Rng P) : Bool := o.lo.less r.lo && r.hi.less o.hi

/-- range32.go:116-118 `OverlapsStartOf` -/
def Rng.overlapsStartOf (r o : Rng P) : Bool := lessOrEq r.lo o.lo && r.hi.less o.hi

/-- range32.go:122-124 `OverlapsEndOf` -/
def Rng.overlapsEndOf (r o : Rng P) : Bool := o.lo.less r.lo && lessOrEq o.hi r.hi

/-- range32.go:145-162 `compareIDs`; `none`: index out of range panic -/
def compareIDs (a b : BitVec P.W) : Option (Nat × Bool) :=
  let common := leadingZeros (a ^^^ b)
  if common = P.W then some (common, true)
  else
    match P.mask6[common]? with
    | none => none
    | some m => some (common, a ^^^ (a &&& m) == 0 && b ||| m == BitVec.allOnes P.W)

/-- myuint32.go:43-45 `bitsSetFrom` -/
def bitsSetFrom (u : BitVec P.W) (bit : Nat) : Option (BitVec P.W) :=
  (P.mask6[bit]?).map (fun m => u ||| ~~~m)

/-- myuint32.go:49-51 `bitsClearedFrom` -/
def bitsClearedFrom (u : BitVec P.W) (bit : Nat) : Option (BitVec P.W) :=
  (P.mask6[bit]?).map (fun m => u &&& m)

/-- range32.go:132-141 `appendRangeIDs`; `none`: panic, or recursion deeper than `fuel` -/
def appendRangeIDs : Nat → List (MyId P) → BitVec P.W → BitVec P.W → Option (List (MyId P))
  | 0, _, _, _ => none
  | fuel + 1, dst, a, b =>
    match compareIDs a b with
    | none => none
    | some (common, true) => some (dst ++ [⟨a, common⟩])
    | some (common, false) =>
      match bitsSetFrom a (common + 1), bitsClearedFrom b (common + 1) with
      | some a', some b' =>
        match appendRangeIDs fuel dst a a' with
        | none => none
        | some dst => appendRangeIDs fuel dst b' b
      | _, _ => none

/-- range32.go:82-88 `IDs`, `AppendIDs(nil)`; `C32` shows that the recursion depth `W + 1`
suffices -/
def Rng.ids (r : Rng P) : Option (List (MyId P)) := appendRangeIDs (P.W + 1) [] r.lo.id r.hi.id

/-- `n` rounds of the loop of `LastID` (range32.go:237-240) from bit `b` (0 is the leftmost) on;
byte `b/8` of the big endian array is byte `W/8-1-b/8` of the integer -/
def setBitsN (W : Nat) : Nat → Nat → BitVec W → BitVec W
  | 0, _, a => a
  | n + 1, b, a =>
    setBitsN W n (b + 1) (a ||| ((1 : BitVec W) <<< (8 * (W / 8 - 1 - b / 8) + (7 - b % 8))))

/-- the loop of `LastID`: `for b := length; b < IDBitSize; b++` -/
def setBits (W : Nat) (b : Nat) (a : BitVec W) : BitVec W := setBitsN W (W - b) b a

/-- range32.go:231-242 `LastID` of a non-nil id -/
def lastID (i : MyId P) : MyId P := ⟨setBits P.W i.len i.id, P.W⟩

/-- range32.go:223-229 `RangeOfID`: `none` is the zero range `r32{}`, whose ends are nil.
(`Masked`, id32.go:139-142, yields nil when `Mask` fails; its index panic cannot happen, the bound
is below the size of the table.) -/
def rangeOfID (i : MyId P) : Option (Rng P) :=
  match i.mask i.len with
  | .ok m => some (rangeFrom m.id (lastID m).id)
  | _ => none

/-- the order in which `sort.Slice(rr, Less)` leaves ranges; not stable, but ranges that compare
equal are equal -/
def sortRanges (rr : List (Rng P)) : List (Rng P) := rr.mergeSort (fun a b => !(b.less a))

/-- range32.go:180-216 the loop of `mergeRanges`; `acc ++ [prev]` is `out` -/
def mergeLoop : List (Rng P) → Rng P → List (Rng P) → Option (List (Rng P))
  | acc, prev, [] => some (acc ++ [prev])
  | acc, prev, r :: rs =>
    if !r.isValid then none
    else if prev.hi.next = r.lo then mergeLoop acc (prev.setTo r.hi) rs
    else if prev.hi.less r.lo then mergeLoop (acc ++ [prev]) r rs
    else if prev.hi.less r.hi then mergeLoop acc (prev.setTo r.hi) rs
    else mergeLoop acc prev rs

/-- range32.go:166-218 `mergeRanges`; `none`: `valid = false` -/
def mergeRanges (rr : List (Rng P)) : Option (List (Rng P)) :=
  match rr with
  | [] => some []
  | [r] => some [r]
  | _ =>
    match sortRanges rr with
    | [] => some []
    | r :: rs => mergeLoop [] r rs

/-! ### The set builder -/

/-- a result, or one of the panics -/
inductive Res (α : Type)
  | ok (a : α)
  /-- idset.go:88 -/
  | panicInvalid
  /-- idset.go:145 -/
  | panicOverlap
  /-- method call on a nil interface -/
  | panicNil

/-- idset.go:10-14 `IDSetBuilder`; `errs` is true when the Go field is not nil -/
structure Builder (P : Pkg) where
  ins : List (Rng P)
  outs : List (Rng P)
  errs : Bool

/-- the zero value -/
def Builder.empty : Builder P := ⟨[], [], false⟩

/-- idset.go:81-151 the loop of `normalize` -/
def normLoop (min : List (Rng P)) : List (Rng P) → List (Rng P) → Res (List (Rng P))
  | [], _ => .ok min
  | rin :: ins, [] => .ok (min ++ rin :: ins)
  | rin :: ins, rout :: outs =>
    if !rout.isValid || !rin.isValid then .panicInvalid
    else if rout.entirelyBefore rin then normLoop min (rin :: ins) outs
    else if rin.entirelyBefore rout then normLoop (min ++ [rin]) ins (rout :: outs)
    else if rin.coveredBy rout then normLoop min ins (rout :: outs)
    else if rout.inMiddleOf rin then
      normLoop (min ++ [⟨rin.lo, rout.lo.prev⟩]) (rin.setFrom rout.hi.next :: ins) outs
    else if rout.overlapsStartOf rin then normLoop min (rin.setFrom rout.hi.next :: ins) outs
    else if rout.overlapsEndOf rin then
      normLoop (min ++ [⟨rin.lo, rout.lo.prev⟩]) ins (rout :: outs)
    else .panicOverlap
termination_by ins outs => ins.length + outs.length

/-- idset.go:67-156 `normalize`. When a merge fails, `sort.Slice` (range32.go:177) has sorted the ranges in place; this
is observable, since `IPSet` then copies them. -/
def Builder.normalize (s : Builder P) : Res (Builder P) :=
  match mergeRanges s.ins, mergeRanges s.outs with
  | some ins, some outs =>
    match normLoop [] ins outs with
    | .ok m => .ok { s with ins := m, outs := [] }
    | .panicInvalid => .panicInvalid
    | .panicOverlap => .panicOverlap
    | .panicNil => .panicNil
  | none, _ => .ok { s with ins := sortRanges s.ins }
  | some _, none => .ok { s with ins := sortRanges s.ins, outs := sortRanges s.outs }

/-- idset.go:33-42 `AddRange` -/
def Builder.addRange (s : Builder P) (r : Rng P) : Res (Builder P) :=
  if !r.isValid then .ok { s with errs := true }
  else if s.outs.length > 0 then
    match s.normalize with
    | .ok s => .ok { s with ins := s.ins ++ [r] }
    | e => e
  else .ok { s with ins := s.ins ++ [r] }

/-- idset.go:45-52 `RemoveRange` -/
def Builder.removeRange (s : Builder P) (r : Rng P) : Res (Builder P) :=
  if r.isValid then .ok { s with outs := s.outs ++ [r] } else .ok { s with errs := true }

/-- idset.go:16-22 `AddId`: `IsValid` of the zero range calls a method of a nil interface -/
def Builder.addId (s : Builder P) (i : MyId P) : Res (Builder P) :=
  match rangeOfID i with
  | none => .panicNil
  | some r => if r.isValid then s.addRange r else .ok { s with errs := true }

/-- idset.go:25-31 `RemoveId` -/
def Builder.removeId (s : Builder P) (i : MyId P) : Res (Builder P) :=
  match rangeOfID i with
  | none => .panicNil
  | some r => if r.isValid then s.removeRange r else .ok { s with errs := true }

/-- idset.go:172-179 `IDSet` (not nil) -/
structure IDSet (P : Pkg) where
  rr : List (Rng P)

/-- idset.go:55-62 `AddSet`, over the ranges of the set (a nil set has none) -/
def Builder.addSet (s : Builder P) : List (Rng P) → Res (Builder P)
  | [] => .ok s
  | r :: rs =>
    match s.addRange r with
    | .ok s => s.addSet rs
    | e => e

/-- idset.go:158-170 `IPSet`: the builder afterwards, the set, and whether an error is returned -/
def Builder.ipSet (s : Builder P) : Res (Builder P × IDSet P × Bool) :=
  match s.normalize with
  | .ok s => .ok ({ s with errs := false }, ⟨s.ins⟩, s.errs)
  | .panicInvalid => .panicInvalid
  | .panicOverlap => .panicOverlap
  | .panicNil => .panicNil

/-- idset.go:189-195 `IDs`; `none`: panic -/
def idsAll : List (Rng P) → Option (List (MyId P))
  | [] => some []
  | r :: rs =>
    match r.ids, idsAll rs with
    | some l, some m => some (l ++ m)
    | _, _ => none

/-- idset.go:189-195 `IDs` -/
def IDSet.ids (s : IDSet P) : Option (List (MyId P)) := idsAll s.rr

/-- idset.go:206-217 the inner loop of `RemoveFreePrefix` -/
def bestIn (bitLen : Nat) : Option (MyId P) → List (MyId P) → Option (MyId P)
  | best, [] => best
  | best, i :: is =>
    if i.len > bitLen then bestIn bitLen best is
    else
      let better := match best with
        | none => true
        | some b => decide (i.len > b.len)
      if better then
        if i.len = bitLen then some i else bestIn bitLen (some i) is
      else bestIn bitLen best is

/-- idset.go:205-218 the loops of `RemoveFreePrefix`; outer `none`: panic -/
def bestOf (bitLen : Nat) : Option (MyId P) → List (Rng P) → Option (Option (MyId P))
  | best, [] => some best
  | best, r :: rs =>
    match r.ids with
    | none => none
    | some l => bestOf bitLen (bestIn bitLen best l) rs

/-- idset.go:203-231 `RemoveFreePrefix`: `.ok none` is `ok = false`; a panic inside `IDs` (which
`C32` excludes for id16 and id32) is reported as `panicNil` -/
def IDSet.removeFreePrefix (s : IDSet P) (bitLen : Nat) : Res (Option (MyId P × IDSet P)) :=
  match bestOf bitLen none s.rr with
  | none => .panicNil
  | some none => .ok none
  | some (some best) =>
    let i : MyId P := ⟨best.id, bitLen⟩
    match Builder.empty.addSet s.rr with
    | .ok b =>
      match b.removeId i with
      | .ok b =>
        match b.ipSet with
        | .ok (_, set, _) => .ok (some (i, set))
        | .panicInvalid => .panicInvalid
        | .panicOverlap => .panicOverlap
        | .panicNil => .panicNil
      | .panicInvalid => .panicInvalid
      | .panicOverlap => .panicOverlap
      | .panicNil => .panicNil
    | .panicInvalid => .panicInvalid
    | .panicOverlap => .panicOverlap
    | .panicNil => .panicNil

/-! ### Text -/

/-- one round of the loop of `strconv.ParseUint(s, 10, bitSize)`, from the state `n` on; `none` is
either error. A letter is a digit `>= 10`, hence an error as well. -/
def parseUintLoop (bitSize : Nat) : BitVec 64 → List UInt8 → Option (BitVec 64)
  | n, [] => some n
  | n, c :: cs =>
    if 48 ≤ c ∧ c ≤ 57 then
      let d : BitVec 64 := BitVec.ofNat 64 (c - 48).toNat
      let maxVal : BitVec 64 := ((1 : BitVec 64) <<< bitSize) - 1
      let cutoff : BitVec 64 := BitVec.allOnes 64 / 10 + 1
      if n ≥ cutoff then none
      else
        let n := n * 10
        let n1 := n + d
        if n1 < n ∨ n1 > maxVal then none else parseUintLoop bitSize n1 cs
    else none

/-- `strconv.ParseUint(s, 10, bitSize)` of the standard library -/
def parseUint (s : List UInt8) (bitSize : Nat) : Option (BitVec 64) :=
  if s = [] then none else parseUintLoop bitSize 0 s

/-- `strings.IndexByte` -/
def indexByte : List UInt8 → UInt8 → Option Nat
  | [], _ => none
  | c :: cs, b => if c = b then some 0 else (indexByte cs b).map (· + 1)

/-- range32.go:41-60 `ParseRange`; `none` is an error -/
def parseRange (s : List UInt8) : Option (Rng P) :=
  match indexByte s 45 with
  | none => none
  | some h =>
    match parseUint (s.take h) P.W with
    | none => none
    | some a =>
      match parseUint (s.drop (h + 1)) P.W with
      | none => none
      | some b => some ⟨⟨a.setWidth P.W, P.W⟩, ⟨b.setWidth P.W, P.W⟩⟩

/-- `%d` of an unsigned integer -/
def fmtUint (n : Nat) : List UInt8 :=
  if n < 10 then [UInt8.ofNat (48 + n)] else fmtUint (n / 10) ++ [UInt8.ofNat (48 + n % 10)]

/-- range32.go:62-64 `String` -/
def Rng.string (r : Rng P) : List UInt8 := fmtUint r.lo.id.toNat ++ 45 :: fmtUint r.hi.id.toNat

/-- id32.go:58-60 `String` -/
def MyId.string (i : MyId P) : List UInt8 := fmtUint i.id.toNat ++ 47 :: fmtUint i.len

end Verif.Id
