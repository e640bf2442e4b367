import Verif.IPTable.Model
import Verif.IdxTable.Spec

/-!
Specification of the IP table: a partial map from the addresses of the range to routes. Uses only
the type `Addr` of the model.
-/

namespace Verif.IPTable

/-- `a` is an unzoned address of the same family as both ends, between them -/
def InIP : Addr → Addr → Addr → Prop
  | .v4 f, .v4 t, .v4 a => f.toNat ≤ a.toNat ∧ a.toNat ≤ t.toNat
  | .v6 f _, .v6 t _, .v6 a z => f.toNat ≤ a.toNat ∧ a.toNat ≤ t.toNat ∧ z = ""
  | _, _, _ => False

/-- number of the address in its own family -/
def num : Addr → Nat
  | .zero => 0
  | .v4 a => a.toNat
  | .v6 a _ => a.toNat

/-- the two ends form a range of fewer than `2^64` addresses -/
def SmallRange : Addr → Addr → Prop
  | .v4 f, .v4 t => f.toNat ≤ t.toNat
  | .v6 f _, .v6 t _ => f.toNat ≤ t.toNat ∧ t.toNat - f.toNat + 1 < 2 ^ 64
  | _, _ => False

/-- the two ends form a range of at most `2^64` addresses -/
def MidRange : Addr → Addr → Prop
  | .v4 f, .v4 t => f.toNat ≤ t.toNat
  | .v6 f _, .v6 t _ => f.toNat ≤ t.toNat ∧ t.toNat - f.toNat + 1 ≤ 2 ^ 64
  | _, _ => False

variable {R : Type}

abbrev AMap (R : Type) := Addr → Option R
def AMap.put (s : AMap R) (a : Addr) (d : R) : AMap R := fun x => if x = a then some d else s x
def AMap.drop (s : AMap R) (a : Addr) : AMap R := fun x => if x = a then none else s x

def AvailIP (lo hi : Addr) (s : AMap R) (a : Addr) : Prop := InIP lo hi a ∧ s a = none

/-- lowest free address -/
def LeastIP (lo hi : Addr) (s : AMap R) (a : Addr) : Prop :=
  AvailIP lo hi s a ∧ ∀ b, AvailIP lo hi s b → num a ≤ num b

/-- the calls of `IPTable` (iptable.go:14-28) -/
inductive ICall (R : Type)
  | get (addr : String)
  | claim (addr : String) (d : R)
  | release (addr : String)
  | update (addr : String) (d : R)
  | size
  | has (addr : String)
  | isFree (addr : String)
  | findFree
  | getAll
  | getByLabel (sel : R → Bool)

inductive IReply (R : Type)
  | ok | err | panic
  | route (d : R)
  | routes (ds : List R)
  | addr (a : Addr)
  | bool (b : Bool)
  | nat (n : Nat)

/-- `as` lists the claimed addresses, ascending -/
def ListsIP (s : AMap R) (as : List Addr) : Prop :=
  as.Pairwise (fun a b => num a < num b) ∧ ∀ a, a ∈ as ↔ s a ≠ none

/-- one call; `addr` is resolved by `parse` -/
def IStep (parse : String → Option Addr) (lo hi : Addr) (s : AMap R) :
    ICall R → AMap R → IReply R → Prop
  | .get x, s', r => s' = s ∧
      ((∃ a d, parse x = some a ∧ s a = some d ∧ r = .route d) ∨
       ((∀ a, parse x = some a → s a = none) ∧ r = .err))
  | .claim x d, s', r =>
      (∃ a, parse x = some a ∧ AvailIP lo hi s a ∧ s' = s.put a d ∧ r = .ok) ∨
      ((∀ a, parse x = some a → ¬ AvailIP lo hi s a) ∧ s' = s ∧ r = .err)
  | .release x, s', r =>
      (∃ a, parse x = some a ∧ InIP lo hi a ∧ s' = s.drop a ∧ r = .ok) ∨
      ((∀ a, parse x = some a → ¬ InIP lo hi a) ∧ s' = s ∧ r = .err)
  | .update x d, s', r =>
      (∃ a, parse x = some a ∧ s a ≠ none ∧ s' = s.put a d ∧ r = .ok) ∨
      ((∀ a, parse x = some a → s a = none) ∧ s' = s ∧ r = .err)
  | .size, s', r => s' = s ∧ ∃ as, ListsIP s as ∧ r = .nat as.length
  | .has x, s', r => s' = s ∧ ∃ b, (b = true ↔ ∃ a, parse x = some a ∧ s a ≠ none) ∧ r = .bool b
  | .isFree x, s', r => s' = s ∧
      ∃ b, (b = true ↔ ∃ a, parse x = some a ∧ AvailIP lo hi s a) ∧ r = .bool b
  | .findFree, s', r => s' = s ∧
      ((∃ a, LeastIP lo hi s a ∧ r = .addr a) ∨ ((∀ a, ¬ AvailIP lo hi s a) ∧ r = .err))
  | .getAll, s', r => s' = s ∧ ∃ as, ListsIP s as ∧ r = .routes (as.filterMap s)
  | .getByLabel sel, s', r => s' = s ∧
      ∃ as, ListsIP s as ∧ r = .routes ((as.filterMap s).filter sel)

inductive IRun (parse : String → Option Addr) (lo hi : Addr) :
    AMap R → List (ICall R) → List (IReply R) → AMap R → Prop
  | nil (s) : IRun parse lo hi s [] [] s
  | cons {s s' s'' c cs r rs} : IStep parse lo hi s c s' r → IRun parse lo hi s' cs rs s'' →
      IRun parse lo hi s (c :: cs) (r :: rs) s''

/-! What a table of the IPv6 addresses `f` to `t` does, however many these are (C22, C65): it is a partial map on the
`2^64` slots, the slot of an address being its offset modulo `2^64`. A slot is open if it is below the number of
addresses modulo `2^64`, or this is zero. -/

open Verif.IdxTable (U64 PMap Enumerates)

/-- the text `x` denotes an address of the range with slot `i` -/
def SlotOf (parse : String → Option Addr) (f t : BitVec 128) (x : String) (i : U64) : Prop :=
  ∃ a : BitVec 128, parse x = some (.v6 a "") ∧ f.toNat ≤ a.toNat ∧ a.toNat ≤ t.toNat ∧
    i.toNat = (a.toNat - f.toNat) % 2 ^ 64

/-- the number of addresses, modulo `2^64` -/
def capNat (f t : BitVec 128) : Nat := (t.toNat - f.toNat + 1) % 2 ^ 64

def Open (f t : BitVec 128) (i : U64) : Prop := capNat f t = 0 ∨ i.toNat < capNat f t

/-- one call -/
def SlotStep (parse : String → Option Addr) (f t : BitVec 128) (s : PMap R) : ICall R → PMap R → IReply R → Prop
  | .get x, s', r => s' = s ∧
      ((∃ i d, SlotOf parse f t x i ∧ s i = some d ∧ r = .route d) ∨ ((∀ i, SlotOf parse f t x i → s i = none) ∧ r = .err))
  | .claim x d, s', r =>
      (∃ i, SlotOf parse f t x i ∧ (Open f t i ∧ s i = none) ∧ s' = s.put [i] d ∧ r = .ok) ∨
      ((∀ i, SlotOf parse f t x i → ¬ (Open f t i ∧ s i = none)) ∧ s' = s ∧ r = .err)
  | .release x, s', r =>
      (∃ i, SlotOf parse f t x i ∧ Open f t i ∧ s' = s.drop i ∧ r = .ok) ∨
      ((∀ i, SlotOf parse f t x i → ¬ Open f t i) ∧ s' = s ∧ r = .err)
  | .update x d, s', r =>
      (∃ i, SlotOf parse f t x i ∧ s i ≠ none ∧ s' = s.put [i] d ∧ r = .ok) ∨
      ((∀ i, SlotOf parse f t x i → s i = none) ∧ s' = s ∧ r = .err)
  | .size, s', r => s' = s ∧ ∃ ids, Enumerates ids (fun i => s i ≠ none) ∧ r = .nat ids.length
  | .has x, s', r => s' = s ∧ ∃ b, (b = true ↔ ∃ i, SlotOf parse f t x i ∧ s i ≠ none) ∧ r = .bool b
  | .isFree x, s', r => s' = s ∧ ∃ b, (b = true ↔ ∃ i, SlotOf parse f t x i ∧ s i = none) ∧ r = .bool b
  | .findFree, s', r => s' = s ∧
      ((∃ i : U64, i.toNat < capNat f t ∧ s i = none ∧ (∀ j : U64, j < i → s j ≠ none) ∧
        r = .addr (.v6 (f + i.setWidth 128) "")) ∨
       ((∀ i : U64, i.toNat < capNat f t → s i ≠ none) ∧ r = .err))
  | .getAll, s', r => s' = s ∧ ∃ ids, Enumerates ids (fun i => s i ≠ none) ∧ r = .routes (ids.filterMap s)
  | .getByLabel sel, s', r => s' = s ∧
      ∃ ids, Enumerates ids (fun i => s i ≠ none) ∧ r = .routes ((ids.filterMap s).filter sel)

inductive SlotRun (parse : String → Option Addr) (f t : BitVec 128) :
    PMap R → List (ICall R) → List (IReply R) → PMap R → Prop
  | nil (s) : SlotRun parse f t s [] [] s
  | cons {s s' s'' c cs r rs} : SlotStep parse f t s c s' r → SlotRun parse f t s' cs rs s'' →
      SlotRun parse f t s (c :: cs) (r :: rs) s''

end Verif.IPTable
