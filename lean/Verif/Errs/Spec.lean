import Verif.IdxTable.Spec
import Verif.Ranged.Spec
import Verif.IPTable.Spec
import Verif.GTree.EntryStrProps

/-!
What the error texts say. A sentence is a text with numbers filled in; `Holds` is its meaning for a table, in terms
of the capacity and of the map from ids to values that the calls of a client show.
-/

namespace Verif.IdxTable
open Verif.Id (Numeral)
variable {α : Type}

/-- the sentences of the index table -/
inductive Sentence
  /-- id %d is bigger then max allowed entries: %d -/
  | idBig (id max : U64)
  /-- no entry found for: %d -/
  | notFound (id : U64)
  /-- no free entry found -/
  | noFree
  /-- start %d is bigger then max allowed entries: %d -/
  | startBig (start max : U64)
  /-- end %d is bigger then max allowed entries: %d -/
  | endBig (stop max : U64)
  /-- entry %d in use in range: start: %d, end %d -/
  | inUse (id start stop : U64)
  /-- could not find free range that fit in start %d, size %d -/
  | noRange (start size : U64)
  /-- size %d is bigger then max allowed entries: %d -/
  | sizeBig (size max : U64)
  /-- could not find free entries that fit in size %d -/
  | noSize (size : U64)
  /-- entry %d already exists -/
  | already (id : U64)
  /-- entry %d not created -/
  | notCreated (id : U64)
deriving DecidableEq

/-- the text consists of the words, with a decimal numeral of one of the numbers after each of them but the last -/
inductive Spells : List UInt8 → List String → List Nat → Prop
  | last {w} : Spells (GTree.ascii w) [w] []
  | more {w ws n ns s u} : Numeral s n → Spells u ws ns → Spells (GTree.ascii w ++ s ++ u) (w :: ws) (n :: ns)

/-- the words of a sentence, and the numbers between them -/
def Sentence.parts : Sentence → List String × List U64
  | .idBig i m => (["id ", " is bigger then max allowed entries: ", ""], [i, m])
  | .notFound i => (["no entry found for: ", ""], [i])
  | .noFree => (["no free entry found"], [])
  | .startBig s m => (["start ", " is bigger then max allowed entries: ", ""], [s, m])
  | .endBig e m => (["end ", " is bigger then max allowed entries: ", ""], [e, m])
  | .inUse i s e => (["entry ", " in use in range: start: ", ", end ", ""], [i, s, e])
  | .noRange s n => (["could not find free range that fit in start ", ", size ", ""], [s, n])
  | .sizeBig n m => (["size ", " is bigger then max allowed entries: ", ""], [n, m])
  | .noSize n => (["could not find free entries that fit in size ", ""], [n])
  | .already i => (["entry ", " already exists"], [i])
  | .notCreated i => (["entry ", " not created"], [i])

/-- the text is the sentence -/
def Says (m : List UInt8) (σ : Sentence) : Prop := Spells m σ.parts.1 (σ.parts.2.map BitVec.toNat)

/-- what a sentence means, if `av i` says that `i` can be claimed and `used i` that it is claimed -/
def Sentence.Holds (av used : U64 → Prop) : Sentence → Prop
  | .idBig i m => m < i
  | .notFound i => ¬ used i
  | .noFree => ∀ i, ¬ av i
  | .startBig s m => m < s
  | .endBig e m => m < e
  | .inUse i s e => used i ∧ s ≤ i ∧ i ≤ e
  | .noRange s n => ¬ ∀ k < n.toNat, ∃ i, i.toNat = s.toNat + k ∧ av i
  | .sizeBig n m => m < n
  | .noSize n => ¬ ∃ ids : List U64, ids.length = n.toNat ∧ ids.Nodup ∧ ∀ i ∈ ids, av i
  | .already i => used i
  | .notCreated i => ¬ used i

/-- a decimal digit -/
def IsDigit (c : UInt8) : Prop := 48 ≤ c.toNat ∧ c.toNat ≤ 57

/-- the number occurs in the text: as a numeral that is not part of a longer one -/
def Names (m : List UInt8) (n : Nat) : Prop :=
  ∃ p s u, m = p ++ s ++ u ∧ Numeral s n ∧ (∀ c, p.getLast? = some c → ¬ IsDigit c) ∧ (∀ c, u.head? = some c → ¬ IsDigit c)

end Verif.IdxTable

namespace Verif.Ranged
open Verif.IdxTable (U64 Sentence Spells)
variable {L : Type}

/-- the sentences of the tables of a range of ids -/
inductive RSentence
  /-- id %d, cannot be bigger than 65535 (or 4294967295) -/
  | tooBig (id max : Nat)
  /-- id %d, does not fit in the range from %d to %d -/
  | outside (id lo hi : Nat)
  /-- claim failed id %d already claimed -/
  | claimed (id : Nat)
  /-- a sentence of the index table -/
  | idx (σ : Sentence)

/-- the words of a sentence, and the numbers between them -/
def RSentence.parts : RSentence → List String × List Nat
  | .tooBig i m => (["id ", ", cannot be bigger than ", ""], [i, m])
  | .outside i lo hi => (["id ", ", does not fit in the range from ", " to ", ""], [i, lo, hi])
  | .claimed i => (["claim failed id ", " already claimed"], [i])
  | .idx σ => (σ.parts.1, σ.parts.2.map BitVec.toNat)

/-- the text is the sentence -/
def Says (m : List UInt8) (σ : RSentence) : Prop := Spells m σ.parts.1 σ.parts.2

/-- what a sentence means for the table from `start` to `stop` with the labels `s` -/
def RSentence.Holds (start stop : Nat) (s : LMap L) : RSentence → Prop
  | .tooBig i m => m < i
  | .outside i lo hi => lo = start ∧ hi = stop ∧ ¬ (lo ≤ i ∧ i ≤ hi)
  | .claimed i => ∃ id : U64, id.toNat = i ∧ s id ≠ none
  | .idx σ => σ.Holds (AvailR start stop s) (fun i => s i ≠ none)

end Verif.Ranged

namespace Verif.IPTable
open Verif.IdxTable (Spells)
variable {R : Type}

/-- the sentences of the IP table about the text `x` that was passed as address -/
inductive IPSentence
  /-- ip address %s is invalid -/
  | invalid
  /-- ip address %s, does not fit in the range from %s to %s -/
  | outside (a b : Addr)
  /-- claim failed ip %s already claimed -/
  | claimed
  /-- update failed ip %s not claimed -/
  | notClaimed
  /-- no entry found for: %d; the number is that of an address, counted from the first one -/
  | notFound (i : Nat)
  /-- no free entry found -/
  | noFree

/-- the text is the sentence; `sh` writes addresses -/
def Says (sh : Addr → List UInt8) (x m : List UInt8) : IPSentence → Prop
  | .invalid => m = GTree.ascii "ip address " ++ x ++ GTree.ascii " is invalid"
  | .outside a b => m = GTree.ascii "ip address " ++ x ++ GTree.ascii ", does not fit in the range from " ++ sh a ++
      GTree.ascii " to " ++ sh b
  | .claimed => m = GTree.ascii "claim failed ip " ++ x ++ GTree.ascii " already claimed"
  | .notClaimed => m = GTree.ascii "update failed ip " ++ x ++ GTree.ascii " not claimed"
  | .notFound i => Spells m ["no entry found for: ", ""] [i]
  | .noFree => m = GTree.ascii "no free entry found"

/-- what a sentence means for the table of the addresses from `lo` to `hi` with the routes `s`; `ip` is the address
that was passed, if it is one -/
def IPSentence.Holds (lo hi : Addr) (s : AMap R) (ip : Option Addr) : IPSentence → Prop
  | .invalid => ip = none
  | .outside a b => (∀ c, InIP a b c ↔ InIP lo hi c) ∧ ∃ c, ip = some c ∧ ¬ InIP lo hi c
  | .claimed => ∃ c, ip = some c ∧ s c ≠ none
  | .notClaimed => ∃ c, ip = some c ∧ InIP lo hi c ∧ s c = none
  | .notFound i => ∃ c, InIP lo hi c ∧ num c = num lo + i ∧ s c = none
  | .noFree => ∀ c, ¬ AvailIP lo hi s c

/-- the text contains the other one -/
def Contains (m x : List UInt8) : Prop := ∃ p u, m = p ++ x ++ u

end Verif.IPTable
