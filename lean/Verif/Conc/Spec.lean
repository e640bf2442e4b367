import Verif.Conc.Lang
import Verif.IdxTable.Spec
import Verif.Ranged.Spec
import Verif.IPTable.Spec

/-!
What the concurrency properties say about histories (lists of `Ev`), in terms of the calls and
replies of the interfaces and of `Before` only.
-/

namespace Verif.Conc
open Verif.IdxTable (U64 Call Reply PMap SpecRun)
variable {κ ρ α L R : Type}

/-- A successful call that releases something (`rel c r`: `c` releases it if it replies `r`; a call
without reply may have released it already) can have taken effect between calls `a` and `b`: it
had not returned when `a` started, and it started before `b` returned. -/
def ReleasedBetween (H : List (Ev κ ρ)) (rel : κ → ρ → Prop) (a b : Nat) : Prop :=
  ∃ n c, Ev.inv n c ∈ H ∧ (∃ r, rel c r) ∧ (∀ r, Ev.ret n r ∈ H → rel c r) ∧ ¬ Before H n a ∧ ¬ Before H b n

/-- Two calls that acquired the same thing: one came first, and there was a release in between. -/
def OnlyAfterRelease (H : List (Ev κ ρ)) (rel : κ → ρ → Prop) (a b : Nat) : Prop :=
  (¬ Before H b a ∧ ReleasedBetween H rel a b) ∨ (¬ Before H a b ∧ ReleasedBetween H rel b a)

/-! ### Index table -/

/-- the call `c` with the reply `r` has claimed `id` (the ids claimed by `ClaimRange` cannot be seen
from its reply) -/
def Claims (id : U64) : Call α → Reply α → Prop
  | .claim i _, r => i = id ∧ r = .ok
  | .claimDynamic _, r => ∃ d, r = .entry ⟨id, d⟩
  | .claimSize _ _, r => ∃ es d, r = .entries es ∧ some ⟨id, d⟩ ∈ es
  | _, _ => False

/-- the call `c` with the reply `r` has released `id` -/
def Releases (id : U64) : Call α → Reply α → Prop
  | .release i, r => i = id ∧ r = .ok
  | _, _ => False

/-- The history is that of a sequential execution: there is an order of calls (all that have
returned, some of those in progress) in which they could have been executed one after the other
with the replies given, and which respects real time. -/
def Linearizable (size : U64) (H : List (Ev (Call α) (Reply α))) : Prop :=
  ∃ (L : List (Nat × Call α × Reply α)) (s : PMap α),
    (L.map (·.1)).Nodup ∧
    SpecRun size (fun _ => none) (L.map (·.2.1)) (L.map (·.2.2)) s ∧
    (∀ x ∈ L, Ev.inv x.1 x.2.1 ∈ H) ∧
    (∀ n r, Ev.ret n r ∈ H → ∃ c, (n, c, r) ∈ L) ∧
    (∀ a b, Before H a b → b ∈ L.map (·.1) → List.Sublist [a, b] (L.map (·.1)))

/-- The same for any kind of object: `ok cs rs` says that the calls `cs`, executed one after the other from the
initial state, may have the replies `rs`. -/
def LinearizableBy (ok : List κ → List ρ → Prop) (H : List (Ev κ ρ)) : Prop :=
  ∃ L : List (Nat × κ × ρ),
    (L.map (·.1)).Nodup ∧
    ok (L.map (·.2.1)) (L.map (·.2.2)) ∧
    (∀ x ∈ L, Ev.inv x.1 x.2.1 ∈ H) ∧
    (∀ n r, Ev.ret n r ∈ H → ∃ c, (n, c, r) ∈ L) ∧
    (∀ a b, Before H a b → b ∈ L.map (·.1) → List.Sublist [a, b] (L.map (·.1)))

/-! ### Ranged tables -/

open Verif.Ranged (RCall RReply)

/-- the call `c` with the reply `r` has claimed `id` -/
def RClaims (id : U64) : RCall L → RReply L → Prop
  | .claim i _, r => i = id ∧ r = .ok
  | .claimFree _, r => ∃ e, r = .entry e ∧ e.id = id
  | _, _ => False

def RReleases (id : U64) : RCall L → RReply L → Prop
  | .release i, r => i = id ∧ r = .ok
  | _, _ => False

/-- One call, with two weaker conditions: `ClaimFree` claims some available id, not always the lowest one, and
may fail at any time; the reply of `GetByLabel` can be anything. -/
def RStepW (start stop len1 len2 : Nat) (s : Ranged.LMap L) : RCall L → Ranged.LMap L → RReply L → Prop
  | .claimFree l, s', r =>
      (∃ i, Ranged.AvailR start stop s i ∧ s' = s.put i l ∧ r = .entry ⟨i, len1, l⟩) ∨ (s' = s ∧ r = .err)
  | .getByLabel _, s', _ => s' = s
  | c, s', r => Ranged.RStep start stop len1 len2 s c s' r

/-- a whole history -/
inductive RRunW (start stop len1 len2 : Nat) : Ranged.LMap L → List (RCall L) → List (RReply L) → Ranged.LMap L → Prop
  | nil (s) : RRunW start stop len1 len2 s [] [] s
  | cons {s s' s'' c cs r rs} : RStepW start stop len1 len2 s c s' r →
      RRunW start stop len1 len2 s' cs rs s'' → RRunW start stop len1 len2 s (c :: cs) (r :: rs) s''

/-! ### IP tables -/

open Verif.IPTable (Addr ICall IReply)

def IClaims (parse : String → Option Addr) (a : Addr) : ICall R → IReply R → Prop
  | .claim x _, r => parse x = some a ∧ r = .ok
  | _, _ => False

def IReleases (parse : String → Option Addr) (a : Addr) : ICall R → IReply R → Prop
  | .release x, r => parse x = some a ∧ r = .ok
  | _, _ => False

/-- One call, with a weaker condition: the reply of `GetByLabel` can be anything. -/
def IStepW (parse : String → Option Addr) (lo hi : Addr) (s : IPTable.AMap R) :
    ICall R → IPTable.AMap R → IReply R → Prop
  | .getByLabel _, s', _ => s' = s
  | c, s', r => IPTable.IStep parse lo hi s c s' r

/-- a whole history -/
inductive IRunW (parse : String → Option Addr) (lo hi : Addr) :
    IPTable.AMap R → List (ICall R) → List (IReply R) → IPTable.AMap R → Prop
  | nil (s) : IRunW parse lo hi s [] [] s
  | cons {s s' s'' c cs r rs} : IStepW parse lo hi s c s' r → IRunW parse lo hi s' cs rs s'' →
      IRunW parse lo hi s (c :: cs) (r :: rs) s''

end Verif.Conc
