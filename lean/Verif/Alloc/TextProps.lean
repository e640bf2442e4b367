import Verif.Alloc.Props
import Verif.IPTable.TextTable

/-! Property C122 for a client that allocates until it fails. -/

namespace Verif.Alloc
open Verif.IPTable
variable {R : Type} {lo hi : Addr}

/-- C122 (C114 with the texts of Go): in a table of fewer than `2^64` addresses, after any history, repeated `FindFree` and `Claim`
of the text of the answer hands out the free addresses in ascending order, each once, and then fails. -/
theorem C122_allocate_all (hs : SmallRange lo hi) (cs : List (ICall R)) :
    ∃ as : List Addr, as.Pairwise (fun a b => num a < num b) ∧
      (∀ a, a ∈ as ↔ InIP lo hi a ∧ isFree parseAddr (run parseAddr (new lo hi : IPTab R) cs).1 (addrString a) = true) ∧
      ∀ ds : List R, HandsOut (fun a _ r => r = some a) (fun r => r = none) as ds
        (allocs (takeIP parseAddr addrString) (run parseAddr (new lo hi : IPTab R) cs).1 ds) :=
  C114_ip hs (fun a ha => parse_string (by rintro rfl; cases lo <;> cases hi <;> exact ha)) cs

/-- the last six addresses of 10.0.0.0/29 -/
example : SmallRange (.v4 0x0a000002) (.v4 0x0a000007) ∧
    isFree parseAddr (run parseAddr (new (.v4 0x0a000002) (.v4 0x0a000007) : IPTab String) [.claim "10.0.0.2" "a"]).1
      (addrString (.v4 0x0a000003)) = true := ⟨by unfold SmallRange; decide, by decide⟩

end Verif.Alloc
