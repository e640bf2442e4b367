/-!
Repeated allocation (C114): what a client gets that asks for a free id again and again.
-/

namespace Verif.Alloc
variable {S D K A : Type}

/-- the replies of repeated calls -/
def allocs (f : S → D → S × A) : S → List D → List A
  | _, [] => []
  | s, d :: ds => (f s d).2 :: allocs f (f s d).1 ds

/-- the replies hand out the ids of the first list, one after the other, and are failures when there are no more -/
def HandsOut (ok : K → D → A → Prop) (bad : A → Prop) : List K → List D → List A → Prop
  | _, [], rs => rs = []
  | [], _ :: ds, r :: rs => bad r ∧ HandsOut ok bad [] ds rs
  | k :: ks, d :: ds, r :: rs => ok k d r ∧ HandsOut ok bad ks ds rs
  | _, _ :: _, [] => False

end Verif.Alloc
