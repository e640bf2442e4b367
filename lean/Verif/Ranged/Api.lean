import Verif.Ranged.Spec

/-! The ranged table as a state machine over the calls of its interface. -/

namespace Verif.Ranged
open Verif.IdxTable (U64)
variable {P : Width} {L : Type}

def replyUnit : Except RErr Unit → RReply L
  | .ok () => .ok
  | .error _ => .err

def replyEntries : Option (List (TEntry L)) → RReply L
  | some es => .entries es
  | none => .panic

/-- dispatch of one call of `table.Table` (pkg/table/table.go:8-20) -/
def step (r : RTable P L) : RCall L → RTable P L × RReply L
  | .get id => (r, match get r id with | .ok e => .labels e.labels | .error _ => .err)
  | .claim id l => let p := claim r id l; (p.1, replyUnit p.2)
  | .claimFree l =>
    let p := claimFree r l
    (p.1, match p.2 with | .ok e => .entry e | .error _ => .err)
  | .release id => let p := release r id; (p.1, replyUnit p.2)
  | .update id l => let p := update r id l; (p.1, replyUnit p.2)
  | .size => (r, .nat (sizeOf r))
  | .has id => (r, .bool (has r id))
  | .isFree id => (r, .bool (isFree r id))
  | .findFree => (r, match findFree r with | .ok i => .id i | .error _ => .err)
  | .getAll => (r, replyEntries (getAll r))
  | .getByLabel sel => (r, replyEntries (getByLabel r sel))

/-- a history of calls -/
def run (r : RTable P L) : List (RCall L) → RTable P L × List (RReply L)
  | [] => (r, [])
  | c :: cs => let p := step r c; let q := run p.1 cs; (q.1, p.2 :: q.2)

end Verif.Ranged
