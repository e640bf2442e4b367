import Verif.IPTable.Spec

/-! The IP table as a state machine over the calls of its interface. -/

namespace Verif.IPTable
variable {R : Type}

def replyUnit : Except IErr Unit → IReply R
  | .ok () => .ok
  | .error _ => .err

def replyRoutes : Option (List R) → IReply R
  | some ds => .routes ds
  | none => .panic

/-- dispatch of one call of `IPTable` (iptable.go:14-28) -/
def step (parse : String → Option Addr) (r : IPTab R) : ICall R → IPTab R × IReply R
  | .get x => (r, match get parse r x with | .ok d => .route d | .error _ => .err)
  | .claim x d => let p := claim parse r x d; (p.1, replyUnit p.2)
  | .release x => let p := release parse r x; (p.1, replyUnit p.2)
  | .update x d => let p := update parse r x d; (p.1, replyUnit p.2)
  | .size => (r, .nat (sizeOf r))
  | .has x => (r, .bool (has parse r x))
  | .isFree x => (r, .bool (isFree parse r x))
  | .findFree => (r, match findFree r with | .addr a => .addr a | .err _ => .err | .panic => .panic)
  | .getAll => (r, replyRoutes (getAll r))
  | .getByLabel sel => (r, replyRoutes (getByLabel r sel))

/-- a history of calls -/
def run (parse : String → Option Addr) (r : IPTab R) : List (ICall R) → IPTab R × List (IReply R)
  | [] => (r, [])
  | c :: cs => let p := step parse r c; let q := run parse p.1 cs; (q.1, p.2 :: q.2)

end Verif.IPTable
