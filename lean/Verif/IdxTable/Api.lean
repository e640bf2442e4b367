import Verif.IdxTable.Model
import Verif.IdxTable.Spec

/-! The table as a state machine over the calls of its interface. -/

namespace Verif.IdxTable
variable {α : Type}

/-- the client loop `for it.Next() { ids = append(ids, it.ID()) }` over an iterator
(iterator.go:13-20) -/
def Iter.drainLoop : Nat → Iter → List U64 → List U64
  | 0, _, acc => acc
  | fuel + 1, it, acc =>
    let it := it.advance
    if h : it.inBounds then Iter.drainLoop fuel it (acc ++ [it.id h]) else acc

/-- all ids an iterator delivers -/
def Iter.drain (it : Iter) : List U64 := Iter.drainLoop (it.keys.length + 1) it []

def replyUnit : Except Err Unit → Reply α
  | .ok () => .ok
  | .error _ => .err
def replyEntry : Except Err (Entry α) → Reply α
  | .ok e => .entry e
  | .error _ => .err
def replyIds : Except Err (List U64) → Reply α
  | .ok ids => .ids ids
  | .error _ => .err
def replyId : Except Err U64 → Reply α
  | .ok i => .id i
  | .error _ => .err
def replyEntries : Except Err (List (Entry α)) → Reply α
  | .ok es => .entries (es.map some)
  | .error _ => .err

/-- dispatch of one interface call (table.go:9-30) to the modelled method -/
def step (t : Table α) : Call α → Table α × Reply α
  | .get id => (t, replyEntry (get t id))
  | .claim id d => let p := claim t id d; (p.1, replyUnit p.2)
  | .claimDynamic d => let p := claimDynamic t d; (p.1, replyEntry p.2)
  | .claimRange start n d => let p := claimRange t start n d; (p.1, replyUnit p.2)
  | .claimSize n d => let p := claimSize t n d; (p.1, replyEntries p.2)
  | .release id => let p := release t id; (p.1, replyUnit p.2)
  | .update id d => let p := update t id d; (p.1, replyUnit p.2)
  | .iterate => (t, .ids (iterateT t).drain)
  | .iterateFree => (t, .ids (iterateFree t).drain)
  | .size => (t, .nat (sizeOf t))
  | .has id => (t, .bool (has t id))
  | .isFree id => (t, .bool (isFree t id))
  | .findFree => (t, replyId (findFree t))
  | .findFreeRange start n => (t, replyIds (findFreeRange t start n))
  | .findFreeSize n => (t, replyIds (findFreeSize t n))
  | .getAll => (t, .entries (getAll t))

/-- a history of calls -/
def run (t : Table α) : List (Call α) → Table α × List (Reply α)
  | [] => (t, [])
  | c :: cs => let p := step t c; let q := run p.1 cs; (q.1, p.2 :: q.2)

end Verif.IdxTable
