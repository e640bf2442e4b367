import Verif.IdxTable.Props

/-!
C105: a client holding an iterator of a table, calling its methods in any order, mixed with calls on the
table.
-/

namespace Verif.IdxTable
variable {α : Type}

/-! ### Model: the methods of an iterator, without the assumption that `Next` returned true -/

/-- iterator.go:13-15 `ID`; `none`: index out of range panic -/
def Iter.idAt (it : Iter) : Option U64 := it.keys[it.current.toNat]?

/-- iterator.go:22-27 `IsConsecutive`; `none`: index out of range panic -/
def Iter.consecutiveAt (it : Iter) : Option Bool :=
  if it.current < 1 then some false
  else
    match it.keys[(it.current - 1).toNat]?, it.keys[it.current.toNat]? with
    | some a, some b => some (decide (a = b - 1))
    | _, _ => none

theorem Iter.idAt_eq (it : Iter) (h : it.inBounds) : it.idAt = some (it.id h) := by
  unfold Iter.idAt Iter.id
  rw [List.getElem?_eq_getElem h]

theorem Iter.consecutiveAt_eq (it : Iter) (h : it.inBounds) : it.consecutiveAt = some (it.isConsecutive h) := by
  unfold Iter.consecutiveAt Iter.isConsecutive
  split
  · rfl
  · rename_i hc
    have hlt : (it.current - 1).toNat < it.keys.length := by
      unfold Iter.inBounds at h
      bv_omega
    rw [List.getElem?_eq_getElem hlt, List.getElem?_eq_getElem h]
    simp [Iter.id]

/-! ### Spec -/

/-- a call of the client -/
inductive ICall (α : Type)
  | table (c : Call α)
  | next
  | id
  | value
  | isConsecutive

/-- what it returns -/
inductive IReply (α : Type)
  | panic
  | table (r : Reply α)
  | bool (b : Bool)
  | id (i : U64)
  /-- `none` is nil -/
  | value (e : Option (Entry α))

/-- what a method of the iterator over the ids `L` returns after `n` calls of `Next`, when the table holds `s` -/
def IAnswer (L : List U64) (n : Nat) (s : PMap α) : ICall α → IReply α → Prop
  | .table _, _ => False
  | .next, r => r = .bool (decide (n < L.length))
  | .id, r => if 1 ≤ n ∧ n ≤ L.length then ∃ i, L[n - 1]? = some i ∧ r = .id i else r = .panic
  | .value, r => if 1 ≤ n ∧ n ≤ L.length then
      ∃ i, L[n - 1]? = some i ∧ r = .value ((s i).map (fun d => ⟨i, d⟩)) else r = .panic
  | .isConsecutive, r =>
    if n = 1 then r = .bool false
    else if 1 ≤ n ∧ n ≤ L.length then
      ∃ a b, L[n - 2]? = some a ∧ L[n - 1]? = some b ∧ r = .bool (decide (b = a + 1))
    else r = .panic

/-- the calls of a client on a table of capacity `size` and an iterator over `L`: number of calls of `Next` so far,
content of the table, calls, replies -/
inductive ISpec (size : U64) (L : List U64) : Nat → PMap α → List (ICall α) → List (IReply α) → Prop
  | nil (n s) : ISpec size L n s [] []
  | table {n s s' c r cs rs} : SpecStep size s c s' r → ISpec size L n s' cs rs →
      ISpec size L n s (.table c :: cs) (.table r :: rs)
  | next {n s r cs rs} : IAnswer L n s .next r → ISpec size L (n + 1) s cs rs → ISpec size L n s (.next :: cs) (r :: rs)
  | look {n s c r cs rs} : c ≠ .next → IAnswer L n s c r → ISpec size L n s cs rs → ISpec size L n s (c :: cs) (r :: rs)

/-! ### The session in the model -/

/-- one call -/
def istep (t : Table α) (it : Iter) : ICall α → Table α × Iter × IReply α
  | .table c => let p := step t c; (p.1, it, .table p.2)
  | .next => let it := it.advance; (t, it, .bool (decide it.inBounds))
  | .id => (t, it, match it.idAt with
    | some i => .id i
    | none => .panic)
  | .value => (t, it, match it.idAt with
    | some i => .value (t.m.get? i)
    | none => .panic)
  | .isConsecutive => (t, it, match it.consecutiveAt with
    | some b => .bool b
    | none => .panic)

/-- all replies -/
def irun (t : Table α) (it : Iter) : List (ICall α) → List (IReply α)
  | [] => []
  | c :: cs => let p := istep t it c; p.2.2 :: irun p.1 p.2.1 cs

theorem look_spec {t : Table α} (h : Inv t) (L : List U64) (hL : L.length < 2 ^ 64) (n : Nat) (hn : n < 2 ^ 64)
    (c : ICall α) (hc : c ≠ .next) (hc' : ∀ x, c ≠ .table x) :
    (istep t (Iter.at L n) c).1 = t ∧ (istep t (Iter.at L n) c).2.1 = Iter.at L n ∧
      IAnswer L n (absMap t) c (istep t (Iter.at L n) c).2.2 := by
  have hcur : (Iter.at L n).current = BitVec.ofNat 64 n - 1 := rfl
  have hks : (Iter.at L n).keys = L := rfl
  have hid : (Iter.at L n).idAt = if 1 ≤ n ∧ n ≤ L.length then L[n - 1]? else none := by
    unfold Iter.idAt
    rw [hcur, hks]
    split
    · rename_i h
      congr 1
      bv_omega
    · rename_i h
      rw [List.getElem?_eq_none]
      by_cases h0 : n = 0
      · subst h0
        have : (BitVec.ofNat 64 0 - 1 : BitVec 64).toNat = 2 ^ 64 - 1 := by decide
        omega
      · bv_omega
  have hval : ∀ i, t.m.get? i = (absMap t i).map (fun d => ⟨i, d⟩) := by
    intro i
    unfold absMap
    cases hg : t.m.get? i with
    | none => rfl
    | some e =>
      have := (h.2 i e hg).1
      subst this
      rfl
  cases c with
  | table c => exact absurd rfl (hc' c)
  | next => exact absurd rfl hc
  | id =>
    refine ⟨rfl, rfl, ?_⟩
    show IAnswer L n (absMap t) .id (match (Iter.at L n).idAt with | some i => .id i | none => .panic)
    rw [hid]
    unfold IAnswer
    dsimp only
    by_cases hb : 1 ≤ n ∧ n ≤ L.length
    · have hlt : n - 1 < L.length := by omega
      rw [if_pos hb, if_pos hb, List.getElem?_eq_getElem hlt]
      exact ⟨_, rfl, rfl⟩
    · rw [if_neg hb, if_neg hb]
  | value =>
    refine ⟨rfl, rfl, ?_⟩
    show IAnswer L n (absMap t) .value (match (Iter.at L n).idAt with | some i => .value (t.m.get? i) | none => .panic)
    rw [hid]
    unfold IAnswer
    dsimp only
    by_cases hb : 1 ≤ n ∧ n ≤ L.length
    · have hlt : n - 1 < L.length := by omega
      rw [if_pos hb, if_pos hb, List.getElem?_eq_getElem hlt]
      exact ⟨_, rfl, congrArg _ (hval _)⟩
    · rw [if_neg hb, if_neg hb]
  | isConsecutive =>
    refine ⟨rfl, rfl, ?_⟩
    show IAnswer L n (absMap t) .isConsecutive (match (Iter.at L n).consecutiveAt with | some b => .bool b | none => .panic)
    unfold IAnswer Iter.consecutiveAt
    dsimp only
    rw [hcur, hks]
    by_cases h1 : n = 1
    · subst h1
      rfl
    · rw [if_neg h1]
      have hnl : ¬ (BitVec.ofNat 64 n - 1 : BitVec 64) < 1 := by bv_omega
      rw [if_neg hnl]
      have hid' : L[(BitVec.ofNat 64 n - 1 : BitVec 64).toNat]? = if 1 ≤ n ∧ n ≤ L.length then L[n - 1]? else none := hid
      rw [hid']
      by_cases hb : 1 ≤ n ∧ n ≤ L.length
      · have hlt : n - 1 < L.length := by omega
        have hlt2 : n - 2 < L.length := by omega
        have he : (BitVec.ofNat 64 n - 1 - 1 : BitVec 64).toNat = n - 2 := by bv_omega
        rw [if_pos hb, if_pos hb, he, List.getElem?_eq_getElem hlt, List.getElem?_eq_getElem hlt2]
        refine ⟨_, _, rfl, rfl, ?_⟩
        refine congrArg IReply.bool (decide_eq_decide.2 ?_)
        constructor <;> (intro h; bv_omega)
      · rw [if_neg hb, if_neg hb]
        cases L[(BitVec.ofNat 64 n - 1 - 1 : BitVec 64).toNat]? <;> rfl

theorem irun_spec (L : List U64) (hL : L.length < 2 ^ 64) : ∀ (cs : List (ICall α)) (t : Table α) (n : Nat),
    Inv t → n + cs.length < 2 ^ 64 → ISpec t.size L n (absMap t) cs (irun t (Iter.at L n) cs) := by
  intro cs
  induction cs with
  | nil => intro t n _ _; exact .nil n _
  | cons c cs ih =>
    intro t n h hn
    rw [List.length_cons] at hn
    unfold irun
    cases c with
    | table c =>
      obtain ⟨h1, h2, h3⟩ := step_refines t h c
      have := ih (step t c).1 n h2 (by omega)
      rw [h3] at this
      exact .table h1 this
    | next =>
      refine .next ?_ ?_
      · show IReply.bool (decide (Iter.at L n).advance.inBounds) = _
        congr 1
        exact decide_eq_decide.2 (Iter.inBounds_at L n (by omega))
      · show ISpec t.size L (n + 1) (absMap t) cs (irun t (Iter.at L n).advance cs)
        rw [Iter.advance_at']
        exact ih t (n + 1) h (by omega)
    | id =>
      obtain ⟨h1, h2, h3⟩ := look_spec h L hL n (by omega) .id (by simp) (by simp)
      exact .look (by simp) h3 (ih t n h (by omega))
    | value =>
      obtain ⟨h1, h2, h3⟩ := look_spec h L hL n (by omega) .value (by simp) (by simp)
      exact .look (by simp) h3 (ih t n h (by omega))
    | isConsecutive =>
      obtain ⟨h1, h2, h3⟩ := look_spec h L hL n (by omega) .isConsecutive (by simp) (by simp)
      exact .look (by simp) h3 (ih t n h (by omega))

/-! ### C105 -/

/-- **C105** (violated) `ID`, `Value` and `IsConsecutive` panic before the first call of `Next`. -/
theorem C105_iterator_any_order_violated : ∃ t : Table String, Reachable 8 t ∧
    irun t (iterateT t) [.id] = [.panic] ∧ irun t (iterateT t) [.value] = [.panic] ∧
    irun t (iterateT t) [.isConsecutive] = [.panic] := by
  refine ⟨exTable, exTable_reachable, ?_⟩
  have hk : (iterateT exTable) = Iter.at [1, 5] 0 := by
    have : exTable.m.keys = [1, 5] := by decide
    simp only [iterateT, iterate, this, Iter.at]
    rw [sortKeys_of_sorted _ (by decide)]
    rfl
  rw [hk]
  exact ⟨rfl, rfl, rfl⟩

/-- **C105** (what holds) Whatever the client calls, in any order and mixed with calls on the table, every reply is as
specified: `Next` returns true as often as there are ids, `ID` and `Value` are for the id last reached and panic if there
is none, `IsConsecutive` says whether the id before it was listed, returns false after the first `Next` even if there
is no id, and otherwise panics if there is none. The ids are those claimed (free, for `IterateFree`) when the iterator was
made, in ascending order. Missing: the methods panic. -/
theorem C105_iterator_session_partial {size : U64} {t : Table α} (h : Reachable size t) (cs : List (ICall α))
    (hcs : cs.length < 2 ^ 64) :
    (∃ L, Enumerates L (fun i => has t i = true) ∧ ISpec size L 0 (absMap t) cs (irun t (iterateT t) cs)) ∧
    (∃ L, Enumerates L (fun i => i < size ∧ has t i = false) ∧
      ISpec size L 0 (absMap t) cs (irun t (iterateFree t) cs)) := by
  obtain ⟨hi, rfl⟩ := h.inv
  constructor
  · refine ⟨sortKeys t.m.keys, ?_, ?_⟩
    · have h2 := enumerates_sortKeys_keys t
      refine ⟨h2.1, fun i => (h2.2 i).trans ?_⟩
      simp only [has_eq_true, ← Option.ne_none_iff_exists', ne_eq, absMap_eq_none]
    · exact irun_spec _ (by rw [(sortKeys_perm _).length_eq]; exact hi.keys_length_lt) cs t 0 hi (by omega)
  · refine ⟨freeKeys t, ?_, ?_⟩
    · have h2 := enumerates_freeKeys t
      refine ⟨h2.1, fun i => (h2.2 i).trans ?_⟩
      rw [← freeId_iff]
      rfl
    · rw [iterateFree_at]
      exact irun_spec _ (freeKeys_length_lt t) cs t 0 hi (by omega)

/-- a session in which every kind of reply occurs -/
example : irun exTable (Iter.at [1, 5] 0) [.next, .id, .isConsecutive, .table (.release 5), .next, .value,
      .isConsecutive, .next, .id] =
    [.bool true, .id 1, .bool false, .table .ok, .bool true, .value none, .bool false, .bool false, .panic] := by
  rfl

end Verif.IdxTable
