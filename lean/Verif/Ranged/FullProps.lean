import Verif.Ranged.Props

/-!
C17: exactly what the table of the full range does.
-/

namespace Verif.Ranged
open Verif.IdxTable (U64)
variable {P : Width} {L : Type}

/-- the table of all ids: the size has wrapped to zero -/
def IsFull (r : RTable P L) : Prop := r.start.toNat = 0 ∧ r.stop.toNat = 2 ^ P.W - 1

theorem RInv.size_zero {r : RTable P L} (h : RInv r) (hf : IsFull r) : r.tab.size = 0 := by
  apply BitVec.eq_of_toNat_eq
  have := Nat.two_pow_pos P.W
  rw [h.size, hf.1, hf.2, Nat.sub_zero, Nat.sub_add_cancel this, Nat.mod_self]
  rfl

theorem RInv.idx_findFree {r : RTable P L} (h : RInv r) (hf : IsFull r) :
    IdxTable.findFree r.tab = .error .noFree := by
  have hk : IdxTable.freeKeys r.tab = [] := by
    unfold IdxTable.freeKeys
    rw [h.size_zero hf]
    rfl
  rw [IdxTable.findFree_eq, hk]

/-- one call on the table of all ids -/
theorem step_full (hP : Good P) {r : RTable P L} (h : RInv r) (hf : IsFull r) (c : RCall L)
    (hc : Listing c → Counts r) :
    RStepFull (2 ^ P.W - 1) P.storedLen P.outLen (absR r) c (absR (step r c).1) (step r c).2 ∧
    RInv (step r c).1 ∧ IsFull (step r c).1 := by
  have hff : findFree r = .error (.idx .noFree) := by simp only [findFree, h.idx_findFree hf]
  have fin : (RStep r.start.toNat r.stop.toNat P.storedLen P.outLen (absR r) c (absR (step r c).1) (step r c).2
      ∧ RInv (step r c).1 ∧ (step r c).1.start = r.start ∧ (step r c).1.stop = r.stop) →
      RStep 0 (2 ^ P.W - 1) P.storedLen P.outLen (absR r) c (absR (step r c).1) (step r c).2 ∧
      RInv (step r c).1 ∧ IsFull (step r c).1 := by
    rintro ⟨h1, h2, h3, h4⟩
    rw [hf.1, hf.2] at h1
    exact ⟨h1, h2, by unfold IsFull; rw [h3, h4]; exact hf⟩
  cases c with
  | claimFree l => simp only [step, claimFree, hff]; exact ⟨⟨rfl, rfl⟩, h, hf⟩
  | findFree => simp only [step, hff]; exact ⟨⟨rfl, rfl⟩, h, hf⟩
  | size | getAll | getByLabel _ => exact fin (step_refines_listing hP r h (hc trivial) _ (by simp [Listing]))
  | get _ | claim _ _ | release _ | update _ _ | has _ | isFree _ =>
    exact fin (step_refines_explicit hP r h _ (by simp [Explicit]))

/-- a call adds at most one entry -/
theorem step_length (hP : Good P) {r : RTable P L} (h : RInv r) (hf : IsFull r) (c : RCall L) :
    (step r c).1.tab.m.keys.length ≤ r.tab.m.keys.length + 1 := by
  have hff : findFree r = .error (.idx .noFree) := by simp only [findFree, h.idx_findFree hf]
  have hset : ∀ (i : U64) e, (setTab r i e).tab.m.keys.length ≤ r.tab.m.keys.length + 1 := by
    intro i e
    show (r.tab.m.set i e).keys.length ≤ _
    rw [← GoMap.len_eq_keys_length, ← GoMap.len_eq_keys_length, GoMap.len_set]
    split <;> omega
  cases c with
  | claim id l =>
    simp only [step]
    by_cases ha : AvailR r.start.toNat r.stop.toNat (absR r) id
    · rw [claim_ok hP h l ha]; exact hset _ _
    · obtain ⟨e, he⟩ := claim_err hP l ha
      rw [he]; exact Nat.le_succ _
  | update id l =>
    simp only [step]
    by_cases hs : absR r id = none
    · obtain ⟨e, he⟩ := update_err hP h l hs
      rw [he]; exact Nat.le_succ _
    · rw [(update_ok hP h l hs).2]; exact hset _ _
  | release id =>
    simp only [step]
    by_cases hin : InR r.start.toNat r.stop.toNat id
    · rw [release_in hP h hin]
      show (r.tab.m.del (idx r id)).keys.length ≤ _
      rw [← GoMap.len_eq_keys_length, ← GoMap.len_eq_keys_length]
      unfold GoMap.len GoMap.del
      exact Nat.le_succ_of_le (List.length_filter_le _ _)
    · obtain ⟨e, he⟩ := release_out hP hin
      rw [he]; exact Nat.le_succ _
  | claimFree l => simp only [step, claimFree, hff]; exact Nat.le_succ _
  | get _ | size | has _ | isFree _ | findFree | getAll | getByLabel _ => exact Nat.le_succ _

theorem run_full (hP : Good P) (cs : List (RCall L)) : ∀ {r : RTable P L}, RInv r → IsFull r →
    (64 ≤ P.W → r.tab.m.keys.length + cs.length ≤ 2 ^ 64) →
    RRunFull (2 ^ P.W - 1) P.storedLen P.outLen (absR r) cs (run r cs).2 (absR (run r cs).1) := by
  induction cs with
  | nil => intro r _ _ _; exact .nil _
  | cons c cs ih =>
    intro r h hf hn
    have hl := step_length hP h hf c
    obtain ⟨h1, h2, h3⟩ := step_full hP h hf c (fun _ => by
      by_cases hW : P.W < 64
      · exact h.counts_of_lt hW
      · have := hn (by omega)
        simp only [List.length_cons] at this
        unfold Counts; omega)
    refine .cons h1 (ih h2 h3 fun hW => ?_)
    have := hn hW
    simp only [List.length_cons] at this
    omega

theorem new_full (hP : IsPkg P) : IsFull (new 0 (-1) : RTable P L) := by
  constructor
  · show (0 : BitVec P.W).toNat = _
    simp
  · show (-1 : BitVec P.W).toNat = _
    rcases hP with rfl | rfl | rfl <;> decide

/-- C17, what does hold, for whole histories: the table of all ids has the replies of a partial map on all ids, except
that `FindFree` and `ClaimFree` always fail. (table64: for histories of at most `2^64` calls, since an iterator over
`2^64` entries would end at once.) Missing: those two calls, which violate the property. -/
theorem C17_full_range_exact_partial (hP : IsPkg P) (cs : List (RCall L)) (hn : P = w64 → cs.length ≤ 2 ^ 64) :
    ∃ s, RRunFull (2 ^ P.W - 1) P.W (max P.W 32) (fun _ => none) cs (run (new 0 (-1) : RTable P L) cs).2 s := by
  have hg := hP.good
  have hl : P.storedLen = P.W := by rcases hP with rfl | rfl | rfl <;> rfl
  have h := run_full hg cs (new_inv hg 0 (-1) (by rw [BitVec.le_def]; simp)) (new_full (L := L) hP) (fun hW => by
    have : P = w64 := by rcases hP with rfl | rfl | rfl <;> first | rfl | exact absurd hW (by decide)
    have := hn this
    simp [new, IdxTable.newTable]
    omega)
  rw [hl, hP.outLen] at h
  have he : absR (new 0 (-1) : RTable P L) = fun _ => none := by
    funext i
    unfold absR
    split
    · simp [new, IdxTable.newTable]
    · rfl
  rw [he] at h
  exact ⟨_, h⟩

/-- ids at both ends are claimed and counted -/
example : (run (new 0 (-1) : RTable w16 String)
    [.claim 65535 "z", .claim 0 "x", .claim 0 "y", .size, .isFree 8, .has 65535]).2 =
      [.ok, .ok, .err, .nat 2, .bool true, .bool true] := rfl

end Verif.Ranged
