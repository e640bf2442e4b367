import Verif.IPTable.Props

/-!
Property C113: IP tables of ranges that contain no address, because the ends are in the wrong order, are of different families,
or are the zero address.
-/

namespace Verif.IPTable
open Verif.IdxTable (U64)
variable {R : Type} {parse : String → Option Addr} {lo hi : Addr}

/-- the number of an address, with IPv4 as IPv4-mapped IPv6 -/
def mapped : Addr → Nat
  | .zero => 0
  | .v4 a => 0xffff * 2 ^ 32 + a.toNat
  | .v6 a _ => a.toNat

/-- the address that a client gets for the first address of a range -/
def first : Addr → Addr
  | .zero => .v6 0 ""
  | .v4 a => .v4 a
  | .v6 a _ => .v6 a ""

/-- What a table answers that contains nothing and accepts nothing. Nothing is said about `FindFree`. -/
def Refuses : ICall R → IReply R → Prop
  | .get _, r | .claim _ _, r | .release _, r | .update _ _, r => r = .err
  | .size, r => r = .nat 0
  | .has _, r | .isFree _, r => r = .bool false
  | .getAll, r | .getByLabel _, r => r = .routes []
  | .findFree, _ => True

/-- one answer for each call -/
inductive Replies (A : ICall R → IReply R → Prop) : List (ICall R) → List (IReply R) → Prop
  | nil : Replies A [] []
  | cons {c cs r rs} : A c r → Replies A cs rs → Replies A (c :: cs) (r :: rs)

theorem getAll_new : IdxTable.getAll (new lo hi : IPTab R).tab = [] := by
  have : (new lo hi : IPTab R).tab.m.keys = [] := rfl
  rw [IdxTable.getAll, IdxTable.getAllOrd_eq _ _ (by rw [this]; decide), this]
  simp [IdxTable.sortKeys]

theorem step_refuses (hn : ∀ a, ¬ InIP lo hi a) (c : ICall R) :
    (step parse (new lo hi : IPTab R) c).1 = new lo hi ∧ Refuses c (step parse (new lo hi : IPTab R) c).2 := by
  have hv : ∀ x, ∃ e, validateIP parse (new lo hi : IPTab R) x = .error e :=
    fun x => validate_out rfl fun a _ => hn a
  cases c with
  | get x => obtain ⟨e, he⟩ := hv x; simp [step, get, he, Refuses]
  | claim x d => obtain ⟨e, he⟩ := hv x; simp [step, claim, he, Refuses, replyUnit]
  | release x => obtain ⟨e, he⟩ := hv x; simp [step, release, he, Refuses, replyUnit]
  | update x d => obtain ⟨e, he⟩ := hv x; simp [step, update, he, Refuses, replyUnit]
  | size => exact ⟨rfl, rfl⟩
  | has x => obtain ⟨e, he⟩ := hv x; simp [step, has, he, Refuses]
  | isFree x => obtain ⟨e, he⟩ := hv x; simp [step, isFree, he, Refuses]
  | findFree => exact ⟨rfl, trivial⟩
  | getAll => simp [step, getAll, getAll_new, getAllLoop, Refuses, replyRoutes]
  | getByLabel sel => simp [step, getByLabel, getAll_new, getByLabelLoop, Refuses, replyRoutes]

theorem run_new (hn : ∀ a, ¬ InIP lo hi a) (cs : List (ICall R)) : (run parse (new lo hi : IPTab R) cs).1 = new lo hi := by
  induction cs with
  | nil => rfl
  | cons c cs ih => simp only [run, (step_refuses hn c).1, ih]

/-- C113, part that holds: an IP table of a range that contains no address refuses every address and never contains
anything. Missing: that `FindFree` fails, which is false. -/
theorem C113_refuses_partial (hn : ∀ a, ¬ InIP lo hi a) (cs : List (ICall R)) :
    Replies Refuses cs (run parse (new lo hi : IPTab R) cs).2 := by
  induction cs with
  | nil => exact .nil
  | cons c cs ih =>
    obtain ⟨h1, h2⟩ := step_refuses (parse := parse) (R := R) hn c
    refine .cons h2 ?_
    simp only [run, h1]
    exact ih

theorem ipToInt_mapped (a : Addr) : ipToInt a = mapped a := by
  cases a with
  | zero => rfl
  | v4 a => rw [ipToInt_v4]; rfl
  | v6 a z => rw [ipToInt_v6]; rfl

theorem fromIndex_zero (lo : Addr) : calculateIPFromIndex lo.noZone 0 = some (first lo) := by
  cases lo with
  | zero => rfl
  | v4 a =>
    have ha := a.isLt
    unfold calculateIPFromIndex
    simp only [Addr.noZone, ipToInt_v4, Addr.is4, if_true]
    have h1 : (0xffff00000000 + a.toNat + (0 : U64).toNat) < 2 ^ 128 := by
      rw [show (0 : U64).toNat = 0 from rfl]; omega
    rw [if_pos h1, show (0 : U64).toNat = 0 from rfl, BitVec.toNat_ofNat, if_pos (by omega)]
    congr 2
    refine BitVec.eq_of_toNat_eq ?_
    rw [BitVec.toNat_setWidth, BitVec.toNat_ofNat]
    omega
  | v6 a z =>
    have ha := a.isLt
    unfold calculateIPFromIndex
    simp only [Addr.noZone, ipToInt_v6]
    rw [show (0 : U64).toNat = 0 from rfl, Nat.add_zero, if_pos ha]
    simp [Addr.is4, first]

/-- the size that is computed for a range, valid or not -/
theorem numIPs_zero (lo hi : Addr) : numIPs lo hi = 0 ↔ ((mapped hi : Int) - mapped lo + 1) % 2 ^ 64 = 0 := by
  unfold numIPs
  simp only [ipToInt_mapped]
  generalize mapped hi = b
  generalize mapped lo = a
  rw [← BitVec.toNat_inj]
  split
  · rw [BitVec.toNat_add, BitVec.toNat_neg, BitVec.toNat_ofNat]
    have h1 : (1 : U64).toNat = 1 := rfl
    have h0 : (0 : U64).toNat = 0 := rfl
    rw [h1, h0]
    omega
  · rw [BitVec.toNat_add, BitVec.toNat_ofNat]
    have h1 : (1 : U64).toNat = 1 := rfl
    have h0 : (0 : U64).toNat = 0 := rfl
    rw [h1, h0]
    omega

/-- C113: exactly what `FindFree` of such a table replies after every history, given enough memory for the list of free
slots: the first address of the range, unless the size is 0 modulo `2^64`. -/
theorem C113_findFree_exact (hn : ∀ a, ¬ InIP lo hi a) (cs : List (ICall R)) :
    (((mapped hi : Int) - mapped lo + 1) % 2 ^ 64 = 0 → ∃ e, findFree (run parse (new lo hi : IPTab R) cs).1 = .err e) ∧
    (((mapped hi : Int) - mapped lo + 1) % 2 ^ 64 ≠ 0 → findFree (run parse (new lo hi : IPTab R) cs).1 = .addr (first lo)) := by
  rw [run_new hn]
  rw [ne_eq, ← numIPs_zero]
  have hs : (new lo hi : IPTab R).tab.size = numIPs lo hi := rfl
  constructor
  · intro h
    refine ⟨.idx .noFree, ?_⟩
    unfold findFree
    rw [IdxTable.findFree_eq]
    cases hk : IdxTable.freeKeys (new lo hi : IPTab R).tab with
    | nil => rfl
    | cons x xs =>
      have := ((IdxTable.leastAvail_iff (new lo hi : IPTab R).tab x).2 ⟨xs, hk⟩).1.1
      rw [hs, h] at this
      exact absurd this (by simp)
  · intro h
    have hl : IdxTable.LeastAvail (new lo hi : IPTab R).tab.size (IdxTable.absMap (new lo hi : IPTab R).tab) 0 := by
      refine ⟨⟨?_, rfl⟩, fun j _ => BitVec.le_def.2 (Nat.zero_le _)⟩
      rw [hs]
      exact (BitVec.pos_iff_ne_zero _).2 h
    obtain ⟨xs, hk⟩ := (IdxTable.leastAvail_iff _ _).1 hl
    unfold findFree
    rw [IdxTable.findFree_eq, hk]
    simp only
    rw [show (new lo hi : IPTab R).ipRange.lo = lo.noZone from rfl, fromIndex_zero]

/-- C113, violated: `FindFree` of the table of 10.0.0.1 to ::ffff:10.0.0.5 returns 10.0.0.1, after every history, and the
table accepts no text as a free address. -/
theorem C113_findFree_violated (cs : List (ICall String)) (x : String) (d : String) :
    findFree (run parse (new (.v4 0x0a000001) (.v6 0xffff0a000005 "") : IPTab String) cs).1 = .addr (.v4 0x0a000001) ∧
    isFree parse (run parse (new (.v4 0x0a000001) (.v6 0xffff0a000005 "") : IPTab String) cs).1 x = false ∧
    ∃ e, (claim parse (run parse (new (.v4 0x0a000001) (.v6 0xffff0a000005 "") : IPTab String) cs).1 x d).2 = .error e := by
  have hn : ∀ a, ¬ InIP (.v4 0x0a000001) (.v6 0xffff0a000005 "") a := by
    intro a
    cases a <;> exact fun h => h
  refine ⟨(C113_findFree_exact hn cs).2 (by decide), ?_, ?_⟩
  all_goals
    rw [run_new hn]
    obtain ⟨e, he⟩ := validate_out (parse := parse) (r := (new (.v4 0x0a000001) (.v6 0xffff0a000005 "") : IPTab String)) rfl
      (x := x) fun a _ => hn a
  · simp only [isFree, he]
  · exact ⟨e, by simp only [claim, he]⟩

-- ranges without addresses: the wrong order, two families, the zero address
example : (∀ a, ¬ InIP (.v4 0x0a000003) (.v4 0x0a000001) a) ∧ (∀ a, ¬ InIP (.v6 5 "") (.v4 7) a) ∧ ∀ a, ¬ InIP .zero (.v6 7 "") a := by
  refine ⟨?_, ?_, ?_⟩
  · intro a h
    cases a with
    | v4 a =>
      obtain ⟨h1, h2⟩ := h
      have e1 : BitVec.toNat (0x0a000003 : BitVec 32) = 0x0a000003 := rfl
      have e2 : BitVec.toNat (0x0a000001 : BitVec 32) = 0x0a000001 := rfl
      omega
    | _ => exact h
  · intro a
    cases a <;> exact fun h => h
  · intro a
    cases a <;> exact fun h => h

end Verif.IPTable
