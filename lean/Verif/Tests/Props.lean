import Verif.Tests.Model
import Verif.IdxTable.Props
import Verif.Ranged.Props
import Verif.IPTable.Props
import Verif.GTree.ClaimProps

/-!
C88: the tests of the repository, replayed on the models.
-/

namespace Verif.Tests
open Verif.IdxTable (U64 Table)
open Verif.Id Verif.GTree

theorem perm_two {α : Type} {a b : α} {l : List α} (h : l.Perm [a, b]) : l = [a, b] ∨ l = [b, a] := by
  match l, h.length_eq with
  | [x, y], _ =>
    have hx : x ∈ [a, b] := h.subset (by simp)
    rcases List.mem_pair.1 hx with rfl | rfl
    · have := (List.perm_cons _).1 h
      rw [List.perm_singleton.1 this]
      exact .inl rfl
    · have := (List.perm_cons _).1 (h.trans (List.Perm.swap _ _ _))
      rw [List.perm_singleton.1 this]
      exact .inr rfl

theorem perm_three {α : Type} {a b c : α} {l : List α} (h : l.Perm [a, b, c]) :
    l = [a, b, c] ∨ l = [a, c, b] ∨ l = [b, a, c] ∨ l = [b, c, a] ∨ l = [c, a, b] ∨ l = [c, b, a] := by
  match l, h.length_eq with
  | x :: l, _ =>
    have hx : x ∈ [a, b, c] := h.subset (by simp)
    rw [List.mem_cons, List.mem_pair] at hx
    rcases hx with rfl | rfl | rfl
    · rcases perm_two ((List.perm_cons _).1 h) with rfl | rfl <;> simp
    · rcases perm_two ((List.perm_cons _).1 (h.trans (List.Perm.swap _ _ _))) with rfl | rfl <;> simp
    · have h' : List.Perm [a, b, x] (x :: [a, b]) := List.perm_append_comm (l₁ := [a, b]) (l₂ := [x])
      rcases perm_two ((List.perm_cons _).1 (h.trans h')) with rfl | rfl <;> simp

/-! ### idxtable -/

theorem idxClaimSize_ok (size n : U64) (h0 : n ≠ 0) (h : n ≤ size) : idxClaimSize size n n.toNat false = true := by
  have hr : IdxTable.Reachable size (IdxTable.newTable size : Table String) :=
    ⟨by rintro rfl; exact h0 (by bv_omega), [], rfl⟩
  have hf := (IdxTable.C11_free_iteration hr).1
  rw [IdxTable.drain_iterateFree] at hf
  have hl : (IdxTable.freeKeys (IdxTable.newTable size : Table String)).length = size.toNat := by
    unfold IdxTable.freeKeys
    rw [List.filter_eq_self.2]
    · simp [IdxTable.newTable]
    · intro a _
      rfl
  have hn : n.toNat ≤ (IdxTable.freeKeys (IdxTable.newTable size : Table String)).length := by
    rw [hl]; exact h
  obtain ⟨h1, h2, h3⟩ := (IdxTable.C06_claimSize hr n h0 "a" _ hf).1 hn
  have hr' := hr.step (.claimSize n "a")
  have hs := (IdxTable.C09_bounds_and_size hr').2.1 ((IdxTable.freeKeys (IdxTable.newTable size : Table String)).take n.toNat)
    ⟨hf.1.sublist (List.take_sublist _ _), by
      intro i
      show _ ↔ IdxTable.has (IdxTable.claimSize _ n "a").1 i = true
      by_cases hi : i ∈ (IdxTable.freeKeys (IdxTable.newTable size : Table String)).take n.toNat
      · refine ⟨fun _ => ?_, fun _ => hi⟩
        have := h2 i hi
        cases hh : IdxTable.has (IdxTable.claimSize (IdxTable.newTable size) n "a").1 i with
        | true => rfl
        | false =>
          rw [IdxTable.get] at this
          rw [IdxTable.has_eq_false] at hh
          rw [hh] at this
          split at this <;> simp at this
      · refine ⟨fun h => absurd h hi, fun hh => ?_⟩
        rw [(h3 i hi).2] at hh
        exact absurd hh (by simp [IdxTable.has, IdxTable.newTable])⟩
  have hs' : IdxTable.sizeOf (IdxTable.claimSize (IdxTable.newTable size) n "a").1 = n.toNat := by
    refine hs.trans ?_
    rw [List.length_take, Nat.min_eq_left hn]
  have hok : (IdxTable.claimSize (IdxTable.newTable size) n "a").2.isOk = true := by
    rw [h1]; rfl
  simp only [idxClaimSize, hok, hs', Bool.false_eq_true, ↓reduceIte, beq_self_eq_true, Bool.and_self]

/-- C88, `pkg/idxtable/table_test.go`: every case of the six tests passes, whatever the order of the maps. -/
theorem C88_idxtable_partial :
    idxNew 1000 0 = true ∧
    (∀ s f s' f' : List (U64 × String), s.Perm [(10, "a"), (11, "b")] → f.Perm [(1000, "x")] →
      s'.Perm [(10, "a"), (11, "b")] → f'.Perm [(1000, "x")] → idxClaim 1000 s f s' f' 2 = true) ∧
    (∀ s s' : List (U64 × String), s.Perm [(10, "a"), (11, "b")] → s'.Perm [(10, "a"), (11, "b")] →
      idxRelease 1000 s s' [10, 11] [20, 21] 0 = true) ∧
    (∀ (s : List (U64 × String)) (order : Table String → List U64), s.Perm [(0, "a"), (1, "b"), (999, "c")] →
      (∀ t, (order t).Perm t.m.keys) → idxIterate 1000 s order [0, 1, 999] = true) ∧
    (∀ order : Table String → List U64, (∀ t, (order t).Perm t.m.keys) → idxIterate 1000 [] order [] = true) ∧
    idxClaimRange 10 [] 5 5 5 false = true ∧
    idxClaimRange 10 [] 5 6 0 true = true ∧
    (∀ s : List (U64 × String), s.Perm [(0, "a"), (1, "b")] → idxClaimRange 10 s 0 5 3 true = true) ∧
    idxClaimSize 1000 1000 1000 false = true ∧
    idxClaimSize 10 11 0 true = true := by
  refine ⟨by decide, ?_, ?_, ?_, ?_, ?_, ?_, ?_, ?_, ?_⟩
  · intro s f s' f' hs hf hs' hf'
    obtain rfl := List.perm_singleton.1 hf
    obtain rfl := List.perm_singleton.1 hf'
    rcases perm_two hs with rfl | rfl <;> rcases perm_two hs' with rfl | rfl <;> decide
  · intro s s' hs hs'
    rcases perm_two hs with rfl | rfl <;> rcases perm_two hs' with rfl | rfl <;> decide
  · intro s order hs ho
    have key : ∀ t : Table String, t.m.keys.Perm [0, 1, 999] → (IdxTable.iterate (order t)).keys = [0, 1, 999] := by
      intro t ht
      show IdxTable.sortKeys (order t) = _
      rw [IdxTable.sortKeys_perm_eq ((ho t).trans ht) (((ho t).trans ht).nodup_iff.2 (by decide))]
      exact IdxTable.sortKeys_of_sorted _ (by decide)
    have fin : ∀ (r : Bool × Table String), r.1 = true → r.2.m.keys.Perm [0, 1, 999] →
        (match r with | (b, t) => b && (IdxTable.iterate (order t)).keys == [0, 1, 999]) = true := by
      rintro ⟨b, t⟩ hb ht
      simp only [key t ht]
      simpa using hb
    unfold idxIterate
    apply fin
    · rcases perm_three hs with rfl | rfl | rfl | rfl | rfl | rfl <;> decide
    · rcases perm_three hs with rfl | rfl | rfl | rfl | rfl | rfl <;> decide
  · intro order ho
    have h : order (IdxTable.newTable 1000) = [] := List.perm_nil.1 (ho (IdxTable.newTable 1000))
    simp only [idxIterate, idxClaims, h, IdxTable.iterate, IdxTable.sortKeys, List.mergeSort_nil]
    rfl
  · simp only [idxClaimRange, IdxTable.claimRange, IdxTable.findFreeRange_eq_list]
    decide
  · decide
  · intro s hs
    rcases perm_two hs with rfl | rfl
    · simp only [idxClaimRange, IdxTable.claimRange, IdxTable.findFreeRange_eq_list]
      decide
    · simp only [idxClaimRange, IdxTable.claimRange, IdxTable.findFreeRange_eq_list]
      decide
  · exact idxClaimSize_ok 1000 1000 (by decide) (by decide)
  · decide

example : idxClaim 1000 [(11, "b"), (10, "a")] [(1000, "x")] [(10, "a"), (11, "b")] [(1000, "x")] 2 = true :=
  C88_idxtable_partial.2.1 _ _ _ _ (.swap _ _ _) (.refl _) (.refl _) (.refl _)
/-- the transcribed tests can fail -/
example : idxClaim 1000 [(11, "b"), (11, "a")] [] [] [] 2 = false ∧ idxClaim 11 [(11, "b")] [] [] [] 1 = false ∧
    idxClaim 12 [(11, "b")] [] [(10, "a")] [] 1 = false ∧ idxClaim 12 [(11, "b")] [] [] [] 2 = false := by decide

/-! ### table16, table32, table64 -/

/-- the bytes of `100-199` -/
def low : List UInt8 := [49, 48, 48, 45, 49, 57, 57]
/-- the bytes of `4294967000-4294967295` -/
def high32 : List UInt8 := [52, 50, 57, 52, 57, 54, 55, 48, 48, 48, 45, 52, 50, 57, 52, 57, 54, 55, 50, 57, 53]
/-- the bytes of `18446744073709551000-18446744073709551614` -/
def high64 : List UInt8 := [49, 56, 52, 52, 54, 55, 52, 52, 48, 55, 51, 55, 48, 57, 53, 53, 49, 48, 48, 48, 45,
  49, 56, 52, 52, 54, 55, 52, 52, 48, 55, 51, 55, 48, 57, 53, 53, 49, 54, 49, 52]

theorem low16 : (parseRange low : Option (Rng id16)) = some ⟨⟨100, 16⟩, ⟨199, 16⟩⟩ := by decide
theorem low32 : (parseRange low : Option (Rng id32)) = some ⟨⟨100, 32⟩, ⟨199, 32⟩⟩ := by decide
theorem low64 : (parseRange low : Option (Rng id64)) = some ⟨⟨100, 64⟩, ⟨199, 64⟩⟩ := by decide
theorem hi32 : (parseRange high32 : Option (Rng id32)) = some ⟨⟨4294967000, 32⟩, ⟨4294967295, 32⟩⟩ := by decide
theorem hi64 : (parseRange high64 : Option (Rng id64)) = some ⟨⟨18446744073709551000, 64⟩, ⟨18446744073709551614, 64⟩⟩ := by
  decide

theorem rfind {P : Ranged.Width} {L : Type} (t : Ranged.RTable P L) :
    (Ranged.findFree t).isOk = !(IdxTable.freeKeys t.tab).isEmpty := by
  rw [Ranged.findFree, IdxTable.findFree_eq]
  cases IdxTable.freeKeys t.tab <;> rfl

/-- C88, the tests of `table16`, `table32` and `table64`: every case passes, whatever the order of the maps. (The
labels of the tests are all nil, here `()`.) -/
theorem C88_tables_partial :
    (∀ s f s' f' : List (U64 × Unit), s.Perm [(100, ()), (199, ())] → f.Perm [(500, ())] → s'.Perm [(100, ()), (199, ())] →
      f'.Perm [(500, ())] →
      tableClaim Ranged.w16 id16 rfl low s f s' f' 2 = true ∧ tableClaim Ranged.w32 id32 rfl low s f s' f' 2 = true ∧
      tableClaim Ranged.w64 id64 rfl low s f s' f' 2 = true) ∧
    (∀ s f s' f' : List (U64 × Unit), s.Perm [(4294967000, ()), (4294967295, ())] → f.Perm [(4294967296, ())] →
      s'.Perm [(4294967000, ()), (4294967295, ())] → f'.Perm [(4294967296, ())] →
      tableClaim Ranged.w32 id32 rfl high32 s f s' f' 2 = true) ∧
    (∀ s f s' f' : List (U64 × Unit), s.Perm [(18446744073709551001, ()), (18446744073709551010, ())] →
      f.Perm [(18446744073709551615, ())] → s'.Perm [(18446744073709551001, ()), (18446744073709551010, ())] →
      f'.Perm [(18446744073709551615, ())] → tableClaim Ranged.w64 id64 rfl high64 s f s' f' 2 = true) := by
  refine ⟨?_, ?_, ?_⟩
  · intro s f s' f' hs hf hs' hf'
    obtain rfl := List.perm_singleton.1 hf
    obtain rfl := List.perm_singleton.1 hf'
    simp only [tableClaim, rfind, low16, low32, low64]
    rcases perm_two hs with rfl | rfl <;> rcases perm_two hs' with rfl | rfl <;> refine ⟨?_, ?_, ?_⟩ <;> decide +kernel
  · intro s f s' f' hs hf hs' hf'
    obtain rfl := List.perm_singleton.1 hf
    obtain rfl := List.perm_singleton.1 hf'
    simp only [tableClaim, rfind, hi32]
    rcases perm_two hs with rfl | rfl <;> rcases perm_two hs' with rfl | rfl <;> decide +kernel
  · intro s f s' f' hs hf hs' hf'
    obtain rfl := List.perm_singleton.1 hf
    obtain rfl := List.perm_singleton.1 hf'
    simp only [tableClaim, rfind, hi64]
    rcases perm_two hs with rfl | rfl <;> rcases perm_two hs' with rfl | rfl <;> decide +kernel

example : tableClaim Ranged.w16 id16 rfl low [(199, ()), (100, ())] [(500, ())] [(100, ()), (199, ())] [(500, ())] 2 = true :=
  (C88_tables_partial.1 _ _ _ _ (.swap _ _ _) (.refl _) (.refl _) (.refl _)).1

/-! ### iptable -/

theorem ipfind {R : Type} (t : IPTable.IPTab R) :
    IPTable.findFree t = match IdxTable.freeKeys t.tab with
      | [] => .err (.idx .noFree)
      | x :: _ => match IPTable.calculateIPFromIndex t.ipRange.lo x with
        | some a => .addr a
        | none => .panic := by
  rw [IPTable.findFree, IdxTable.findFree_eq]
  cases IdxTable.freeKeys t.tab <;> rfl

/-- C88, `pkg/iptable/tptable_test.go`: the test passes, whatever the order of the maps. -/
theorem C88_iptable_partial (parse : String → Option IPTable.Addr)
    (h10 : parse "10.0.0.10" = some (.v4 0x0a00000a)) (h11 : parse "10.0.0.11" = some (.v4 0x0a00000b))
    (h21 : parse "10.0.0.21" = some (.v4 0x0a000015)) (s f s' f' : List (String × Unit))
    (hs : s.Perm [("10.0.0.10", ()), ("10.0.0.11", ())]) (hf : f.Perm [("10.0.0.21", ())])
    (hs' : s'.Perm [("10.0.0.10", ()), ("10.0.0.11", ())]) (hf' : f'.Perm [("10.0.0.21", ())]) :
    ipClaim parse (.v4 0x0a00000a) (.v4 0x0a000014) s f s' f' 2 = true := by
  obtain rfl := List.perm_singleton.1 hf
  obtain rfl := List.perm_singleton.1 hf'
  simp only [ipClaim, ipfind]
  rcases perm_two hs with rfl | rfl <;> rcases perm_two hs' with rfl | rfl <;>
    simp only [ipClaims, IPTable.claim, IPTable.has, IPTable.validateIP, List.all, h10, h11, h21] <;> decide +kernel

example : ∃ parse : String → Option IPTable.Addr, parse "10.0.0.10" = some (.v4 0x0a00000a) ∧
    parse "10.0.0.11" = some (.v4 0x0a00000b) ∧ parse "10.0.0.21" = some (.v4 0x0a000015) :=
  ⟨fun s => if s = "10.0.0.10" then some (.v4 0x0a00000a) else if s = "10.0.0.11" then some (.v4 0x0a00000b)
    else some (.v4 0x0a000015), by decide⟩

/-! ### tree16, tree32, tree64 -/

/-- the bytes of `10-0` -/
def r10 : List UInt8 := [49, 48, 45, 48]
/-- the bytes of `16383-65535` -/
def r16383 : List UInt8 := [49, 54, 51, 56, 51, 45, 54, 53, 53, 51, 53]
/-- the bytes of `65000-65100` -/
def r65000 : List UInt8 := [54, 53, 48, 48, 48, 45, 54, 53, 49, 48, 48]

/-- C88, the tests of `tree16`: both pass, whatever the order of the maps. -/
theorem C88_tree16_partial :
    (∀ s f s' f' : List (MyId tree16.P × Bool), s.Perm [(⟨10, 16⟩, true), (⟨11, 16⟩, true)] →
      f.Perm [(⟨5000, 16⟩, true)] → s'.Perm [(⟨10, 16⟩, true), (⟨11, 16⟩, true)] → f'.Perm [(⟨5000, 16⟩, true)] →
      passes (treeClaim tree16 12 s f s' f' 2) = true) ∧
    passes (treeRandom tree16 16 true [r10, r16383] []) = true := by
  refine ⟨?_, by decide +kernel⟩
  intro s f s' f' hs hf hs' hf'
  obtain rfl := List.perm_singleton.1 hf
  obtain rfl := List.perm_singleton.1 hf'
  rcases perm_two hs with rfl | rfl <;> rcases perm_two hs' with rfl | rfl <;> decide +kernel

/-- C88, the tests of `tree32`: both pass, whatever the order of the maps. -/
theorem C88_tree32_partial :
    (∀ s f s' f' : List (MyId tree32.P × Bool), s.Perm [(⟨10, 32⟩, true), (⟨11, 32⟩, true)] →
      f.Perm [(⟨2000000000, 32⟩, true)] → s'.Perm [(⟨10, 32⟩, true), (⟨11, 32⟩, true)] →
      f'.Perm [(⟨2000000000, 32⟩, true)] → passes (treeClaim tree32 30 s f s' f' 2) = true) ∧
    passes (treeRandom tree32 32 true [r65000] [⟨65535, 32⟩]) = true := by
  refine ⟨?_, by decide +kernel⟩
  intro s f s' f' hs hf hs' hf'
  obtain rfl := List.perm_singleton.1 hf
  obtain rfl := List.perm_singleton.1 hf'
  rcases perm_two hs with rfl | rfl <;> rcases perm_two hs' with rfl | rfl <;> decide +kernel

/-- C88 is violated by the test of `tree64`: it fails, whatever the order of the maps. -/
theorem C88_tree64_violated (a b : Bool) (s f s' f' : List (MyId tree64.P × Bool))
    (hs : s.Perm [(⟨10, 64⟩, a), (⟨11, 64⟩, b)]) (hf : f.Perm [(⟨20000000000, 64⟩, true)])
    (hs' : s'.Perm [(⟨10, 64⟩, a), (⟨11, 64⟩, b)]) (hf' : f'.Perm [(⟨20000000000, 64⟩, true)]) :
    passes (treeClaim tree64 32 s f s' f' 2) = false := by
  obtain rfl := List.perm_singleton.1 hf
  obtain rfl := List.perm_singleton.1 hf'
  cases a <;> cases b <;> rcases perm_two hs with rfl | rfl <;> rcases perm_two hs' with rfl | rfl <;> decide +kernel

example : passes (treeClaim tree16 12 [(⟨11, 16⟩, true), (⟨10, 16⟩, true)] [(⟨5000, 16⟩, true)]
    [(⟨10, 16⟩, true), (⟨11, 16⟩, true)] [(⟨5000, 16⟩, true)] 2) = true :=
  C88_tree16_partial.1 _ _ _ _ (.swap _ _ _) (.refl _) (.refl _) (.refl _)

end Verif.Tests
