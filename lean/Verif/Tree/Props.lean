import Verif.Tree.Runs

/-! Theorems C42-C51 about the prefix tree. -/

namespace Verif.Tree
open Verif.Id
variable {T : Type} [Inhabited T] {P : Pkg}

/-- the three packages -/
theorem widthOk_of (hP : P = id16 ∨ P = id32 ∨ P = id64) : WidthOk P.W := by
  rcases hP with rfl | rfl | rfl <;> simp [WidthOk, id16, id32, id64]

/-! ### C42 -/

theorem abs_new (P : Pkg) : Abs (newTree P : Tree T) (.node 1 [] 0 (fun _ => .nil))
    (fun q => ((fun _ => none : List Bool → Option T) q).toList) := by
  constructor
  · intro q x c h; simp [Sh.entries, Sh.nodes] at h
  · intro q _; rfl

/-- **C42** (width 16) Every history of `Set` and `Delete` with lengths at most 16 has the results of
the abstract map, and iteration afterwards yields exactly the values of the map, one per stored
prefix, in the order of the prefixes. -/
theorem C42_tree16_is_map (hP : P = id16) (os : List (Op P T)) (hos : ∀ o ∈ os, o.id.len ≤ P.W ∧ o.NoAdd) :
    ∃ t, run (newTree P) os = .ok (resOf os (fun _ => none), t) ∧
      ∃ L, ListsMap L (mapOf os (fun _ => none)) ∧
        ∃ vis, t.visit = .ok vis ∧ vis.map (·.2) = L.map (fun e => [e.2]) := by
  have hW : P.W = 16 := by rw [hP]; rfl
  obtain ⟨t, s, h1, h2, h3, _⟩ := run_map (.inl hW) (Inv.new (T := T) P) (abs_new P)
    (by rw [hW]; exact Nat.le_trans (Nat.le_refl 2) (by decide)) hos (fun h => by omega)
  exact ⟨t, h1, visit_map h2 h3⟩

/-- **C42** (width 32, in part) The same for width 32 as long as the tree never needs more than `2^32` nodes, which is
the number of keys there are. Missing: more nodes (see `C42_tree32_violated` in `Viol32.lean`)
and width 64 (`C42_tree64_violated`). -/
theorem C42_tree32_is_map_partial (hP : P = id32) (os : List (Op P T))
    (hos : ∀ o ∈ os, o.id.len ≤ P.W ∧ o.NoAdd)
    (hb : ∀ n, NeedsAtMost (2 ^ 32) (fun q => mapOf (os.take n) (fun _ => none) q ≠ none)) :
    ∃ t, run (newTree P) os = .ok (resOf os (fun _ => none), t) ∧
      ∃ L, ListsMap L (mapOf os (fun _ => none)) ∧
        ∃ vis, t.visit = .ok vis ∧ vis.map (·.2) = L.map (fun e => [e.2]) := by
  have hW : P.W = 32 := by rw [hP]; rfl
  obtain ⟨t, s, h1, h2, h3, _⟩ := run_map (.inr hW) (Inv.new (T := T) P) (abs_new P)
    (by rw [hW]; exact Nat.le_trans (Nat.le_refl 2) (by decide)) hos (fun _ => hb)
  exact ⟨t, h1, visit_map h2 h3⟩

/-- **C42** (width 32, in part) In particular as long as at most `2^31` prefixes are stored at any time; one more is
too many (`C42_tree32_violated`). -/
theorem C42_tree32_few_partial (hP : P = id32) (os : List (Op P T))
    (hos : ∀ o ∈ os, o.id.len ≤ P.W ∧ o.NoAdd)
    (hb : ∀ n, AtMost (2 ^ 31) (mapOf (os.take n) (fun _ => none))) :
    ∃ t, run (newTree P) os = .ok (resOf os (fun _ => none), t) ∧
      ∃ L, ListsMap L (mapOf os (fun _ => none)) ∧
        ∃ vis, t.visit = .ok vis ∧ vis.map (·.2) = L.map (fun e => [e.2]) :=
  C42_tree32_is_map_partial hP os hos (fun n => needs_of_atMost (by decide) (hb n))

/-- only the prefixes of the calls are stored -/
theorem mapOf_keys (S : List Bool → Prop) : ∀ (os : List (Op P T)) (M : List Bool → Option T),
    (∀ o ∈ os, S o.pfx) → (∀ q, M q ≠ none → S q) → ∀ q, mapOf os M q ≠ none → S q := by
  intro os
  induction os with
  | nil => intro M _ hM q hq; exact hM q hq
  | cons o os ih =>
    intro M hos hM q hq
    refine ih (o.map M) (fun o' h' => hos o' (by simp [h'])) ?_ q hq
    intro q hq
    by_cases he : q = o.pfx
    · rw [he]; exact hos o (by simp)
    · apply hM
      cases o <;> simp_all [Op.map]

/-- **C42** (width 32, in part) In particular as long as the ids are below `2^31`, without any bound on their number. -/
theorem C42_tree32_half_partial (hP : P = id32) (os : List (Op P T))
    (hos : ∀ o ∈ os, o.id.len ≤ P.W ∧ o.NoAdd) (hb : ∀ o ∈ os, o.id.id.toNat < 2 ^ 31) :
    ∃ t, run (newTree P) os = .ok (resOf os (fun _ => none), t) ∧
      ∃ L, ListsMap L (mapOf os (fun _ => none)) ∧
        ∃ vis, t.visit = .ok vis ∧ vis.map (·.2) = L.map (fun e => [e.2]) := by
  refine C42_tree32_is_map_partial hP os hos (fun n => ?_)
  subst hP
  refine needs_half (W := 31) ?_
  refine mapOf_keys _ _ _ ?_ (fun q h => absurd rfl h)
  intro o ho
  have ho := List.mem_of_mem_take ho
  have h1 := (hos o ho).1
  have h2 := hb o ho
  unfold Op.pfx pfx
  refine ⟨by rw [List.length_map, List.length_range]; exact h1, ?_⟩
  cases hl : o.id.len with
  | zero => exact .inl rfl
  | succ k =>
    right
    rw [List.range_succ_eq_map, List.map_cons]
    refine ⟨_, congrArg (· :: _) ?_⟩
    have hm : ∀ x : BitVec 32, x.toNat < 2 ^ 31 → x.msb = false := by
      intro x hx
      rw [BitVec.msb_eq_decide, decide_eq_false_iff_not]
      omega
    exact hm _ h2

/-- the result of a history followed by an iteration -/
def observe (P : Pkg) (os : List (Op P T)) : Option (List Res × List (List T)) :=
  match run (newTree P) os with
  | .ok (rs, t) => match t.visit with
    | .ok vis => some (rs, vis.map (·.2))
    | _ => none
  | _ => none

/-- three calls of `Set`, two of the same prefix (ids 0x8123/4 and 0x8fff/4), and a `Delete` -/
def ops42 : List (Op id16 Nat) :=
  [.set ⟨0x8123, 4⟩ 1, .set ⟨0x8123, 16⟩ 2, .set ⟨0x8fff, 4⟩ 3, .set ⟨0, 0⟩ 4,
   .delete ⟨0, 0⟩ (fun a b => a == b) 5, .delete ⟨0, 0⟩ (fun a b => a == b) 4]

example : (∀ o ∈ ops42, o.id.len ≤ id16.W ∧ o.NoAdd) ∧
    resOf ops42 (fun _ => none) =
      [.added true 1, .added true 1, .added false 1, .added true 1, .deleted 0, .deleted 1] ∧
    mapOf ops42 (fun _ => none) [true, false, false, false] = some 3 ∧
    mapOf ops42 (fun _ => none) [] = none ∧
    observe id16 ops42 =
      some ([.added true 1, .added true 1, .added false 1, .added true 1, .deleted 0, .deleted 1],
        [[3], [2]]) := by
  refine ⟨?_, by decide, by decide, by decide, by decide⟩
  intro o ho
  simp only [ops42, List.mem_cons, List.not_mem_nil, or_false] at ho
  rcases ho with rfl | rfl | rfl | rfl | rfl | rfl <;> exact ⟨by decide, trivial⟩

def ops42' : List (Op id32 Nat) := [.set ⟨0x8123, 32⟩ 1, .set ⟨0x80000000, 1⟩ 2, .set ⟨0x8123, 31⟩ 3]

example : (∀ o ∈ ops42', o.id.len ≤ id32.W ∧ o.NoAdd) ∧
    (∀ n, AtMost (2 ^ 31) (mapOf (ops42'.take n) (fun _ => none)) ∧
      NeedsAtMost (2 ^ 32) (fun q => mapOf (ops42'.take n) (fun _ => none) q ≠ none)) ∧
    observe id32 ops42' = some ([.added true 1, .added true 1, .added true 1], [[3], [1], [2]]) := by
  refine ⟨?_, ?_, by decide⟩
  · intro o ho
    simp only [ops42', List.mem_cons, List.not_mem_nil, or_false] at ho
    rcases ho with rfl | rfl | rfl <;> exact ⟨by decide, trivial⟩
  · intro n
    have h : AtMost (2 ^ 31) (mapOf (ops42'.take n) (fun _ => none)) := by
      refine ⟨ops42'.map Op.pfx, by decide, ?_⟩
      intro q hq
      refine mapOf_keys (· ∈ ops42'.map Op.pfx) (ops42'.take n) _ ?_ (by simp) q hq
      intro o ho
      exact List.mem_map.2 ⟨o, List.mem_of_mem_take ho, rfl⟩
    exact ⟨h, needs_of_atMost (by decide) h⟩

/-- prefixes of ids below `2^31`, of all lengths -/
def ops42h : List (Op id32 Nat) := [.set ⟨0, 0⟩ 1, .set ⟨0x7fffffff, 32⟩ 2, .set ⟨0x40000000, 2⟩ 3, .set ⟨0, 1⟩ 4]

example : (∀ o ∈ ops42h, o.id.len ≤ id32.W ∧ o.NoAdd) ∧ (∀ o ∈ ops42h, o.id.id.toNat < 2 ^ 31) ∧
    observe id32 ops42h = some ([.added true 1, .added true 1, .added true 1, .added true 1], [[1], [4], [3], [2]]) := by
  refine ⟨?_, by decide, by decide⟩
  intro o ho
  simp only [ops42h, List.mem_cons, List.not_mem_nil, or_false] at ho
  rcases ho with rfl | rfl | rfl | rfl <;> exact ⟨by decide, trivial⟩

/-- **C42** (width 64) fails: all nodes share their values. Setting a second prefix changes the
value of the first. -/
theorem C42_tree64_violated :
    observe id64 ([.set ⟨0, 64⟩ 1, .set ⟨1, 64⟩ 2] : List (Op id64 Nat)) =
      some ([.added true 1, .added true 1], [[2], [2]]) ∧
    ∃ q, mapOf ([.set ⟨0, 64⟩ 1, .set ⟨1, 64⟩ 2] : List (Op id64 Nat)) (fun _ => none) q = some 1 := by
  refine ⟨by decide, pfx (0 : BitVec 64) 64, by decide⟩

/-! ### C43 -/

/-- **C43** No history of `Set`, `Add` and `Delete` with lengths at most the width panics (or
diverges, or moves the node array), and neither does an iteration afterwards. All three widths. -/
theorem C43_no_panic (hP : P = id16 ∨ P = id32 ∨ P = id64) (os : List (Op P T))
    (hos : ∀ o ∈ os, o.id.len ≤ P.W) :
    ∃ rs t, run (newTree P) os = .ok (rs, t) ∧ ∃ vis, t.visit = .ok vis := by
  obtain ⟨rs, t, s, h1, h2⟩ := run_inv (widthOk_of hP) (Inv.new (T := T) P) hos
  exact ⟨rs, t, h1, _, visit_spec h2⟩

example : ∀ o ∈ ops42, o.id.len ≤ id16.W := by decide

/-! ### C44 -/

/-- **C44** Iteration over a reachable tree ends and visits exactly the prefixes with values, each
once, in the order of the prefixes as lists of bits: ancestors before descendants, lower ids before
higher. All three widths. -/
theorem C44_iteration (hP : P = id16 ∨ P = id32 ∨ P = id64) {t : Tree T} (h : Reach P t) :
    ∃ L : List (List Bool × Nat × List T), L.Pairwise (fun a b => a.1 < b.1) ∧
      t.visit = .ok (L.map (·.2)) ∧
      ∀ q i l, (q, i, l) ∈ L ↔ At P.W t q i ∧ t.valsForNode i = .ok l ∧ l ≠ [] := by
  obtain ⟨s, hi⟩ := h.inv (widthOk_of hP)
  refine ⟨(s.entries []).map (fun e => (e.1, e.2.1, valsAt t.vals (t.key e.2.1) e.2.2)), ?_, ?_, ?_⟩
  · rw [List.pairwise_map]
    exact Sh.entries_sorted [] (.inr hi.wf)
  · rw [visit_spec hi, List.map_map]; rfl
  · intro q i l
    rw [List.mem_map]
    constructor
    · rintro ⟨⟨q', x, c⟩, h1, h2⟩
      cases h2
      obtain ⟨h3, h4⟩ := Sh.mem_entries.1 h1
      refine ⟨hi.at_iff.2 ⟨c, h3⟩, hi.vals_at h3, ?_⟩
      intro e
      have := congrArg List.length e
      rw [length_valsAt] at this
      exact h4 this
    · rintro ⟨h1, h2, h3⟩
      obtain ⟨c, h4⟩ := hi.at_iff.1 h1
      rw [hi.vals_at h4] at h2
      cases h2
      refine ⟨(q, i, c), Sh.mem_entries.2 ⟨h4, ?_⟩, rfl⟩
      rintro rfl
      exact h3 rfl

/-- the order used -/
example : ([true] < [true, false]) ∧ ([true, false, true] < [true, true]) := by decide

/-- a reachable tree with several prefixes -/
theorem reach_of {P : Pkg} (os : List (Op P T)) (hos : ∀ o ∈ os, o.id.len ≤ P.W) {rs : List Res} {t : Tree T}
    (h : run (newTree P) os = .ok (rs, t)) : Reach P t := ⟨os, rs, hos, h⟩

example : ∃ t : Tree Nat, Reach id16 t ∧ (match t.visit with | .ok v => v.map (·.2) | _ => []) = [[3], [2]] :=
  ⟨_, reach_of ops42 (by decide) rfl, by decide⟩

theorem at_left {W : Nat} {t : Tree T} {q : List Bool} {n c : Node} {i : Nat} (h1 : t.nodes[1]? = some n)
    (h0 : n.left ≠ 0) (hc : t.nodes[n.left]? = some c) (hq : c.bits W = q) (hi : n.left = i) : At W t q i := by
  subst hi
  subst hq
  exact At.left At.root h1 h0 hc

/-! ### C45 -/

theorem Sh.two_children {s : Sh} : ∀ {d : Nat} {pre q : List Bool} {i c : Nat} {ns : List Node} {W x : Nat} {n : Node},
    Sh.Wf d s → Rep W ns s x → (q, i, c) ∈ s.nodes pre → ns[i]? = some n → n.cnt = 0 →
    n.left ≠ 0 ∧ n.right ≠ 0 := by
  induction s with
  | nil => intro d pre q i c ns W x n _ _ h; simp [Sh.nodes] at h
  | node j p c0 ch ih =>
    intro d pre q i c ns W x n hw hr hm hn hc
    obtain ⟨rfl, _, n', hn', _, hc', hch⟩ := hr
    obtain ⟨_, _, h3, h4⟩ := hw
    rcases Sh.mem_nodes_node.1 hm with h | ⟨b, h⟩
    · cases h
      rw [hn] at hn'
      cases hn'
      have := h3 (by omega)
      exact ⟨fun e => this false ((hch false).nil_iff.2 e), fun e => this true ((hch true).nil_iff.2 e)⟩
    · exact ih b (h4 b).2 (hch b) h hn hc

/-- the child on one side is in the subtree -/
theorem Rep.child_idx {W : Nat} {ns : List Node} {s : Sh} : ∀ {x : Nat} {i : Nat} {n : Node} {b : Bool},
    Rep W ns s x → i ∈ s.idxs → ns[i]? = some n → n.child b ≠ 0 → n.child b ∈ s.idxs ∧
      (∀ {j p c ch}, s = .node j p c ch → ∃ b', n.child b ∈ (ch b').idxs) := by
  induction s with
  | nil => intro x i n b _ h; simp [Sh.idxs] at h
  | node j p c ch ih =>
    intro x i n b hr hm hn h0
    obtain ⟨rfl, _, n', hn', _, _, hch⟩ := hr
    have key : ∃ b', n.child b ∈ (ch b').idxs := by
      rcases Sh.mem_idxs_node.1 hm with h | ⟨b', h⟩
      · subst h
        rw [hn] at hn'
        cases hn'
        exact ⟨b, ((hch b).mem (fun e => h0 ((hch b).nil_iff.1 e))).1⟩
      · exact ⟨b', (ih b' (hch b') h hn h0).1⟩
    refine ⟨?_, ?_⟩
    · obtain ⟨b', h⟩ := key
      exact Sh.mem_idxs_node.2 (.inr ⟨b', h⟩)
    · intro j' p' c' ch' e
      cases e
      exact key

theorem Rep.parent_unique {W : Nat} {ns : List Node} {s : Sh} : ∀ {x : Nat} {i i' : Nat} {n n' : Node} {b b' : Bool},
    Rep W ns s x → s.idxs.Nodup → i ∈ s.idxs → i' ∈ s.idxs → ns[i]? = some n → ns[i']? = some n' →
    n.child b ≠ 0 → n.child b = n'.child b' → i = i' ∧ b = b' := by
  induction s with
  | nil => intro x i i' n n' b b' _ _ h; simp [Sh.idxs] at h
  | node j p c ch ih =>
    intro x i i' n n' b b' hr hnd hi hi' hn hn' h0 he
    have hr0 := hr
    obtain ⟨rfl, _, m, hm, _, _, hch⟩ := hr
    have hin : ∀ e, m.child e ≠ 0 → m.child e ∈ (ch e).idxs := fun e h =>
      ((hch e).mem (fun e' => h ((hch e).nil_iff.1 e'))).1
    have hroot : ∀ e k, k ∈ (ch e).idxs → ∀ nk f, ns[k]? = some nk → nk.child f ≠ 0 → ∀ g, m.child g ≠ nk.child f := by
      intro e k hk nk f hnk hf g hg
      -- the child of the root of this subtree is below one of its nodes
      have h1 : nk.child f ∈ (ch e).idxs := ((hch e).child_idx hk hnk hf).1
      have hg0 : m.child g ≠ 0 := by rw [hg]; exact hf
      have h2 := hin g hg0
      rw [hg] at h2
      rcases Sh.eq_or_not e g with h | h
      · subst h
        -- the top of a subtree is nobody's child in it
        cases hc : ch g with
        | nil => rw [hc] at h1; simp [Sh.idxs] at h1
        | node j2 p2 c2 ch2 =>
          obtain ⟨b2, hb2⟩ := ((hch g).child_idx hk hnk hf).2 hc
          have hr2 := hch g
          rw [hc] at hr2
          have hj2 : m.child g = j2 := hr2.1
          have hnd2 := (Sh.nodup_children hnd g).2.1
          rw [hc] at hnd2
          have := (Sh.nodup_children hnd2 b2).1
          rw [← hj2, hg] at this
          exact this hb2
      · subst h
        exact (Sh.nodup_children hnd e).2.2 _ h1 h2
    have h0' : n'.child b' ≠ 0 := by rw [← he]; exact h0
    rcases Sh.mem_idxs_node.1 hi with h1 | ⟨e, h1⟩ <;> rcases Sh.mem_idxs_node.1 hi' with h2 | ⟨e', h2⟩
    · subst h1
      subst h2
      rw [hn] at hn' hm
      cases hn'
      cases hm
      refine ⟨rfl, ?_⟩
      rcases Sh.eq_or_not b b' with h | h
      · exact h.symm
      · subst h
        exact absurd (he ▸ hin (!b) h0') ((Sh.nodup_children hnd b).2.2 _ (hin b h0))
    · subst h1
      rw [hn] at hm
      cases hm
      exact absurd he (hroot e' i' h2 n' b' hn' h0' b)
    · subst h2
      rw [hn'] at hm
      cases hm
      exact absurd he.symm (hroot e i h1 n b hn h0 b')
    · rcases Sh.eq_or_not e e' with h | h
      · subst h
        exact ih e' (hch e') (Sh.nodup_children hnd e').2.1 h1 h2 hn hn' h0 he
      · subst h
        have a := ((hch e).child_idx h1 hn h0).1
        have a' := ((hch (!e)).child_idx h2 hn' h0').1
        rw [← he] at a'
        exact absurd a' ((Sh.nodup_children hnd e).2.2 _ a)

/-- **C45** In a reachable tree: a node without values other than the root has two children; no two
links lead to the same node; the slots from 1 on are exactly the nodes reached from the root, each
along one prefix, and the free slots, each listed once, with no slot in both. All three widths. -/
theorem C45_compressed_no_leak (hP : P = id16 ∨ P = id32 ∨ P = id64) {t : Tree T} (h : Reach P t) :
    (∀ q i n, At P.W t q i → i ≠ 1 → t.nodes[i]? = some n → n.cnt = 0 → n.left ≠ 0 ∧ n.right ≠ 0) ∧
    (∀ q q' i i' n n' (b b' : Bool), At P.W t q i → At P.W t q' i' → t.nodes[i]? = some n → t.nodes[i']? = some n' →
      (if b then n.right else n.left) ≠ 0 →
      (if b then n.right else n.left) = (if b' then n'.right else n'.left) → i = i' ∧ b = b') ∧
    (∀ i, 1 ≤ i → i < t.nodes.length →
      ((∃ q, At P.W t q i ∧ ∀ q', At P.W t q' i → q' = q) ∧ i ∉ t.avail) ∨
      ((∀ q, ¬ At P.W t q i) ∧ t.avail.count i = 1)) ∧
    (∀ i ∈ t.avail, 1 ≤ i ∧ i < t.nodes.length) ∧ (∀ q i, At P.W t q i → 1 ≤ i ∧ i < t.nodes.length) := by
  obtain ⟨s, hi⟩ := h.inv (widthOk_of hP)
  have hnd := hi.nodup
  obtain ⟨hnd1, hnd2, hnd3⟩ := List.nodup_append.1 hnd
  have hmem : ∀ i, (i ∈ s.idxs ∨ i ∈ t.avail) ↔ 1 ≤ i ∧ i < t.nodes.length := by
    intro i
    have h1 := hi.perm.mem_iff (a := i)
    have h2 := hi.pos
    rw [List.mem_append, List.mem_range'_1] at h1
    rw [h1]
    omega
  have hat : ∀ q i, At P.W t q i → i ∈ s.idxs := by
    intro q i ha
    obtain ⟨c, hc⟩ := hi.at_iff.1 ha
    exact Sh.mem_nodes_idx hc
  refine ⟨?_, ?_, ?_, fun i h => (hmem i).1 (.inr h), fun q i h => (hmem i).1 (.inl (hat q i h))⟩
  · intro q i n ha h1 hn hc
    obtain ⟨c, hm⟩ := hi.at_iff.1 ha
    have hw := hi.wf
    have hr := hi.rep
    cases s with
    | nil => exact hw.elim
    | node j p c0 ch =>
      obtain ⟨rfl, rfl, hw⟩ := hw
      obtain ⟨_, _, rn, hrn, _, _, hch⟩ := hr
      rcases Sh.mem_nodes_node.1 hm with h | ⟨b, h⟩
      · cases h; exact absurd rfl h1
      · exact Sh.two_children (hw b).2 (hch b) h hn hc
  · intro q q' i i' n n' b b' ha ha' hn hn' h0 he
    exact hi.rep.parent_unique (b := b) (b' := b') hnd1 (hat _ _ ha) (hat _ _ ha') hn hn' h0 he
  · intro i h1 h2
    rcases (hmem i).2 ⟨h1, h2⟩ with h | h
    · left
      obtain ⟨q, c, hq⟩ := Sh.mem_idxs_nodes [] h
      refine ⟨⟨q, hi.at_iff.2 ⟨c, hq⟩, ?_⟩, fun h' => hnd3 i h i h' rfl⟩
      intro q' ha'
      obtain ⟨c', hq'⟩ := hi.at_iff.1 ha'
      exact (Sh.node_unique hnd1 hq' hq).1
    · right
      exact ⟨fun q ha => hnd3 i (hat q i ha) i h rfl, hnd2.count.trans (by simp [h])⟩

/-- a reachable tree with a free slot -/
example : ∃ t : Tree Nat, Reach id16 t ∧ t.avail ≠ [] ∧ t.nodes.length = 6 :=
  ⟨_, reach_of ([.set ⟨0x8000, 16⟩ 1, .set ⟨0x8001, 16⟩ 2, .set ⟨0, 16⟩ 3, .delete ⟨0x8000, 16⟩ (fun _ _ => true) 0] :
    List (Op id16 Nat)) (by decide) rfl, by decide, by decide⟩

/-! ### C46 -/

/-- **C46** In no history does an append move the node array while pointers into it are held. -/
theorem C46_no_realloc (hP : P = id16 ∨ P = id32 ∨ P = id64) (os : List (Op P T))
    (hos : ∀ o ∈ os, o.id.len ≤ P.W) : run (newTree P) os ≠ .realloc := by
  obtain ⟨rs, t, s, h1, h2⟩ := run_inv (widthOk_of hP) (Inv.new (T := T) P) hos
  rw [h1]
  simp

example : (∀ o ∈ ops42, o.id.len ≤ id16.W) ∧ (∀ o ∈ ops42', o.id.len ≤ id32.W) := by decide

/-! ### C47 -/

/-- the kept values do not match each other: they are all put back -/
theorem keepL_eq {m : T → T → Bool} : ∀ {l acc : List T},
    (acc ++ l).Pairwise (fun a b => m a b = false) →
    l.foldl (fun acc x => addL (some m) none x acc) acc = acc ++ l := by
  intro l
  induction l with
  | nil => intro acc _; simp
  | cons x l ih =>
    intro acc h
    rw [List.foldl_cons]
    have hx : addL (some m) none x acc = acc ++ [x] := by
      unfold addL
      have : acc.findIdx? (fun y => m y x) = none := by
        rw [List.findIdx?_eq_none_iff]
        intro y hy
        rw [List.pairwise_append] at h
        exact h.2.2 y hy x (by simp)
      simp only [this]
    rw [hx, ih (by simpa using h)]
    simp

/-- **C47** (in part) `Delete` removes exactly the matching values under the prefix, returns how
many, keeps the others and their order, and every other prefix; provided that the values kept do not
match one another and the keys of the value map do not overlap (`Small`). Missing: match functions
under which kept values match one another (`C47_violated`), and width 64. -/
theorem C47_delete_partial (hP : P = id16 ∨ P = id32 ∨ P = id64) {t : Tree T} (h : Reach P t)
    (hs : Small P.W t) (id : MyId P) (hid : id.len ≤ P.W) (m : T → T → Bool) (v : T) {l : List T}
    (hl : Holds P.W t (pfx id.id id.len) l)
    (hm : (l.filter (fun x => !m x v)).Pairwise (fun a b => m a b = false)) :
    ∃ t', t.delete id m v = .ok ((l.filter (fun x => m x v)).length, t') ∧
      Holds P.W t' (pfx id.id id.len) (l.filter (fun x => !m x v)) ∧
      ∀ q, q ≠ pfx id.id id.len → ∀ l', Holds P.W t q l' ↔ Holds P.W t' q l' := by
  have hP' := widthOk_of hP
  obtain ⟨s, hi⟩ := h.inv hP'
  rw [pfx_id id hid] at *
  have hl' := (hi.holds hi.abs).1 hl
  obtain ⟨t', s', h1, h2, h3, h4⟩ := delete_abs hP' hi hi.abs id hid v m (hs.counts_le hi hi.abs) hs.nodes
  rw [← hl'] at h1 h4
  refine ⟨t', h1, ?_, ?_⟩
  · rw [h2.holds h4]
    have := keepL_eq (m := m) (l := l.filter (fun x => !m x v)) (acc := []) (by simpa using hm)
    unfold setM keepL
    rw [if_pos rfl, this]
    rfl
  · intro q hq l'
    rw [hi.holds hi.abs, h2.holds h4]
    unfold setM
    rw [if_neg hq]

/-- deleting 2 of the values 1, 2, 3 -/
example : ∃ t : Tree Nat, Reach id16 t ∧ t.valsForNode 2 = .ok [1, 2, 3] ∧ Small 16 t ∧
    ([1, 2, 3].filter (fun x => !(x == 2))).Pairwise (fun a b => (a == b) = false) := by
  refine ⟨_, reach_of ([.add ⟨7, 16⟩ 1 none, .add ⟨7, 16⟩ 2 none, .add ⟨7, 16⟩ 3 none] :
    List (Op id16 Nat)) (by decide) rfl, rfl, ⟨by decide, ?_⟩, by decide⟩
  intro q i n _ hn
  have : i < 3 := (List.getElem?_eq_some_iff.1 hn).1
  match i, this with
  | 0, _ => cases hn; decide
  | 1, _ => cases hn; decide
  | 2, _ => cases hn; decide

/-- **C47** fails in general: values that do not match the deleted one are lost if they match each
other. Under one prefix, with "same parity" as the match function, deleting 2 reports that nothing
was removed, but of the values 1 and 3 only 1 remains. -/
theorem C47_violated : ∃ t : Tree Nat, Reach id16 t ∧ Holds 16 t (pfx (7 : BitVec 16) 16) [1, 3] ∧
    ∃ t', t.delete (⟨7, 16⟩ : MyId id16) (fun a b => a % 2 == b % 2) 2 = .ok (0, t') ∧
      Holds 16 t' (pfx (7 : BitVec 16) 16) [1] := by
  refine ⟨_, reach_of ([.add ⟨7, 16⟩ 1 none, .add ⟨7, 16⟩ 3 none] : List (Op id16 Nat)) (by decide) rfl,
    .inl ⟨2, ?_, rfl⟩, _, rfl, .inl ⟨2, ?_, rfl⟩⟩
  · exact at_left rfl (by decide) rfl (by decide) rfl
  · exact at_left rfl (by decide) rfl (by decide) rfl

/-! ### C48 -/

theorem findIdx?_true (l : List T) : l.findIdx? (fun _ => true) = if l = [] then none else some 0 := by
  cases l <;> simp [List.findIdx?_cons]

theorem valStep_set (vals : GoMap (BitVec 64) T) (key : BitVec 64) (c : Nat) (val : T) :
    (valStep vals key c val (some (fun _ _ => true)) (some (fun _ => val))).1 = decide (c = 0) := by
  unfold valStep
  cases c with
  | zero => rfl
  | succ c => simp [findMatch]

/-- the number of values under a prefix, whatever they are -/
theorem Inv.holds_length {W : Nat} {t : Tree T} {s : Sh} (h : Inv W t s) {q : List Bool} {i c : Nat} {l : List T}
    (hm : (q, i, c) ∈ s.nodes []) (hl : Holds W t q l) : l.length = c := by
  have := (h.holds h.abs).1 hl
  have h2 : Holds W t q (valsAt t.vals (t.key i) c) := .inl ⟨i, h.at_iff.2 ⟨c, hm⟩, h.vals_at hm⟩
  have h3 := (h.holds h.abs).1 h2
  rw [this, ← h3, length_valsAt]

/-- **C48** (in part) `Set` returns true iff nothing was stored under the prefix before; the number
of values afterwards, also returned, is 1 if there was at most one. All three widths, also for trees
that were filled with `Add`. Missing: `Set` on a prefix with several values, which keeps their number
(`C48_violated`). -/
theorem C48_set_new_partial (hP : P = id16 ∨ P = id32 ∨ P = id64) {t : Tree T} (h : Reach P t)
    (id : MyId P) (hid : id.len ≤ P.W) (v : T) {l : List T} (hl : Holds P.W t (pfx id.id id.len) l) :
    ∃ c t', t.set id v = .ok (decide (l = []), c, t') ∧ (l.length ≤ 1 → c = 1) ∧
      ∃ l', Holds P.W t' (pfx id.id id.len) l' ∧ l'.length = c := by
  have hP' := widthOk_of hP
  obtain ⟨s, hi⟩ := h.inv hP'
  rw [pfx_id id hid] at *
  obtain ⟨bb, c', t', s', k, c0, used, h1, h2, h3, h4, h5, h6, h7, h8⟩ := add_spec hP' hi id hid v
    (some (fun _ _ => true)) (some (fun _ => v))
  have hent := h3.entries h2 (d := P.W) (pre := []) (.inr hi.wf)
  simp only [List.nil_append] at hent
  obtain ⟨e1, e2⟩ := hent
  have hk' : (bitsId id, k, c') ∈ s'.entries [] := (e1 _ _ _).2 (.inl ⟨rfl, rfl, rfl⟩)
  have hb : bb = decide (c0 = 0) := (congrArg Prod.fst h5).trans (valStep_set _ _ _ _)
  have hlen : l.length = c0 := by
    by_cases hc0 : c0 = 0
    · have := (hi.holds hi.abs).1 hl
      rw [this, hi.abs.none _ (fun x c hx => ((e2 x c).1 hx).2.2 (((e2 x c).1 hx).2.1.trans hc0))]
      exact hc0.symm
    · exact hi.holds_length (Sh.mem_entries.1 ((e2 k c0).2 ⟨rfl, rfl, hc0⟩)).1 hl
  refine ⟨c', t', ?_, ?_, contents t' s' (bitsId id), (h4.holds h4.abs).2 rfl, ?_⟩
  · unfold Tree.set
    rw [h1, hb]
    congr 2
    rw [← hlen]
    simp
  · intro hle
    rw [h6, hb]
    by_cases hc0 : c0 = 0
    · simp [hc0]
    · simp [hc0]; omega
  · exact h4.holds_length (Sh.mem_entries.1 hk').1 ((h4.holds h4.abs).2 rfl)

/-- counts are at most 1 without `Add` -/
theorem runSet_counts (hP : WidthOk P.W) : ∀ {os : List (Op P T)} {t : Tree T} {s : Sh} {rs t'}, Inv P.W t s →
    (∀ q x c, (q, x, c) ∈ s.entries [] → c = 1) →
    (∀ o ∈ os, o.id.len ≤ P.W ∧ o.NoAdd) → run t os = .ok (rs, t') →
    ∃ s', Inv P.W t' s' ∧ ∀ q x c, (q, x, c) ∈ s'.entries [] → c = 1 := by
  intro os
  induction os with
  | nil => intro t s rs t' h hc _ hr; cases hr; exact ⟨s, h, hc⟩
  | cons o os ih =>
    intro t s rs t' h hc ho hr
    have step : ∃ r t1 s1, o.exec t = .ok (r, t1) ∧ Inv P.W t1 s1 ∧ ∀ q x c, (q, x, c) ∈ s1.entries [] → c = 1 := by
      have hlen := (ho o (by simp)).1
      have hna := (ho o (by simp)).2
      cases o with
      | add id v m => exact hna.elim
      | set id v =>
        obtain ⟨bb, c', t', s', k, c0, used, h1, h2, h3, h4, h5, h6, h7, h8⟩ := add_spec hP h id hlen v
          (some (fun _ _ => true)) (some (fun _ => v))
        have hent := h3.entries h2 (d := P.W) (pre := []) (.inr h.wf)
        simp only [List.nil_append] at hent
        obtain ⟨e1, e2⟩ := hent
        have hb : bb = decide (c0 = 0) := (congrArg Prod.fst h5).trans (valStep_set _ _ _ _)
        refine ⟨_, t', s', exec_set h1, h4, ?_⟩
        intro q x c hx
        rcases (e1 q x c).1 hx with ⟨_, _, rfl⟩ | ⟨_, h⟩
        · rw [h6, hb]
          by_cases hc0 : c0 = 0
          · simp [hc0]
          · have := hc _ _ _ ((e2 k c0).2 ⟨rfl, rfl, hc0⟩)
            simp [this]
        · exact hc q x c h
      | delete id m v =>
        rcases delete_spec hP h id hlen v m with ⟨h1, h2⟩ | ⟨k, c0, d, t', s', hk, h1, h2⟩
        · exact ⟨_, t, s, exec_delete h1, h, hc⟩
        · refine ⟨_, t', s', exec_delete h1, h2.inv, ?_⟩
          have hc0 := hc _ _ _ hk
          obtain ⟨_, hD, _⟩ := delVals_spec (vals := t.vals) (key := t.key k) (c := c0) (v := v) (m := m) (by omega)
          intro q x c hx
          rcases h2.out with ⟨o1, o2, o3, rfl⟩ | ⟨o1, mv, cj, o2, o3, o4⟩
          · obtain ⟨g1, g2⟩ := Sh.mem_entries.1 hx
            rcases Sh.mem_setCnt.1 g1 with ⟨_, g⟩ | ⟨_, rfl, _⟩
            · exact hc q x c (Sh.mem_entries.2 ⟨g, g2⟩)
            · omega
          · obtain ⟨x0, _, g, _⟩ := (o4 q x c).1 hx
            exact hc q x0 c g
    obtain ⟨r, t1, s1, h1, h2, h3⟩ := step
    obtain ⟨rs2, t2, s2, g1, g2⟩ := run_inv hP (os := os) h2 (fun o' h' => (ho o' (by simp [h'])).1)
    rw [run, h1] at hr
    simp only [Out.bind_ok] at hr
    rw [g1] at hr
    cases hr
    exact ih h2 h3 (fun o' h' => ho o' (by simp [h'])) g1

/-- **C48** (histories of `Set` and `Delete`) In a tree on which `Add` was not called, `Set` returns
true iff nothing was stored under the prefix before, and the number of values afterwards is 1. All
three widths. -/
theorem C48_set_new (hP : P = id16 ∨ P = id32 ∨ P = id64) {t : Tree T} (h : ReachSet P t)
    (id : MyId P) (hid : id.len ≤ P.W) (v : T) {l : List T} (hl : Holds P.W t (pfx id.id id.len) l) :
    ∃ t', t.set id v = .ok (decide (l = []), 1, t') ∧
      ∃ l', Holds P.W t' (pfx id.id id.len) l' ∧ l'.length = 1 := by
  have h' := h
  obtain ⟨os, rs, h1, h2⟩ := h'
  obtain ⟨s, g1, g2⟩ := runSet_counts (widthOk_of hP) (Inv.new (T := T) P) (by simp [Sh.entries, Sh.nodes]) h1 h2
  obtain ⟨c, t', e1, e2, l', e3, e4⟩ := C48_set_new_partial hP h.reach id hid v hl
  have hle : l.length ≤ 1 := by
    have hl' := (g1.holds g1.abs).1 hl
    by_cases hm : ∃ x c, (pfx id.id id.len, x, c) ∈ s.entries []
    · obtain ⟨x, c, hx⟩ := hm
      have := g1.holds_length (Sh.mem_entries.1 hx).1 hl
      rw [this, g2 _ _ _ hx]
      exact Nat.le_refl _
    · rw [hl', g1.abs.none _ (fun x c hx => hm ⟨x, c, hx⟩)]
      exact Nat.zero_le _
  have hc := e2 hle
  subst hc
  exact ⟨t', e1, l', e3, e4⟩

/-- a reachable tree with and without a value -/
example : ∃ t : Tree Nat, ReachSet id32 t ∧ Holds 32 t (pfx (7 : BitVec 32) 32) [1] := by
  refine ⟨_, ⟨[.set ⟨7, 32⟩ 1], _, ?_, rfl⟩, .inl ⟨2, ?_, rfl⟩⟩
  · intro o ho
    simp only [List.mem_cons, List.not_mem_nil, or_false] at ho
    subst ho
    exact ⟨by decide, trivial⟩
  · exact at_left rfl (by decide) rfl (by decide) rfl

/-- **C48** fails for prefixes that hold several values: `Set` replaces the first one only. -/
theorem C48_violated : ∃ t : Tree Nat, Reach id16 t ∧ ∃ t', t.set (⟨7, 16⟩ : MyId id16) 9 = .ok (false, 2, t') ∧
    Holds 16 t' (pfx (7 : BitVec 16) 16) [9, 3] := by
  refine ⟨_, reach_of ([.add ⟨7, 16⟩ 1 none, .add ⟨7, 16⟩ 3 none] : List (Op id16 Nat)) (by decide) rfl,
    _, rfl, .inl ⟨2, ?_, rfl⟩⟩
  exact at_left rfl (by decide) rfl (by decide) rfl

/-! ### C49 -/

/-- **C49** fails: the copy does not get the width and the bit function. Iteration over the copy
yields other values (`0`, the zero value, instead of `7`), and a `Set` on a copy with two prefixes
panics. -/
theorem C49_violated :
    (∃ t : Tree Nat, Reach id16 t ∧ t.visit = .ok [(1, [7])] ∧ t.clone.visit = .ok [(1, [0])]) ∧
    (∃ t : Tree Nat, Reach id16 t ∧ (∃ b c t', t.set (⟨0, 16⟩ : MyId id16) 1 = .ok (b, c, t')) ∧
      t.clone.set (⟨0, 16⟩ : MyId id16) 1 = .panic "nil function") := by
  refine ⟨⟨_, reach_of ([.set ⟨0, 0⟩ 7] : List (Op id16 Nat)) (by decide) rfl, rfl, rfl⟩,
    ⟨_, reach_of ([.set ⟨1, 16⟩ 7] : List (Op id16 Nat)) (by decide) rfl, ⟨_, _, _, rfl⟩, rfl⟩⟩

/-- the copy of a tree without values has no values -/
theorem clone_visit_empty {t : Tree T} : t.visit = .ok [] → t.clone.visit = .ok [] := by
  intro hv
  -- the positions do not depend on the width
  have hround : ∀ it, round t.clone it = round t it := fun it => rfl
  have hnext : ∀ fuel it, nextLoop t.clone fuel it = nextLoop t fuel it := by
    intro fuel
    induction fuel with
    | zero => intro it; rfl
    | succ fuel ih =>
      intro it
      rw [nextLoop, nextLoop, hround]
      cases round t it with
      | ok r => cases r with
        | cont it' => exact ih it'
        | found it' => rfl
        | finished it' => rfl
      | _ => rfl
  have e : ∀ t : Tree T, t.visit = (do
      let (b, it) ← nextLoop t (3 * t.nodes.length + 1) Tree.iterate
      if b then
        let v ← t.valsForNode it.index
        let l ← visitLoop t t.nodes.length it
        return (it.index, v) :: l
      else return []) := fun t => rfl
  rw [e] at hv ⊢
  have hn : t.clone.nodes.length = t.nodes.length := rfl
  rw [hn, hnext]
  cases hnl : nextLoop t (3 * t.nodes.length + 1) Tree.iterate with
  | ok r =>
    obtain ⟨b, it⟩ := r
    rw [hnl] at hv
    cases b with
    | false => rfl
    | true =>
      simp only [Out.bind_ok, if_true] at hv
      cases h1 : t.valsForNode it.index with
      | ok v =>
        rw [h1] at hv
        simp only [Out.bind_ok] at hv
        cases h2 : visitLoop t t.nodes.length it with
        | ok l => rw [h2] at hv; cases hv
        | _ => rw [h2] at hv; cases hv
      | _ => rw [h1] at hv; cases hv
  | _ => rw [hnl] at hv; cases hv

/-- **C49** (in part) Apart from the width and the bit function the copy is equal: with those set, it
is the original (and so behaves alike from then on; the arrays and the map are copied, so changes of
one do not reach the other). The copy of a tree without values has the same contents. Missing: trees
with values, see `C49_violated`. -/
theorem C49_clone_partial (hP : P = id16 ∨ P = id32 ∨ P = id64) {t : Tree T} (h : Reach P t) :
    { t.clone with leftFn := some P.W, length := P.W } = t ∧
    (t.visit = .ok [] → t.clone.visit = .ok []) := by
  obtain ⟨s, hi⟩ := h.inv (widthOk_of hP)
  have key : { t.clone with leftFn := some P.W, length := P.W } = t := by
    have h1 := hi.leftFn
    have h2 := hi.length
    cases t
    simp only at h1 h2
    simp [Tree.clone, h1, h2]
  exact ⟨key, clone_visit_empty⟩

/-- a tree that has become empty again -/
example : ∃ t : Tree Nat, Reach id16 t ∧ t.visit = .ok [] ∧ t.avail ≠ [] :=
  ⟨_, reach_of ([.set ⟨1, 16⟩ 7, .delete ⟨1, 16⟩ (fun _ _ => true) 0] : List (Op id16 Nat)) (by decide) rfl,
    rfl, by decide⟩

/-! ### C50 -/

/-- **C50** (in part) `Set`, `Add` and `Delete` on one prefix leave the values under every other
prefix alone, provided the keys of the value map do not overlap before and after (`Small`; for width
16 this is a bound on the number of values under one prefix only, `small16`). Missing: width 64, and
more values or nodes (`C50_tree64_violated`, `C50_tree16_violated`). -/
theorem C50_no_interference_partial (hP : P = id16 ∨ P = id32 ∨ P = id64) {t t' : Tree T} (h : Reach P t)
    (o : Op P T) (ho : o.id.len ≤ P.W) {r : Res} (he : o.exec t = .ok (r, t')) (hs : Small P.W t)
    (hs' : Small P.W t') (q : List Bool) (hq : q ≠ o.pfx) (l : List T) :
    Holds P.W t q l ↔ Holds P.W t' q l := by
  have hP' := widthOk_of hP
  obtain ⟨s, hi⟩ := h.inv hP'
  unfold Op.pfx at hq
  rw [pfx_id o.id ho] at hq
  have hadd : ∀ (id : MyId P) (val : T) m u bb c, id.len ≤ P.W → q ≠ bitsId id →
      t.add id val m u = .ok (bb, c, t') → (Holds P.W t q l ↔ Holds P.W t' q l) := by
    intro id val m u bb c hid hq hadd
    obtain ⟨bb, c', t1, s', k, c0, used, h1, h2, h3, h4, h5, h6, h7, h8⟩ := add_spec hP' hi id hid val m u
    rw [hadd] at h1
    cases h1
    have hent := h3.entries h2 (d := P.W) (pre := []) (.inr hi.wf)
    simp only [List.nil_append] at hent
    obtain ⟨e1, e2⟩ := hent
    have hk' := (e1 _ _ _).2 (.inl ⟨rfl, rfl, rfl⟩)
    have hv2 : t'.vals = (valStep t.vals (t.key k) c0 val m u).2 := congrArg Prod.snd h5
    rw [hi.holds hi.abs, h4.holds h4.abs]
    have hc' : c ≤ 2 ^ P.W := by
      obtain ⟨n, hn, hc⟩ := h4.rep.cnt (Sh.mem_entries.1 hk').1
      rw [← hc]
      exact hs'.counts _ _ _ (h4.at_iff.2 ⟨_, (Sh.mem_entries.1 hk').1⟩) hn
    have : contents t s q = contents t' s' q := by
      by_cases hm : ∃ x c, (q, x, c) ∈ s.entries []
      · obtain ⟨x, cx, hx⟩ := hm
        have hx' := (e1 q x cx).2 (.inr ⟨hq, hx⟩)
        rw [hi.abs.entry q x cx hx, h4.abs.entry q x cx hx', h4.key, hv2]
        have hxk : x ≠ k := by
          rintro rfl
          exact hq (Sh.node_unique h4.idxs_nodup (Sh.mem_entries.1 hx').1 (Sh.mem_entries.1 hk').1).1
        have hcx : cx ≤ 2 ^ P.W := by
          obtain ⟨n, hn, hc⟩ := hi.rep.cnt (Sh.mem_entries.1 hx).1
          rw [← hc]
          exact hs.counts _ _ _ (hi.at_iff.2 ⟨_, (Sh.mem_entries.1 hx).1⟩) hn
        rw [hi.key, hi.key]
        -- the keys that are written
        by_cases hbb : bb = true
        · have hc0 : c0 < 2 ^ P.W := by rw [hbb] at h6; simp at h6; omega
          apply valsAt_congr
          intro j hj
          rw [valStep_other]
          intro j' hj'
          replace hj' : j' < c0 + 1 := Nat.lt_of_lt_of_le hj' (Nat.add_le_add_left (Bool.toNat_le _) _)
          exact key_sep hP'.le.2 (h4.entry_ok hs'.nodes (Sh.mem_entries_idx hx'))
            (h4.entry_ok hs'.nodes (Sh.mem_entries_idx hk')) (by omega) (by omega) hxk
        · have hlt : ∀ j k', j < c0 → k' < cx → x ≠ k →
              (BitVec.ofNat 64 x <<< P.W) + BitVec.ofNat 64 k' ≠ (BitVec.ofNat 64 k <<< P.W) + BitVec.ofNat 64 j := by
            intro j k' hj hk hne
            have : c0 ≤ 2 ^ P.W := by omega
            exact key_sep hP'.le.2 (h4.entry_ok hs'.nodes (Sh.mem_entries_idx hx'))
              (h4.entry_ok hs'.nodes (Sh.mem_entries_idx hk')) (by omega) (by omega) hne
          apply valsAt_congr
          intro j hj
          have hb2 : (valStep t.vals (BitVec.ofNat 64 k <<< P.W) c0 val m u).1 = false := by
            have := congrArg Prod.fst h5
            rw [hi.key] at this
            rw [← this]; simpa using hbb
          unfold valStep at hb2 ⊢
          cases m with
          | none => simp at hb2
          | some m =>
            have hfm := findMatch_eq t.vals (BitVec.ofNat 64 k <<< P.W) m val c0 0
            simp only at hb2 ⊢
            cases hf : findMatch t.vals (BitVec.ofNat 64 k <<< P.W) m val c0 0 with
            | none => rw [hf] at hb2; simp at hb2
            | some y =>
              cases u with
              | none => rfl
              | some u =>
                simp only
                rw [getV_set, if_neg]
                rw [hf] at hfm
                have hy : y < c0 := by
                  cases hfi : ((List.range' 0 c0).map (fun j => getV t.vals ((BitVec.ofNat 64 k <<< P.W) + BitVec.ofNat 64 j))).findIdx? (fun x => m x val) with
                  | none => rw [hfi] at hfm; cases hfm
                  | some z =>
                    rw [hfi] at hfm
                    cases hfm
                    obtain ⟨hz, _⟩ := List.findIdx?_eq_some_iff_getElem.1 hfi
                    simpa using hz
                exact hlt y j hy hj hxk
      · rw [hi.abs.none q (fun x c hx => hm ⟨x, c, hx⟩), h4.abs.none q]
        intro x c hx
        rcases (e1 q x c).1 hx with ⟨h, _⟩ | ⟨_, h⟩
        · exact hq h
        · exact hm ⟨x, c, h⟩
    rw [this]
  cases o with
  | set id v =>
    obtain ⟨bb, c', t1, s', k, c0, used, h1, _⟩ := add_spec hP' hi id ho v (some (fun _ _ => true)) (some (fun _ => v))
    rw [exec_set h1] at he
    cases he
    exact hadd id v _ _ _ _ ho hq h1
  | add id v m =>
    obtain ⟨bb, c', t1, s', k, c0, used, h1, _⟩ := add_spec hP' hi id ho v m none
    rw [exec_add h1] at he
    cases he
    exact hadd id v _ _ _ _ ho hq h1
  | delete id m v =>
    obtain ⟨t1, s', h1, h2, h3, h4⟩ := delete_abs hP' hi hi.abs id ho v m (hs.counts_le hi hi.abs) hs.nodes
    rw [exec_delete h1] at he
    cases he
    rw [hi.holds hi.abs, h2.holds h4]
    have hq' : q ≠ bitsId id := hq
    unfold setM
    rw [if_neg hq']

/-- for width 16 the number of nodes is no restriction -/
theorem small16 {t : Tree T} (h : Reach id16 t)
    (hc : ∀ (q : List Bool) (i : Nat) (n : Node), At 16 t q i → t.nodes[i]? = some n → n.cnt ≤ 2 ^ 16) : Small 16 t := by
  refine ⟨?_, hc⟩
  obtain ⟨os, rs, h1, h2⟩ := h
  have key : ∀ (os : List (Op id16 T)) (t : Tree T) (s : Sh) rs t', Inv 16 t s → t.nodes.length ≤ 2 ^ 48 + 1 →
      (∀ o ∈ os, o.id.len ≤ 16) → run t os = .ok (rs, t') → t'.nodes.length ≤ 2 ^ 48 + 1 := by
    intro os
    induction os with
    | nil => intro t s rs t' _ hl _ hr; cases hr; exact hl
    | cons o os ih =>
      intro t s rs t' hi hl ho hr
      have hw : WidthOk id16.W := .inl rfl
      have step : ∃ r t1 s1, o.exec t = .ok (r, t1) ∧ Inv 16 t1 s1 ∧ t1.nodes.length ≤ 2 ^ 48 + 1 := by
        have hlen := ho o (by simp)
        cases o with
        | set id v =>
          obtain ⟨bb, c', t', s', k, c0, used, h1, h2, h3, h4, h5, h6, h7, h8⟩ := add_spec hw hi id hlen v
            (some (fun _ _ => true)) (some (fun _ => v))
          exact ⟨_, t', s', exec_set h1, h4, h4.bound (t := t) h7 hl (.inl rfl)⟩
        | add id v m =>
          obtain ⟨bb, c', t', s', k, c0, used, h1, h2, h3, h4, h5, h6, h7, h8⟩ := add_spec hw hi id hlen v m none
          exact ⟨_, t', s', exec_add h1, h4, h4.bound (t := t) h7 hl (.inl rfl)⟩
        | delete id m v =>
          rcases delete_spec hw hi id hlen v m with ⟨h1, h2⟩ | ⟨k, c0, d, t', s', hk, h1, h2⟩
          · exact ⟨_, t, s, exec_delete h1, hi, hl⟩
          · exact ⟨_, t', s', exec_delete h1, h2.inv, by rw [h2.len]; exact hl⟩
      obtain ⟨r, t1, s1, g1, g2, g3⟩ := step
      obtain ⟨rs2, t2, s2, e1, e2⟩ := run_inv hw (os := os) g2 (fun o' h' => ho o' (by simp [h']))
      rw [run, g1] at hr
      simp only [Out.bind_ok] at hr
      rw [e1] at hr
      cases hr
      exact ih t1 s1 rs2 _ g2 g3 (fun o' h' => ho o' (by simp [h'])) e1
  exact key os _ _ rs t (Inv.new (T := T) id16) (Nat.le_trans (Nat.le_refl 2) (by decide)) h1 h2

/-- a tree and a call that meet the conditions -/
example : ∃ (t t' : Tree Nat) (r : Res), Reach id16 t ∧ (Op.set ⟨7, 16⟩ 5 : Op id16 Nat).exec t = .ok (r, t') ∧
    Small 16 t ∧ Small 16 t' ∧ Holds 16 t (pfx (6 : BitVec 16) 16) [1] := by
  refine ⟨_, _, _, reach_of ([.set ⟨6, 16⟩ 1] : List (Op id16 Nat)) (by decide) rfl, rfl,
    ⟨by decide, ?_⟩, ⟨by decide, ?_⟩, .inl ⟨2, at_left rfl (by decide) rfl (by decide) rfl, rfl⟩⟩
  · intro q i n _ hn
    have : i < 3 := (List.getElem?_eq_some_iff.1 hn).1
    match i, this with
    | 0, _ => cases hn; decide
    | 1, _ => cases hn; decide
    | 2, _ => cases hn; decide
  · intro q i n _ hn
    have : i < 5 := (List.getElem?_eq_some_iff.1 hn).1
    match i, this with
    | 0, _ => cases hn; decide
    | 1, _ => cases hn; decide
    | 2, _ => cases hn; decide
    | 3, _ => cases hn; decide
    | 4, _ => cases hn; decide

/-- **C50** fails for width 64: with two prefixes stored, setting one changes the other. -/
theorem C50_tree64_violated : ∃ (t t' : Tree Nat) (r : Res), Reach id64 t ∧
    (Op.set ⟨0x8000000000000000, 1⟩ 2 : Op id64 Nat).exec t = .ok (r, t') ∧
    Holds 64 t (pfx (0 : BitVec 64) 64) [1] ∧ Holds 64 t' (pfx (0 : BitVec 64) 64) [2] := by
  refine ⟨_, _, _, reach_of ([.set ⟨0, 64⟩ 1] : List (Op id64 Nat)) (by decide) rfl, rfl,
    .inl ⟨2, at_left rfl (by decide) rfl (by decide) rfl, rfl⟩, .inl ⟨2, at_left rfl (by decide) rfl (by decide) rfl, rfl⟩⟩

/-- a tree with `n + 1` values under 0/16 and one under 0x8000/16 -/
def twoT (n : Nat) (vals : GoMap (BitVec 64) Nat) : Tree Nat :=
  ⟨some 16, 16, [default, ⟨2, 3, 0, 0, 0⟩, ⟨0, 0, 0, 16, n + 1⟩, ⟨0, 0, 0x8000, 16, 1⟩], 14, [], vals⟩

theorem twoT_add (n : Nat) (vals : GoMap (BitVec 64) Nat) (v : Nat) :
    (Op.add ⟨0, 16⟩ v none : Op id16 Nat).exec (twoT n vals) =
      .ok (.added true (n + 2), twoT (n + 1) (vals.set (BitVec.ofNat 64 2 <<< 16 + BitVec.ofNat 64 (n + 1)) v)) := by
  with_unfolding_all rfl

/-- **C50** fails for width 16 with more than `2^16` values under one prefix: the next value is stored
at the key of the neighbour's first value. -/
theorem C50_tree16_violated : ∃ (t t' : Tree Nat) (r : Res), Reach id16 t ∧ Small 16 t ∧
    (Op.add ⟨0, 16⟩ 5 none : Op id16 Nat).exec t = .ok (r, t') ∧
    Holds 16 t (pfx (0x8000 : BitVec 16) 16) [7] ∧ Holds 16 t' (pfx (0x8000 : BitVec 16) 16) [5] := by
  have hreach : ∀ n, ∃ vals, Reach id16 (twoT n vals) ∧ (n < 2 ^ 16 → getV vals 0x30000 = 7) := by
    intro n
    induction n with
    | zero =>
      refine ⟨_, reach_of ([.set ⟨0, 16⟩ 1, .set ⟨0x8000, 16⟩ 7, .set ⟨0, 16⟩ 1] : List (Op id16 Nat))
        (by decide) rfl, fun _ => rfl⟩
    | succ n ih =>
      obtain ⟨vals, ⟨os, rs, h1, h2⟩, h3⟩ := ih
      refine ⟨vals.set (BitVec.ofNat 64 2 <<< 16 + BitVec.ofNat 64 (n + 1)) 0,
        ⟨os ++ [.add ⟨0, 16⟩ 0 none], rs ++ [.added true (n + 2)], ?_, ?_⟩, ?_⟩
      · intro o ho
        rcases List.mem_append.1 ho with h | h
        · exact h1 o h
        · simp only [List.mem_singleton] at h; subst h; decide
      · exact run_append h2 (twoT_add n vals 0)
      · intro hn
        rw [getV_set, if_neg, h3 (by omega)]
        intro h
        have := congrArg BitVec.toNat h
        rw [BitVec.toNat_add, BitVec.toNat_ofNat] at this
        have e1 : (0x30000 : BitVec 64).toNat = 0x30000 := by decide
        have e2 : (BitVec.ofNat 64 2 <<< 16).toNat = 0x20000 := by decide
        rw [e1, e2] at this
        omega
  obtain ⟨vals, h1, h2⟩ := hreach (2 ^ 16 - 1)
  refine ⟨_, _, _, h1, small16 h1 ?_, twoT_add _ _ _, .inl ⟨3, ?_, ?_⟩, .inl ⟨3, ?_, ?_⟩⟩
  · intro q i n _ hn
    have : i < 4 := (List.getElem?_eq_some_iff.1 hn).1
    match i, this with
    | 0, _ => cases hn; decide
    | 1, _ => cases hn; decide
    | 2, _ => cases hn; decide
    | 3, _ => cases hn; decide
  · exact At.right (n := ⟨2, 3, 0, 0, 0⟩) (c := ⟨0, 0, 0x8000, 16, 1⟩) At.root rfl (by decide) rfl
  · show Out.ok [getV vals 0x30000] = _
    rw [h2 (by decide)]
  · exact At.right (n := ⟨2, 3, 0, 0, 0⟩) (c := ⟨0, 0, 0x8000, 16, 1⟩) At.root rfl (by decide) rfl
  · show Out.ok [getV (vals.set _ 5) 0x30000] = _
    rw [getV_set, if_pos (by decide)]

/-! ### C51 -/

/-- **C51** Splitting an id at bit `a` (the first `a` bits, and what `ShiftLeft` leaves) and merging
the parts again gives the same length and the same bits; if the id has no bits beyond its length,
the same integer. All three widths. -/
theorem C51_merge_inverts_shift (hP : P = id16 ∨ P = id32 ∨ P = id64) (i : MyId P) (hi : i.len ≤ P.W)
    (a : Nat) (ha : a ≤ i.len) :
    ∃ z, mergeID P.W i.id a (shiftLeft i a).id (shiftLeft i a).len = .ok (z, i.len) ∧
      pfx z i.len = pfx i.id i.len ∧ (2 ^ (P.W - i.len) ∣ i.id.toNat → z = i.id) := by
  have hW := (widthOk_of hP).le
  obtain ⟨h1, h2⟩ := bitsId_shiftLeft (P := P) (by omega) i ha hi
  have hsum : a + (shiftLeft i a).len = i.len := by rw [h2]; omega
  have hmerge : mergeID P.W i.id a (shiftLeft i a).id (shiftLeft i a).len =
      .ok ((i.id &&& leftMask P.W a) ||| (((shiftLeft i a).id &&& leftMask P.W (shiftLeft i a).len) >>> a), i.len) := by
    unfold mergeID
    rw [if_neg (by omega), if_neg (by omega), hsum, Nat.mod_eq_of_lt (by omega)]
  obtain ⟨z, g1, g2⟩ := mergeID_eq i.id (shiftLeft i a).id (a := a) (b := (shiftLeft i a).len) (W := P.W)
    (by omega) (by omega)
  have hz := g1
  rw [hmerge] at hz
  rw [hsum] at g1 g2
  have hbits : bitsOf P.W z i.len = bitsOf P.W i.id i.len := by
    rw [g2]
    have : bitsOf P.W (shiftLeft i a).id (shiftLeft i a).len = (bitsId i).drop a := h1
    rw [this, ← take_bitsOf P.W i.id ha]
    exact List.take_append_drop a (bitsOf P.W i.id i.len)
  refine ⟨z, g1, ?_, ?_⟩
  · rw [pfx_eq z hi, pfx_eq i.id hi, hbits]
  · intro hd
    have hq := (bitsOf_eq_iff z i.id hi).1 hbits
    have hz' : z = (i.id &&& leftMask P.W a) |||
        (((shiftLeft i a).id &&& leftMask P.W (shiftLeft i a).len) >>> a) := by
      injection hz with hz
      exact (congrArg Prod.fst hz).symm
    -- no bits beyond the length
    have hlow : 2 ^ (P.W - i.len) ∣ z.toNat := by
      rw [Nat.dvd_iff_mod_eq_zero]
      apply Nat.eq_of_testBit_eq
      intro k
      rw [Nat.testBit_mod_two_pow, Nat.zero_testBit]
      by_cases hk : k < P.W - i.len
      · simp only [hk, decide_true, Bool.true_and]
        have : z.toNat.testBit k = z.getLsbD k := rfl
        rw [this, hz', BitVec.getLsbD_or, BitVec.getLsbD_and, BitVec.getLsbD_ushiftRight, BitVec.getLsbD_and,
          getLsbD_leftMask (by omega) k (by omega)]
        rw [show decide (P.W - a ≤ k) = false by simp; omega]
        rw [getLsbD_leftMask (by omega) (a + k) (by omega)]
        rw [show decide (P.W - (shiftLeft i a).len ≤ a + k) = false by simp; omega]
        simp
      · simp [hk]
    apply BitVec.eq_of_toNat_eq
    obtain ⟨x, hx⟩ := hlow
    obtain ⟨y, hy⟩ := hd
    rw [hx, hy] at hq ⊢
    rw [Nat.mul_div_cancel_left _ (Nat.two_pow_pos _), Nat.mul_div_cancel_left _ (Nat.two_pow_pos _)] at hq
    rw [hq]

/-- splitting 0b1010110...0/7 at bit 3 -/
example : (match mergeID 16 0xac00 3 (shiftLeft (⟨0xac00, 7⟩ : MyId id16) 3).id 4 with | .ok r => some r | _ => none) =
    some (0xac00, 7) ∧ (shiftLeft (⟨0xac00, 7⟩ : MyId id16) 3).id = 0x6000 := by decide

/-! ### C72 -/

/-- one of the values is a duplicate of `v`, in the eyes of the function `m` given to `Add` -/
def Dup (m : Option (T → T → Bool)) (v : T) (l : List T) : Prop :=
  match m with
  | none => False
  | some m => ∃ w ∈ l, m w v = true

theorem addL_none_dup {m : Option (T → T → Bool)} {v : T} {l : List T} (h : Dup m v l) :
    addL m none v l = l := by
  cases m with
  | none => exact h.elim
  | some m =>
    obtain ⟨w, hw, hm⟩ := h
    unfold addL
    simp only
    cases hf : l.findIdx? (fun x => m x v) with
    | some j => rfl
    | none => exact absurd hm (by simpa using List.findIdx?_eq_none_iff.1 hf w hw)

theorem addL_none_new {m : Option (T → T → Bool)} {v : T} {l : List T} (h : ¬ Dup m v l) :
    addL m none v l = l ++ [v] := by
  cases m with
  | none => rfl
  | some m =>
    unfold addL
    simp only
    cases hf : l.findIdx? (fun x => m x v) with
    | none => rfl
    | some j =>
      refine absurd ?_ h
      obtain ⟨hj, hm, _⟩ := List.findIdx?_eq_some_iff_getElem.1 hf
      exact ⟨l[j], List.getElem_mem hj, hm⟩

/-- **C72** `Add` appends the value to those of the prefix, unless one of these is a duplicate of it,
in which case nothing is stored under the prefix or removed. It reports which of the two happened and
the number of values under the prefix afterwards. All three widths, every reached tree; the number
of values under a prefix has to be a 64 bit number. That other prefixes keep their values is C50. -/
theorem C72_add (hP : P = id16 ∨ P = id32 ∨ P = id64) {t : Tree T} (h : Reach P t) (id : MyId P)
    (hid : id.len ≤ P.W) (v : T) (m : Option (T → T → Bool)) {l : List T}
    (hl : Holds P.W t (pfx id.id id.len) l) (hlen : l.length < 2 ^ 64) :
    ∃ b c t' l', t.Add id v m = .ok (b, c, t') ∧ Holds P.W t' (pfx id.id id.len) l' ∧ c = l'.length ∧
      (Dup m v l → b = false ∧ l' = l) ∧ (¬ Dup m v l → b = true ∧ l' = l ++ [v]) := by
  have hP' := widthOk_of hP
  obtain ⟨s, hi⟩ := h.inv hP'
  rw [pfx_id id hid] at *
  obtain ⟨bb, c', t', s', k, c0, used, h1, h2, h3, h4, h5, h6, h7, h8⟩ := add_spec hP' hi id hid v m none
  have hent := h3.entries h2 (d := P.W) (pre := []) (.inr hi.wf)
  simp only [List.nil_append] at hent
  obtain ⟨e1, e2⟩ := hent
  have hk' : (bitsId id, k, c') ∈ s'.entries [] := (e1 _ _ _).2 (.inl ⟨rfl, rfl, rfl⟩)
  have hl0 : l = valsAt t.vals (t.key k) c0 := by
    rw [(hi.holds hi.abs).1 hl]
    by_cases hc0 : c0 = 0
    · subst hc0
      rw [hi.abs.none _ (fun x c hx => ((e2 x c).1 hx).2.2 ((e2 x c).1 hx).2.1)]
      rfl
    · exact hi.abs.entry _ _ _ ((e2 k c0).2 ⟨rfl, rfl, hc0⟩)
  have hc0 : c0 = l.length := by rw [hl0, length_valsAt]
  have hv1 : bb = (valStep t.vals (t.key k) c0 v m none).1 := congrArg Prod.fst h5
  have hv2 : t'.vals = (valStep t.vals (t.key k) c0 v m none).2 := congrArg Prod.snd h5
  have hself : valsAt t'.vals (t.key k) c' = addL m none v l := by
    rw [h6, hv1, hv2, hl0]
    exact valStep_self v m none (by have := Bool.toNat_le (valStep t.vals (t.key k) c0 v m none).1; omega)
  have hlen' : c' = (addL m none v l).length := by rw [← hself, length_valsAt]
  refine ⟨bb, c', t', addL m none v l, h1, ?_, hlen', ?_, ?_⟩
  · rw [h4.holds h4.abs, h4.abs.entry _ _ _ hk', h4.key, ← hi.key]
    exact hself.symm
  · intro hd
    rw [addL_none_dup hd] at hlen' ⊢
    refine ⟨?_, rfl⟩
    cases bb with
    | false => rfl
    | true => simp at h6; omega
  · intro hd
    rw [addL_none_new hd] at hlen' ⊢
    refine ⟨?_, rfl⟩
    cases bb with
    | true => rfl
    | false => simp at h6 hlen'; omega

/-- the hypotheses of C72 are met, with and without a duplicate -/
example : ∃ t : Tree Nat, Reach id64 t ∧ Holds 64 t (pfx (7 : BitVec 64) 64) [1, 3] ∧
    Dup (some (· == ·)) 3 [1, 3] ∧ ¬ Dup (some (· == ·)) 2 [1, 3] := by
  refine ⟨_, reach_of ([.add ⟨7, 64⟩ 1 none, .add ⟨7, 64⟩ 3 (some (· == ·)), .add ⟨7, 64⟩ 3 (some (· == ·))] :
    List (Op id64 Nat)) (by decide) rfl, .inl ⟨2, ?_, rfl⟩, ⟨3, by simp, rfl⟩, by simp [Dup]⟩
  exact at_left rfl (by decide) rfl (by decide) rfl

end Verif.Tree
