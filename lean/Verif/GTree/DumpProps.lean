import Verif.GTree.DumpModel
import Verif.GTree.CloneProps
import Verif.Errs.SetProps

/-! Property C112: the debugging output of trees. -/

namespace Verif.GTree
open Verif.Id
open Verif.Tree (Tree Node At Inv Sh)
open Verif.IdxTable (Spells spells_unique)
variable {I : Impl}

/-! ### Specification -/

/-- the line shows the node `i`: its links, its part of the prefix with the length, and the number of values -/
def ShowsNode (l : Text) (i : Nat) (n : Node) : Prop :=
  Spells l ["node ", " {", " ", " ", " ", " ", "}"] [i, n.left, n.right, n.id.toNat, n.len, n.cnt]

/-- the text consists of lines that end with a newline -/
def Printed (m : Text) (ls : List Text) : Prop := Lines m (ls ++ [[]])

/-! ### `PrintNodes` -/

theorem shows_nodeLine (i : Nat) (n : Node) : ShowsNode (nodeLine i n) i n :=
  .more (numeral_fmtUint _) (.more (numeral_fmtUint _) (.more (numeral_fmtUint _) (.more (numeral_fmtUint _)
    (.more (numeral_fmtUint _) (.more (numeral_fmtUint _) .last)))))

theorem nodeLine_no10 (i : Nat) (n : Node) : (10 : UInt8) ∉ nodeLine i n := by
  have h : ∀ k, (10 : UInt8) ∉ fmtUint k := fun k => (numeral_fmtUint k).no_other (by decide)
  have h1 : (10 : UInt8) ∉ ascii "node " := by decide
  have h2 : (10 : UInt8) ∉ ascii " {" := by decide
  have h3 : (10 : UInt8) ∉ ascii " " := by decide
  have h4 : (10 : UInt8) ∉ ascii "}" := by decide
  simp only [nodeLine, List.mem_append, not_or]
  exact ⟨⟨h1, h _⟩, ⟨h2, h _⟩, ⟨h3, h _⟩, ⟨h3, h _⟩, ⟨h3, h _⟩, ⟨h3, h _⟩, h4⟩

theorem printed_loop (ns : List Node) : ∀ k, ∃ ls, Printed (printNodesLoop k ns) ls ∧ ls.length = ns.length ∧
    ∀ i n, ns[i]? = some n → ∃ l, ls[i]? = some l ∧ ShowsNode l (k + i) n := by
  induction ns with
  | nil =>
    intro k
    exact ⟨[], .one (l := []) (by simp), rfl, fun i n h => by simp at h⟩
  | cons n ns ih =>
    intro k
    obtain ⟨ls, h1, h2, h3⟩ := ih (k + 1)
    refine ⟨nodeLine k n :: ls, .more (nodeLine_no10 k n) h1, by simp [h2], ?_⟩
    intro i n' h
    cases i with
    | zero =>
      cases h
      exact ⟨_, rfl, shows_nodeLine k n⟩
    | succ i =>
      obtain ⟨l, e1, e2⟩ := h3 i n' (by simpa using h)
      exact ⟨l, by simpa using e1, by rw [show k + (i + 1) = k + 1 + i by omega]; exact e2⟩

/-- **C112** (tree16, tree32, tree64, every state) `PrintNodes` prints one line per node of the array, in order. -/
theorem C112_nodes {L : Type} (g : GTree I L) : ∃ ls, Printed g.printNodes ls ∧ ls.length = g.tree.nodes.length ∧
    ∀ i n, g.tree.nodes[i]? = some n → ∃ l, ls[i]? = some l ∧ ShowsNode l i n := by
  obtain ⟨ls, h1, h2, h3⟩ := printed_loop g.tree.nodes 0
  exact ⟨ls, h1, h2, fun i n h => by simpa using h3 i n h⟩

theorem printed_unique {m : Text} {a b : List Text} (h1 : Printed m a) (h2 : Printed m b) : a = b :=
  List.append_cancel_right (lines_unique h1 h2)

/-- **C112** The nodes can be read off: trees with the same output have the same nodes. -/
theorem C112_one_reading {J : Impl} {L L' : Type} (g : GTree I L) (g' : GTree J L') (h : g.printNodes = g'.printNodes) :
    g.tree.nodes = g'.tree.nodes := by
  obtain ⟨ls, h1, h2, h3⟩ := C112_nodes g
  obtain ⟨ls', h1', h2', h3'⟩ := C112_nodes g'
  rw [h] at h1
  obtain rfl := printed_unique h1 h1'
  refine List.ext_getElem (h2.symm.trans h2') fun i e1 e2 => ?_
  obtain ⟨l, a1, a2⟩ := h3 i _ (List.getElem?_eq_getElem e1)
  obtain ⟨l', b1, b2⟩ := h3' i _ (List.getElem?_eq_getElem e2)
  rw [a1] at b1
  cases b1
  have := spells_unique (by decide) a2 b2
  simp only [List.cons.injEq, true_and, and_true] at this
  obtain ⟨q1, q2, q3, q4, q5⟩ := this
  cases hx : g.tree.nodes[i]
  cases hy : g'.tree.nodes[i]
  rw [hx, hy] at q1 q2 q3 q4 q5
  simp only at q1 q2 q3 q4 q5
  rw [q1, q2, BitVec.eq_of_toNat_eq q3, q4, q5]

end Verif.GTree

namespace Verif.Tree
open Verif.Id
variable {T : Type} [Inhabited T] {P : Pkg}

omit [Inhabited T] in
theorem Inv.cnt_live {W : Nat} {t : Tree T} {s : Sh} (h : Inv W t s) {i : Nat} {n : Node} (hn : t.nodes[i]? = some n)
    (hc : n.cnt ≠ 0) : i ∈ s.idxs := by
  by_cases h0 : i = 0
  · subst h0
    rw [h.zero] at hn
    cases hn
    exact absurd rfl hc
  · have hl := (List.getElem?_eq_some_iff.1 hn).1
    have : i ∈ s.idxs ++ t.avail := by
      rw [h.perm.mem_iff, List.mem_range'_1]
      omega
    rcases List.mem_append.1 this with h1 | h1
    · exact h1
    · obtain ⟨pre, suf, he⟩ := List.append_of_mem h1
      exact absurd (h.stale pre i suf he n hn).2.2.2 hc

theorem nodes_idxs (s : Sh) : ∀ pre, (s.nodes pre).map (fun e => e.2.1) = s.idxs := by
  induction s with
  | nil => intro pre; rfl
  | node i p c ch ih =>
    intro pre
    rw [Sh.nodes_node, Sh.idxs_node, List.map_cons, List.map_append, ih, ih]

theorem sum_filter_ne (l : List (List Bool × Nat × Nat)) (p : List Bool × Nat × Nat → Bool) (hp : ∀ e, p e = decide (e.2.2 ≠ 0)) :
    ((l.filter p).map (fun e => e.2.2)).sum = (l.map (fun e => e.2.2)).sum := by
  induction l with
  | nil => rfl
  | cons e l ih =>
    rw [List.filter_cons]
    by_cases h : e.2.2 = 0
    · rw [if_neg (by rw [hp]; simp [h]), ih, List.map_cons, List.sum_cons, h, Nat.zero_add]
    · rw [if_pos (by rw [hp]; simp [h]), List.map_cons, List.map_cons, List.sum_cons, List.sum_cons, ih]

theorem sum_zero {α : Type} (l : List α) (f : α → Nat) (h : ∀ x ∈ l, f x = 0) : (l.map f).sum = 0 := by
  induction l with
  | nil => rfl
  | cons x l ih => rw [List.map_cons, List.sum_cons, h x (by simp), ih (fun y hy => h y (by simp [hy]))]

theorem sum_counts {W : Nat} {t : Tree T} {s : Sh} (h : Inv W t s) :
    (t.nodes.map Node.cnt).sum = ((s.entries []).map (fun e => e.2.2)).sum := by
  have hp := h.pos
  let c : Nat → Nat := fun i => ((t.nodes[i]?).getD default).cnt
  have h1 : t.nodes.map Node.cnt = (List.range t.nodes.length).map c := by
    refine List.ext_getElem (by simp) fun i e1 e2 => ?_
    simp only [List.getElem_map, List.getElem_range, c]
    rw [List.getElem?_eq_getElem (by simpa using e1)]
    rfl
  have h2 : List.range t.nodes.length = 0 :: List.range' 1 (t.nodes.length - 1) := by
    rw [List.range_eq_range', show t.nodes.length = (t.nodes.length - 1) + 1 by omega, List.range'_succ]
    simp
  have h3 : c 0 = 0 := by
    show ((t.nodes[0]?).getD default).cnt = 0
    rw [h.zero]; rfl
  rw [h1, h2, List.map_cons, List.sum_cons, h3, Nat.zero_add, ← (h.perm.map c).sum_nat, List.map_append, List.sum_append_nat]
  rw [sum_zero t.avail c fun x hx => ?_, Nat.add_zero]
  · rw [← nodes_idxs s [], List.map_map]
    unfold Sh.entries
    rw [sum_filter_ne _ _ (by intro e; by_cases h : e.2.2 = 0 <;> simp [h])]
    congr 1
    refine List.map_congr_left ?_
    rintro ⟨q, x, c'⟩ hx
    obtain ⟨n, hn, hc⟩ := h.rep.cnt hx
    show ((t.nodes[x]?).getD default).cnt = c'
    rw [hn]; exact hc
  · obtain ⟨pre, suf, he⟩ := List.append_of_mem hx
    show ((t.nodes[x]?).getD default).cnt = 0
    cases hn : t.nodes[x]? with
    | none => rfl
    | some n => exact (h.stale pre x suf he n hn).2.2.2

/-- **C112** (all widths, every history) A node that is shown with values is reached from the root, and the numbers of values
shown add up to the number of values that an iteration visits. -/
theorem C112_counts (hP : P = id16 ∨ P = id32 ∨ P = id64) {t : Tree T} (h : Reach P t) :
    (∀ i n, t.nodes[i]? = some n → n.cnt ≠ 0 → ∃ q, At P.W t q i) ∧
    ∃ vis, t.visit = .ok vis ∧ (t.nodes.map Node.cnt).sum = (vis.map fun e => e.2.length).sum := by
  obtain ⟨s, hi⟩ := h.inv (widthOk_of hP)
  refine ⟨fun i n hn hc => ?_, _, visit_spec hi, ?_⟩
  · obtain ⟨q, c, hq⟩ := Sh.mem_idxs_nodes [] (hi.cnt_live hn hc)
    exact ⟨q, hi.at_iff.2 ⟨c, hq⟩⟩
  · rw [sum_counts hi, List.map_map]
    congr 1
    refine List.map_congr_left fun e _ => ?_
    simp

/-- the value map, if there is one value per prefix -/
theorem vals_perm (hW : P.W ≤ 64) {t : Tree T} {s : Sh} {M : List Bool → Option T} (hi : Inv P.W t s) (he : Exact t s)
    (ha : Abs t s (fun q => (M q).toList)) (hs : Small P.W t) :
    t.vals.entries.Perm ((s.entries []).map fun e => (t.key e.2.1, getV t.vals (t.key e.2.1))) ∧
    ∀ q x c, (q, x, c) ∈ s.entries [] → c = 1 ∧ M q = some (getV t.vals (t.key x)) := by
  have hone : ∀ q x c, (q, x, c) ∈ s.entries [] → c = 1 ∧ M q = some (getV t.vals (t.key x)) := by
    intro q x c hx
    have h1 := ha.entry q x c hx
    have hc := (Sh.mem_entries.1 hx).2
    have hl := congrArg List.length h1
    simp only [length_valsAt] at hl
    cases hm : M q with
    | none => rw [hm] at hl; exact absurd hl.symm hc
    | some v =>
      rw [hm] at hl h1
      simp only [Option.toList_some, List.length_cons, List.length_nil] at hl
      have hc1 : c = 1 := by omega
      subst hc1
      refine ⟨rfl, ?_⟩
      simp only [valsAt, Option.toList_some, List.range_one, List.map_cons, List.map_nil, List.cons.injEq, and_true] at h1
      rw [h1]
      simp
  refine ⟨?_, hone⟩
  have hidx : ∀ e ∈ s.entries [], 1 ≤ e.2.1 ∧ e.2.1 ≤ 2 ^ (64 - P.W) :=
    fun e hx => hi.entry_ok hs.nodes (Sh.mem_entries_idx hx)
  rw [List.perm_ext_iff_of_nodup]
  · rintro ⟨k, v⟩
    rw [← GoMap.get?_eq_some_iff, List.mem_map]
    constructor
    · intro hk
      have hm : k ∈ t.vals.keys := by rw [← GoMap.get?_isSome_iff, hk]; rfl
      obtain ⟨q, x, c, j, h1, h2, h3⟩ := (he k).1 hm
      have hc := (hone q x c h1).1
      have hk' : k = t.key x := by
        have : j = 0 := by omega
        rw [h3, this]; simp
      refine ⟨(q, x, c), h1, ?_⟩
      simp only [Prod.mk.injEq]
      refine ⟨hk'.symm, ?_⟩
      unfold getV
      rw [← hk', hk]; rfl
    · rintro ⟨⟨q, x, c⟩, h1, h2⟩
      simp only [Prod.mk.injEq] at h2
      obtain ⟨rfl, rfl⟩ := h2
      have hc := (hone q x c h1).1
      have hm : t.key x ∈ t.vals.keys := (he _).2 ⟨q, x, c, 0, h1, by omega, by simp⟩
      rw [← GoMap.get?_isSome_iff] at hm
      unfold getV
      cases hg : t.vals.get? (t.key x) with
      | none => rw [hg] at hm; cases hm
      | some v => rfl
  · exact List.Pairwise.of_map Prod.fst (fun a b h e => h (by rw [e])) t.vals.nodup
  · have hnd : ((s.entries []).map fun e => e.2.1).Nodup := by
      have := hi.idxs_nodup
      rw [← nodes_idxs s []] at this
      exact ((List.filter_sublist).map _).nodup this
    unfold List.Nodup at hnd ⊢
    rw [List.pairwise_map] at hnd ⊢
    refine (List.Pairwise.and_mem.1 hnd).imp ?_
    rintro a b ⟨hx, hy, hne⟩ e
    simp only [Prod.mk.injEq] at e
    have h1 := hidx a hx
    have h2 := hidx b hy
    have := key_sep (W := P.W) hW h1 h2 (j := 0) (j' := 0) (Nat.two_pow_pos _) (Nat.two_pow_pos _) hne
    rw [hi.key, hi.key] at e
    exact this (by simpa using e.1)

end Verif.Tree

namespace Verif.GTree
open Verif.Id
open Verif.Tree (Tree Node At Inv Sh Exact Abs)
variable {I : Impl}

/-! ### `PrintValues` -/

/-- the line shows the entry, after some number -/
def ShowsEntry (l : Text) (e : Entry I.P LabelSet) : Prop :=
  ∃ u k, Numeral u k ∧ l = ascii "val " ++ u ++ ascii " " ++ e.string

theorem exact_of {T : Type} [Inhabited T] {W : Nat} {t : Tree T} {s s' : Sh} (h : Inv W t s) (h' : Inv W t s') (he : Exact t s) :
    Exact t s' := by
  have key : ∀ {s s' : Sh}, Inv W t s → Inv W t s' → ∀ q x c, (q, x, c) ∈ s.entries [] → (q, x, c) ∈ s'.entries [] := by
    intro s s' h h' q x c hx
    obtain ⟨h1, h2⟩ := Sh.mem_entries.1 hx
    obtain ⟨c', h3⟩ := h'.at_iff.1 (h.at_iff.2 ⟨c, h1⟩)
    obtain ⟨n, hn, hc⟩ := h.rep.cnt h1
    obtain ⟨n', hn', hc'⟩ := h'.rep.cnt h3
    rw [hn] at hn'
    cases hn'
    rw [← hc, hc', Sh.mem_entries]
    exact ⟨h3, by rw [← hc', hc]; exact h2⟩
  intro k
  rw [he k]
  constructor
  · rintro ⟨q, x, c, j, h1, h2⟩
    exact ⟨q, x, c, j, key h h' q x c h1, h2⟩
  · rintro ⟨q, x, c, j, h1, h2⟩
    exact ⟨q, x, c, j, key h' h q x c h1, h2⟩

/-- the value map of a tree -/
theorem vals_listing {L : Type} [Labels L] {length : Nat} {g : GTree I L} {M : Map I.P L} (hI : I = tree16 ∨ I = tree32)
    (hg : GInv length g M) : ∃ l, Listing l M ∧ g.getAll = .ok (l.map some) ∧
      (g.tree.vals.entries.map (·.2)).Perm (l.map some) ∧
      ∀ k v, (k, v) ∈ g.tree.vals.entries → ∃ e i n, v = some e ∧ At I.P.W g.tree (pre e.id) i ∧
        g.tree.nodes[i]? = some n ∧ n.cnt = 1 ∧ k = BitVec.ofNat 64 (i * 2 ^ I.P.W) := by
  have hP : I.P = id16 ∨ I.P = id32 := by rcases hI with rfl | rfl <;> simp [tree16, tree32]
  have hW : I.P.W ≤ 64 := by rcases hI with rfl | rfl <;> decide
  obtain ⟨s, h1, h2, h3⟩ := hg.tree
  obtain ⟨hs, s', i1, i2⟩ := hg.reach.inv hP
  have he := exact_of i1 h1 i2
  obtain ⟨v1, v2⟩ := Verif.Tree.vals_perm hW h1 he h2 hs
  obtain ⟨l, l1, l2, l3⟩ := entries_spec hg
  have hl : l.map some = (s.entries []).map fun e => Verif.Tree.getV g.tree.vals (g.tree.key e.2.1) := by
    have hv : ((s.entries []).map (fun e => (e.2.1, Verif.Tree.valsAt g.tree.vals (g.tree.key e.2.1) e.2.2))).map (·.2) =
        ((s.entries []).map fun e => Verif.Tree.getV g.tree.vals (g.tree.key e.2.1)).map (fun v => [v]) := by
      rw [List.map_map, List.map_map]
      refine List.map_congr_left ?_
      rintro ⟨q, x, c⟩ hx
      obtain ⟨rfl, _⟩ := v2 q x c hx
      simp [Verif.Tree.valsAt]
    have h4 := (firsts_spec hv).1
    unfold GTree.entries at l2
    rw [Verif.Tree.visit_spec h1] at l2
    have h5 : firsts ((s.entries []).map (fun e => (e.2.1, Verif.Tree.valsAt g.tree.vals (g.tree.key e.2.1) e.2.2))) =
      .ok (l.map some) := l2
    rw [h4] at h5
    injection h5 with h5
    exact h5.symm
  refine ⟨l, l1, l2, ?_, ?_⟩
  · rw [hl]
    have := v1.map Prod.snd
    rw [List.map_map] at this
    exact this
  · intro k v hkv
    obtain ⟨⟨q, x, c⟩, m1, m2⟩ := List.mem_map.1 (v1.mem_iff.1 hkv)
    simp only [Prod.mk.injEq] at m2
    obtain ⟨rfl, rfl⟩ := m2
    obtain ⟨rfl, hm⟩ := v2 q x c m1
    unfold hat at hm
    cases hq : M q with
    | none => rw [hq] at hm; cases hm
    | some e =>
      rw [hq] at hm
      have hm' : some e = Verif.Tree.getV g.tree.vals (g.tree.key x) := by simpa using hm
      obtain ⟨n, hn, hc⟩ := h1.rep.cnt (Sh.mem_entries.1 m1).1
      refine ⟨e, x, n, hm'.symm, ?_, hn, hc, ?_⟩
      · rw [← (hg.wf q e hq).1]
        exact h1.at_iff.2 ⟨1, (Sh.mem_entries.1 m1).1⟩
      · rw [h1.key]
        apply BitVec.eq_of_toNat_eq
        simp [BitVec.toNat_shiftLeft, Nat.shiftLeft_eq]

/-- **C112, partial** (tree16; tree32 with room) In whatever order the value map is gone through, `PrintValues` prints exactly
one line for each claimed prefix, which shows its entry. The number of the line is that of the node reached along the prefix,
times `2^16` (`2^32`, modulo `2^64`), and this node is shown with one value. Missing: tree64 (`C112_tree64_violated`). -/
theorem C112_values_partial (hI : I = tree16 ∨ I = tree32) {length : Nat} {g : GTree I LabelSet} {M : Map I.P LabelSet}
    (h : Reach I length g M) (vs : List (BitVec 64 × Option (Entry I.P LabelSet))) (hv : vs.Perm g.tree.vals.entries) :
    (∃ es l ls, Listing l M ∧ es.Perm l ∧ printValues vs = (ls.map (· ++ [10])).flatten ∧ List.Forall₂ ShowsEntry ls es) ∧
    ∀ k v, (k, v) ∈ vs → ∃ e i n, v = some e ∧ At I.P.W g.tree (pre e.id) i ∧
        g.tree.nodes[i]? = some n ∧ n.cnt = 1 ∧ k = BitVec.ofNat 64 (i * 2 ^ I.P.W) := by
  obtain ⟨l, h1, _, h2, h3⟩ := vals_listing hI (h.ginv hI)
  refine ⟨?_, fun k v hkv => h3 k v (hv.mem_iff.1 hkv)⟩
  have h4 := (hv.map Prod.snd).trans h2
  have h5 : ∃ es : List (Entry I.P LabelSet), vs.map Prod.snd = es.map some ∧ es.Perm l := by
    refine ⟨vs.filterMap Prod.snd, ?_, ?_⟩
    · have : ∀ vs : List (BitVec 64 × Option (Entry I.P LabelSet)), (∀ x ∈ vs, x.2 ≠ none) →
          vs.map Prod.snd = (vs.filterMap Prod.snd).map some := by
        intro vs
        induction vs with
        | nil => intro _; rfl
        | cons x vs ih =>
          intro hx
          obtain ⟨k, v⟩ := x
          cases v with
          | none => exact absurd rfl (hx (k, none) (by simp))
          | some e => simpa using ih (fun y hy => hx y (by simp [hy]))
      refine this vs fun x hx hn => ?_
      obtain ⟨e, _, _, he, _⟩ := h3 x.1 x.2 (hv.mem_iff.1 hx)
      rw [hn] at he
      cases he
    · have := h4.filterMap id
      rw [List.filterMap_map, List.filterMap_map] at this
      simpa using this
  obtain ⟨es, e1, e2⟩ := h5
  refine ⟨es, l, vs.map fun x => valLine x.1 x.2, h1, e2, ?_, ?_⟩
  · unfold printValues
    rw [List.map_map]
    rfl
  · clear h4 e2 hv
    induction vs generalizing es with
    | nil =>
      cases es with
      | nil => exact .nil
      | cons e es => cases e1
    | cons x vs ih =>
      cases es with
      | nil => cases e1
      | cons e es =>
        simp only [List.map_cons, List.cons.injEq] at e1
        refine .cons ⟨_, _, numeral_fmtUint x.1.toNat, ?_⟩ (ih es e1.2)
        simp only [valLine, e1.1, List.append_assoc]

/-- the state after some calls -/
def GTree.afterAll {L : Type} [Labels L] (g : GTree I L) : List (Op I.P L) → Tree.Out (GTree I L)
  | [] => .ok g
  | o :: os => do
    let (_, g) ← g.exec o
    g.afterAll os

/-- the numbers of prefixes and of lines of values after some calls -/
def sizesAfter (os : List (Op id64 Bool)) : Option (Nat × Nat) :=
  match (fresh tree64 64).afterAll os with
  | .ok g => match g.count with
    | .ok n => some (n, g.tree.vals.entries.length)
    | _ => none
  | _ => none

/-- **C112, violated** (tree64) Two prefixes are claimed, and there is one line of values. -/
theorem C112_tree64_violated : sizesAfter [.claim ⟨0, 64⟩ true, .claim ⟨1, 64⟩ false] = some (2, 1) := by decide

/-- the nodes after some calls -/
def nodesAfter (os : List (Op id16 Bool)) : List Node :=
  match (fresh tree16 16).afterAll os with
  | .ok g => g.tree.nodes
  | _ => []

theorem nodesAfter_ok {os : List (Op id16 Bool)} (h : nodesAfter os ≠ []) :
    ∃ g, (fresh tree16 16).afterAll os = .ok g ∧ g.tree.nodes = nodesAfter os := by
  unfold nodesAfter at h ⊢
  generalize (fresh tree16 16).afterAll os = x at *
  cases x with
  | ok g => exact ⟨g, rfl, rfl⟩
  | _ => exact absurd rfl h

/-- claims 0/16, 2/16 and 3/16, and the release of 0/16 -/
def freedOps : List (Op id16 Bool) :=
  [.claim ⟨0, 16⟩ true, .claim ⟨2, 16⟩ true, .claim ⟨3, 16⟩ true, .release ⟨0, 16⟩]

/-- **C112, violated** (tree16) `PrintNodes` also prints the nodes that are no longer used, with their old prefixes and links:
after claims of 0/16, 2/16 and 3/16 and the release of 0/16 the nodes 4 and 6, those of 2/16 and 3/16, are shown as the
children of the nodes 3 and 5. The part of the prefix of node 4 is shown as a number of more than 16 bits. -/
theorem C112_freed_violated : ∃ g, (fresh tree16 16).afterAll freedOps = .ok g ∧ ∃ ls l3 l4 l5, Printed g.printNodes ls ∧
    ls[3]? = some l3 ∧ ls[4]? = some l4 ∧ ls[5]? = some l5 ∧ ShowsNode l3 3 ⟨4, 6, 2, 15, 0⟩ ∧
    ShowsNode l4 4 ⟨0, 0, 65536, 1, 1⟩ ∧ ShowsNode l5 5 ⟨4, 6, 49152, 1, 0⟩ := by
  obtain ⟨g, h1, h2⟩ := nodesAfter_ok (os := freedOps) (by decide)
  obtain ⟨ls, h3, h4, h5⟩ := C112_nodes g
  rw [h2] at h5
  obtain ⟨l3, a1, a2⟩ := h5 3 ⟨4, 6, 2, 15, 0⟩ (by decide)
  obtain ⟨l4, b1, b2⟩ := h5 4 ⟨0, 0, 65536, 1, 1⟩ (by decide)
  obtain ⟨l5, c1, c2⟩ := h5 5 ⟨4, 6, 49152, 1, 0⟩ (by decide)
  exact ⟨g, h1, ls, l3, l4, l5, h3, a1, b1, c1, a2, b2, c2⟩

/-- a state with two claimed prefixes and two lines of values -/
example : ∃ g, (fresh tree16 16).afterAll freedOps = .ok g ∧ g.tree.nodes.map Node.cnt = [0, 0, 0, 0, 1, 0, 1] := by
  obtain ⟨g, h1, h2⟩ := nodesAfter_ok (os := freedOps) (by decide)
  exact ⟨g, h1, by rw [h2]; decide⟩

/-- `node 4 {0 0 7 1 1}` -/
example : nodeLine 4 ⟨0, 0, 7, 1, 1⟩ = ascii "node 4 {0 0 7 1 1}" := by
  have h0 : fmtUint 0 = [48] := by rw [fmtUint]; rfl
  have h1 : fmtUint 1 = [49] := by rw [fmtUint]; rfl
  have h4 : fmtUint 4 = [52] := by rw [fmtUint]; rfl
  have h7 : fmtUint 7 = [55] := by rw [fmtUint]; rfl
  show ascii "node " ++ fmtUint 4 ++ (ascii " {" ++ fmtUint 0 ++ (ascii " " ++ fmtUint 0 ++
    (ascii " " ++ fmtUint 7 ++ (ascii " " ++ fmtUint 1 ++ (ascii " " ++ fmtUint 1 ++ ascii "}"))))) = _
  rw [h0, h1, h4, h7]
  decide

/-- a value map with two entries may be printed in two orders -/
example (l : LabelSet) : [((65536 : BitVec 64), some (⟨⟨1, 16⟩, l⟩ : Entry id16 LabelSet)), (131072, some ⟨⟨2, 16⟩, l⟩)].Perm
    [(131072, some ⟨⟨2, 16⟩, l⟩), (65536, some ⟨⟨1, 16⟩, l⟩)] := .swap ..

end Verif.GTree
