import Verif.Tree.Iter

/-!
The links of the nodes, of the freed ones too, have no cycles. So an iterator ends from wherever it stands, also on
freed nodes.
-/

namespace Verif.Tree
open Verif.Id
variable {T : Type} [Inhabited T]

/-- the links lead to nodes of lower rank -/
structure Ranked (ns : List Node) (r : Nat → Nat) : Prop where
  child : ∀ i n b, i ≠ 0 → ns[i]? = some n → n.child b ≠ 0 → r (n.child b) < r i
  le : ∀ i, r i ≤ ns.length
  differ : ∀ i n, i ≠ 0 → ns[i]? = some n → n.left = n.right → n.left = 0

theorem Rep.ranked {W : Nat} {ns : List Node} {s : Sh} : ∀ {i : Nat}, Rep W ns s i → s.idxs.Nodup →
    ∃ r : Nat → Nat, (∀ x ∈ s.idxs, r x ≤ s.idxs.length) ∧ ∀ x ∈ s.idxs, ∀ n, ns[x]? = some n →
      (∀ b, n.child b ≠ 0 → n.child b ∈ s.idxs ∧ r (n.child b) < r x) ∧ (n.left = n.right → n.left = 0) := by
  induction s with
  | nil => intro i _ _; exact ⟨fun _ => 0, by simp [Sh.idxs], by simp [Sh.idxs]⟩
  | node j p c ch ih =>
    intro i h hnd
    obtain ⟨rfl, hi0, n0, hn0, _, _, hch⟩ := h
    obtain ⟨r0, a1, a2⟩ := ih false (hch false) (Sh.nodup_children hnd false).2.1
    obtain ⟨r1, b1, b2⟩ := ih true (hch true) (Sh.nodup_children hnd true).2.1
    have hno : ∀ {b}, i ∉ (ch b).idxs := fun {b} => (Sh.nodup_children hnd b).1
    have hdis := (Sh.nodup_children hnd false).2.2
    have hlen : (Sh.node i p c ch).idxs.length = (ch false).idxs.length + (ch true).idxs.length + 1 := by
      simp [Sh.idxs]
    let r : Nat → Nat := fun x => if x = i then (Sh.node i p c ch).idxs.length else
      if x ∈ (ch false).idxs then r0 x else r1 x
    have hri : r i = (Sh.node i p c ch).idxs.length := if_pos rfl
    have hr0 : ∀ x ∈ (ch false).idxs, r x = r0 x := by
      intro x hx
      have hxi : x ≠ i := by rintro rfl; exact hno hx
      simp only [r, if_neg hxi, if_pos hx]
    have hr1 : ∀ x ∈ (ch true).idxs, r x = r1 x := by
      intro x hx
      have hxi : x ≠ i := by rintro rfl; exact hno hx
      have hx0 : x ∉ (ch false).idxs := fun h => hdis x h hx
      simp only [r, if_neg hxi, if_neg hx0]
    refine ⟨r, ?_, ?_⟩
    · intro x hx
      rcases Sh.mem_idxs_node.1 hx with rfl | ⟨b, hx⟩
      · omega
      · cases b with
        | false => have := a1 x hx; rw [hr0 x hx]; omega
        | true => have := b1 x hx; rw [hr1 x hx]; omega
    · intro x hx n hn
      rcases Sh.mem_idxs_node.1 hx with rfl | ⟨b, hx⟩
      · rw [hn0] at hn
        cases hn
        have hm : ∀ b, n0.child b ≠ 0 → n0.child b ∈ (ch b).idxs := fun b hb =>
          ((hch b).mem fun h => hb ((hch b).nil_iff.1 h)).1
        refine ⟨fun b hb => ⟨Sh.mem_idxs_node.2 (.inr ⟨b, hm b hb⟩), ?_⟩, fun he => ?_⟩
        · have := hm b hb
          rw [hri]
          cases b with
          | false => have h1 := a1 _ this; rw [hr0 _ this]; omega
          | true => have h1 := b1 _ this; rw [hr1 _ this]; omega
        · by_cases hz : n0.left = 0
          · exact hz
          · exfalso
            have h1 := hm false hz
            have h2 := hm true (fun h => hz (he.trans h))
            have h3 : n0.child false = n0.child true := he
            rw [h3] at h1
            exact hdis _ h1 h2
      · cases b with
        | false =>
          obtain ⟨h1, h2⟩ := a2 x hx n hn
          refine ⟨fun b hb => ⟨Sh.mem_idxs_node.2 (.inr ⟨false, (h1 b hb).1⟩), ?_⟩, h2⟩
          rw [hr0 _ hx, hr0 _ (h1 b hb).1]
          exact (h1 b hb).2
        | true =>
          obtain ⟨h1, h2⟩ := b2 x hx n hn
          refine ⟨fun b hb => ⟨Sh.mem_idxs_node.2 (.inr ⟨true, (h1 b hb).1⟩), ?_⟩, h2⟩
          rw [hr1 _ hx, hr1 _ (h1 b hb).1]
          exact (h1 b hb).2

/-- the links have no cycles -/
theorem Inv.ranked {W : Nat} {t : Tree T} {s : Sh} (h : Inv W t s) : ∃ r, Ranked t.nodes r := by
  obtain ⟨r, h1, h2⟩ := h.rep.ranked (List.nodup_append.1 h.nodup).1
  have hlen : s.idxs.length + t.avail.length = t.nodes.length - 1 := by
    have := h.perm.length_eq
    simpa using this
  have hmem : ∀ x, x ≠ 0 → x < t.nodes.length → x ∈ s.idxs ∨ x ∈ t.avail := by
    intro x hx hx'
    rw [← List.mem_append, h.perm.mem_iff, List.mem_range'_1]
    omega
  have hno : ∀ x ∈ t.avail, x ∉ s.idxs := fun x hx hx' => (List.nodup_append.1 h.nodup).2.2 x hx' x hx rfl
  let R : Nat → Nat := fun x => if x ∈ s.idxs then r x else s.idxs.length + (t.avail.length - t.avail.idxOf x)
  have hR : ∀ x ∈ s.idxs, R x = r x := fun x hx => if_pos hx
  have hR' : ∀ x, x ∉ s.idxs → R x = s.idxs.length + (t.avail.length - t.avail.idxOf x) := fun x hx => if_neg hx
  refine ⟨R, ?_, ?_, ?_⟩
  · intro i n b hi hn hb
    rcases hmem i hi (List.getElem?_eq_some_iff.1 hn).1 with hs | ha
    · obtain ⟨g1, g2⟩ := (h2 i hs n hn).1 b hb
      rw [hR _ hs, hR _ g1]
      exact g2
    · obtain ⟨pre, suf, he⟩ := List.append_of_mem ha
      obtain ⟨g1, g2, _⟩ := h.stale pre i suf he n hn
      have hnd := (List.nodup_append.1 h.nodup).2.1
      have hi1 : t.avail.idxOf i = pre.length := by
        rw [he] at hnd ⊢
        have : i ∉ pre := fun hm => (List.nodup_append.1 hnd).2.2 i hm i (by simp) rfl
        rw [List.idxOf_append, if_neg this, List.idxOf_cons_self]
        omega
      have hl : t.avail.length = pre.length + suf.length + 1 := by rw [he]; simp; omega
      rw [hR' i (hno i ha), hi1]
      rcases hmem _ hb (g2 b) with hc | hc
      · rw [hR _ hc]
        have := h1 _ hc
        omega
      · rw [hR' _ (hno _ hc)]
        have hn1 := (g1 b).resolve_left hb
        simp only [List.mem_append, List.mem_singleton, not_or] at hn1
        have : t.avail.idxOf (n.child b) = pre.length + (suf.idxOf (n.child b) + 1) := by
          have hbe : (i == n.child b) = false := by simpa using fun h => hn1.2 h.symm
          rw [he, List.idxOf_append, if_neg hn1.1, List.idxOf_cons, hbe]
          simp only [cond_false, Bool.false_eq_true, if_false]
          omega
        omega
  · intro i
    by_cases hi : i ∈ s.idxs
    · rw [hR i hi]
      have := h1 i hi
      omega
    · rw [hR' i hi]
      omega
  · intro i n hi hn he
    rcases hmem i hi (List.getElem?_eq_some_iff.1 hn).1 with hs | ha
    · exact (h2 i hs n hn).2 he
    · obtain ⟨pre, suf, ha⟩ := List.append_of_mem ha
      exact (h.stale pre i suf ha n hn).2.2.1 he

/-! ### How long an iterator may go on -/

/-- rounds needed for the nodes reached from a node of rank `k - 1` -/
def wgt : Nat → Nat
  | 0 => 0
  | k + 1 => 2 * wgt k + 4

theorem wgt_mono {a b : Nat} (h : a ≤ b) : wgt a ≤ wgt b := by
  induction h with
  | refl => exact Nat.le_refl _
  | step _ ih => simp only [wgt]; omega

/-- rounds needed at a node of rank `k` -/
def here (k : Nat) : NextKind → Nat
  | .self => 2 * wgt k + 4
  | .left => 2 * wgt k + 3
  | .right => wgt k + 2
  | .up => 1

/-- rounds needed for the nodes of the history, below the node `i` -/
def above (ns : List Node) (r : Nat → Nat) : Nat → List Nat → Nat
  | _, [] => 0
  | i, p :: h => (if ((ns[p]?).getD default).left = i then wgt (r p) + 2 else 1) + above ns r p h

/-- rounds needed -/
def need (ns : List Node) (r : Nat → Nat) (it : Iter) : Nat := here (r it.index) it.next + above ns r it.index it.hist

/-- iterators stay off the unused node 0 -/
def Iter.Pos (it : Iter) : Prop := it.index ≠ 0 ∧ ∀ p ∈ it.hist, p ≠ 0

theorem iterate_pos : Tree.iterate.Pos := ⟨by decide, by simp [Tree.iterate]⟩

theorem above_le {ns : List Node} {r : Nat → Nat} (hr : ∀ i, r i ≤ ns.length) :
    ∀ (h : List Nat) (i : Nat), above ns r i h ≤ h.length * (wgt ns.length + 2)
  | [], _ => by simp [above]
  | p :: h, i => by
    have h1 := above_le hr h p
    have h2 := wgt_mono (hr p)
    simp only [above, List.length_cons, Nat.add_mul, Nat.one_mul]
    split <;> omega

theorem need_le {ns : List Node} {r : Nat → Nat} (h : Ranked ns r) (it : Iter) :
    need ns r it ≤ (it.hist.length + 2) * (wgt ns.length + 2) := by
  have h1 := above_le h.le it.hist it.index
  have h2 := wgt_mono (h.le it.index)
  have h3 : here (r it.index) it.next ≤ 2 * (wgt ns.length + 2) := by
    cases it.next <;> simp only [here] <;> omega
  unfold need
  rw [Nat.add_mul]
  omega

/-- where a round goes on -/
def Round.goes : Round → Option Iter
  | .cont it => some it
  | .found it => some it
  | .finished _ => none

variable {t : Tree T} {r : Nat → Nat}

omit [Inhabited T] in
theorem round_node {it : Iter} {x : Round} (h : round t it = .ok x) : ∃ n, t.nodes[it.index]? = some n := by
  unfold round Tree.node at h
  cases hn : t.nodes[it.index]? with
  | none => rw [hn] at h; cases h
  | some n => exact ⟨n, rfl⟩

/-- every round brings an iterator closer to its end, if nobody changes the tree -/
theorem round_need (hr : Ranked t.nodes r) {it it' : Iter} {x : Round} (hp : it.Pos) (h : round t it = .ok x)
    (hx : x.goes = some it') : need t.nodes r it' < need t.nodes r it ∧ it'.Pos ∧ it'.hist.length ≤ it.hist.length + 1 := by
  obtain ⟨n, hn⟩ := round_node h
  obtain ⟨i, hist, nx⟩ := it
  obtain ⟨hp1, hp2⟩ := hp
  simp only at hn hp1 hp2
  have hup : ∀ {x it'}, round t ⟨i, hist, .up⟩ = .ok x → x.goes = some it' →
      need t.nodes r it' < need t.nodes r ⟨i, hist, .up⟩ ∧ it'.Pos ∧ it'.hist.length ≤ hist.length + 1 := by
    intro x it' h hx
    cases hist with
    | nil =>
      rw [round_end hn] at h
      cases h
      cases hx
    | cons p hist =>
      cases hpn : t.nodes[p]? with
      | none =>
        have : round t ⟨i, p :: hist, .up⟩ = .panic "index out of range" := by
          unfold round
          have hpn' : t.node p = .panic "index out of range" := by unfold Tree.node; rw [hpn]
          simp only [node_eq hn, Out.bind_ok, roundLeft, roundRight, roundUp, reduceCtorEq, if_false, if_true, hpn']
          rfl
        rw [this] at h
        cases h
      | some pn =>
        have hp0 : p ≠ 0 := hp2 p (by simp)
        have hp3 : ∀ q ∈ hist, q ≠ 0 := fun q hq => hp2 q (by simp [hq])
        by_cases hl : pn.left = i
        · rw [(round_up hn hpn).1 hl] at h
          cases h
          cases hx
          refine ⟨?_, ⟨hp0, hp3⟩, by simp only [List.length_cons]; omega⟩
          simp only [need, here, above, hpn, Option.getD_some, if_pos hl]
          omega
        · by_cases hl' : pn.right = i
          · rw [(round_up hn hpn).2 hl hl'] at h
            cases h
            cases hx
            refine ⟨?_, ⟨hp0, hp3⟩, by simp only [List.length_cons]; omega⟩
            simp only [need, here, above, hpn, Option.getD_some, if_neg hl]
            omega
          · exfalso
            have : round t ⟨i, p :: hist, .up⟩ = .panic "unexpected state" := by
              unfold round
              simp [node_eq hn, node_eq hpn, roundLeft, roundRight, roundUp, hl, hl']
            rw [this] at h
            cases h
  have hright : ∀ {x it'}, round t ⟨i, hist, .right⟩ = .ok x → x.goes = some it' →
      need t.nodes r it' < need t.nodes r ⟨i, hist, .right⟩ ∧ it'.Pos ∧ it'.hist.length ≤ hist.length + 1 := by
    intro x it' h hx
    by_cases hz : n.right = 0
    · rw [(round_right hn).2 hz] at h
      obtain ⟨h1, h2⟩ := hup h hx
      refine ⟨?_, h2⟩
      simp only [need, here] at h1 ⊢
      omega
    · rw [(round_right hn).1 hz] at h
      cases h
      cases hx
      refine ⟨?_, ⟨hz, by simpa using ⟨hp1, hp2⟩⟩, by simp⟩
      have hc := hr.child i n true hp1 hn hz
      have hw := wgt_mono hc
      have hl : n.left ≠ n.right := fun he => hz (by rw [← he]; exact hr.differ i n hp1 hn he)
      simp only [need, here, above, hn, Option.getD_some, if_neg hl]
      simp only [wgt, Node.child] at hw
      have : 2 * wgt (r n.right) + 4 ≤ wgt (r i) := hw
      omega
  have hleft : ∀ {x it'}, round t ⟨i, hist, .left⟩ = .ok x → x.goes = some it' →
      need t.nodes r it' < need t.nodes r ⟨i, hist, .left⟩ ∧ it'.Pos ∧ it'.hist.length ≤ hist.length + 1 := by
    intro x it' h hx
    by_cases hz : n.left = 0
    · rw [(round_left hn).2 hz] at h
      obtain ⟨h1, h2⟩ := hright h hx
      refine ⟨?_, h2⟩
      simp only [need, here] at h1 ⊢
      omega
    · rw [(round_left hn).1 hz] at h
      cases h
      cases hx
      refine ⟨?_, ⟨hz, by simpa using ⟨hp1, hp2⟩⟩, by simp⟩
      have hw := wgt_mono (hr.child i n false hp1 hn hz)
      simp only [need, here, above, hn, Option.getD_some, if_true]
      simp only [wgt, Node.child] at hw
      have : 2 * wgt (r n.left) + 4 ≤ wgt (r i) := hw
      omega
  cases nx with
  | up => exact hup h hx
  | right => exact hright h hx
  | left => exact hleft h hx
  | self =>
    by_cases hc : n.cnt = 0
    · rw [(round_self hn).2 hc] at h
      obtain ⟨h1, h2⟩ := hleft h hx
      refine ⟨?_, h2⟩
      simp only [need, here] at h1 ⊢
      omega
    · rw [(round_self hn).1 hc] at h
      cases h
      cases hx
      refine ⟨?_, ⟨hp1, hp2⟩, by simp⟩
      simp only [need, here]
      omega

end Verif.Tree
