import Verif.Tree.Delete

/-! Iteration visits the nodes with values in preorder. -/

namespace Verif.Tree
open Verif.Id
variable {T : Type} [Inhabited T]

/-- `n` rounds of `Next` from `it`, passing the nodes `out` with values, to `it'` -/
inductive Run (t : Tree T) : Nat → Iter → List Nat → Iter → Prop
  | refl (it) : Run t 0 it [] it
  /-- a round that continues -/
  | cont {it it1 n out it'} : round t it = .ok (.cont it1) → Run t n it1 out it' → Run t (n + 1) it out it'
  /-- a round that ends a call of `Next` -/
  | found {it it1 n out it'} : round t it = .ok (.found it1) → Run t n it1 out it' →
      Run t (n + 1) it (it1.index :: out) it'
  /-- two positions that are treated alike -/
  | same {it it1 n out it'} : round t it = round t it1 → Run t n it1 out it' → Run t n it out it'

theorem Run.trans {t : Tree T} {n n' : Nat} {a b c : Iter} {o o' : List Nat} (h : Run t n a o b)
    (h' : Run t n' b o' c) : Run t (n + n') a (o ++ o') c := by
  induction h with
  | refl => rw [Nat.zero_add]; exact h'
  | cont h1 _ ih => rw [Nat.add_right_comm]; exact .cont h1 (ih h')
  | found h1 _ ih => rw [Nat.add_right_comm]; exact .found h1 (ih h')
  | same h1 _ ih => exact .same h1 (ih h')

variable {t : Tree T}

/-! ### One round -/

theorem round_self {i : Nat} {h : List Nat} {n : Node} (hn : t.nodes[i]? = some n) :
    (n.cnt ≠ 0 → round t ⟨i, h, .self⟩ = .ok (.found ⟨i, h, .left⟩)) ∧
    (n.cnt = 0 → round t ⟨i, h, .self⟩ = round t ⟨i, h, .left⟩) := by
  unfold round
  simp only [node_eq hn, Out.bind_ok]
  constructor
  · intro hc; simp [hc]
  · intro hc; simp [hc]

theorem round_left {i : Nat} {h : List Nat} {n : Node} (hn : t.nodes[i]? = some n) :
    (n.left ≠ 0 → round t ⟨i, h, .left⟩ = .ok (.cont ⟨n.left, i :: h, .self⟩)) ∧
    (n.left = 0 → round t ⟨i, h, .left⟩ = round t ⟨i, h, .right⟩) := by
  unfold round
  simp only [node_eq hn, Out.bind_ok]
  constructor
  · intro hc; simp [hc, roundLeft, roundRight, roundUp]
  · intro hc; simp [hc, roundLeft]

theorem round_right {i : Nat} {h : List Nat} {n : Node} (hn : t.nodes[i]? = some n) :
    (n.right ≠ 0 → round t ⟨i, h, .right⟩ = .ok (.cont ⟨n.right, i :: h, .self⟩)) ∧
    (n.right = 0 → round t ⟨i, h, .right⟩ = round t ⟨i, h, .up⟩) := by
  unfold round
  simp only [node_eq hn, Out.bind_ok]
  constructor
  · intro hc; simp [hc, roundLeft, roundRight, roundUp]
  · intro hc; simp [hc, roundLeft, roundRight]

theorem round_up {i pi : Nat} {h : List Nat} {n pn : Node} (hn : t.nodes[i]? = some n)
    (hp : t.nodes[pi]? = some pn) :
    (pn.left = i → round t ⟨i, pi :: h, .up⟩ = .ok (.cont ⟨pi, h, .right⟩)) ∧
    (pn.left ≠ i → pn.right = i → round t ⟨i, pi :: h, .up⟩ = .ok (.cont ⟨pi, h, .up⟩)) := by
  unfold round
  simp only [node_eq hn, Out.bind_ok]
  constructor
  · intro hc; simp [hc, roundLeft, roundRight, roundUp, node_eq hp]
  · intro hc hc'; simp [hc, hc', roundLeft, roundRight, roundUp, node_eq hp]

theorem round_end {i : Nat} {n : Node} (hn : t.nodes[i]? = some n) :
    round t ⟨i, [], .up⟩ = .ok (.finished ⟨i, [], .up⟩) := by
  unfold round
  simp [node_eq hn, roundLeft, roundRight, roundUp]

/-- the nodes with values, in preorder -/
def Sh.live : Sh → List Nat
  | .nil => []
  | .node i _ c ch => (if c = 0 then [] else [i]) ++ ((ch false).live ++ (ch true).live)

theorem Sh.live_eq (s : Sh) : ∀ pre, s.live = (s.entries pre).map (·.2.1) := by
  induction s with
  | nil => intro pre; rfl
  | node i p c ch ih =>
    intro pre
    unfold Sh.entries
    rw [Sh.nodes_node, List.filter_cons, List.filter_append]
    simp only [Sh.live]
    rw [ih false (pre ++ p), ih true (pre ++ p)]
    by_cases hc : c = 0
    · simp [hc, Sh.entries]
    · simp [hc, Sh.entries]

/-- walking through a subtree -/
theorem run_sub {W : Nat} {s : Sh} : ∀ {i : Nat} (h : List Nat), Rep W t.nodes s i → s ≠ .nil →
    s.idxs.Nodup → ∃ n, n + 2 ≤ 3 * s.idxs.length ∧ Run t n ⟨i, h, .self⟩ s.live ⟨i, h, .up⟩ := by
  induction s with
  | nil => intro i h _ hne; exact absurd rfl hne
  | node j p c ch ih =>
    intro i h hr _ hnd
    obtain ⟨rfl, h0, n, hn, _, hc, hch⟩ := hr
    obtain ⟨l1, l2, l3⟩ := Sh.nodup_children hnd false
    obtain ⟨r1, r2, r3⟩ := Sh.nodup_children hnd true
    -- self
    have step1 : ∃ n, n ≤ 1 ∧ Run t n ⟨i, h, .self⟩ (if c = 0 then [] else [i]) ⟨i, h, .left⟩ := by
      by_cases hc0 : c = 0
      · refine ⟨0, by omega, ?_⟩
        rw [if_pos hc0]
        exact .same ((round_self hn).2 (by omega)) (.refl _)
      · refine ⟨1, by omega, ?_⟩
        rw [if_neg hc0]
        exact .found ((round_self hn).1 (by omega)) (.refl _)
    -- left
    have step2 : ∃ n, n ≤ 3 * (ch false).idxs.length ∧ Run t n ⟨i, h, .left⟩ (ch false).live ⟨i, h, .right⟩ := by
      by_cases hl : n.left = 0
      · refine ⟨0, by omega, ?_⟩
        have : ch false = .nil := (hch false).nil_iff.2 hl
        rw [this]
        exact .same ((round_left hn).2 hl) (.refl _)
      · have hne : ch false ≠ .nil := fun e => hl ((hch false).nil_iff.1 e)
        obtain ⟨k, hk1, hk2⟩ := ih false (i :: h) (hch false) hne l2
        have hcm := (hch false).mem hne
        obtain ⟨q, c', hq⟩ := Sh.mem_idxs_nodes [] hcm.1
        obtain ⟨nl, hnl, _⟩ := (hch false).cnt hq
        refine ⟨1 + k + 1, by omega, ?_⟩
        have e1 : Run t 1 ⟨i, h, .left⟩ [] ⟨n.left, i :: h, .self⟩ :=
          .cont ((round_left hn).1 hl) (.refl _)
        have e3 : Run t 1 ⟨n.left, i :: h, .up⟩ [] ⟨i, h, .right⟩ :=
          .cont ((round_up hnl hn).1 rfl) (.refl _)
        have := (e1.trans hk2).trans e3
        rwa [List.append_nil] at this
    -- right
    have step3 : ∃ n, n ≤ 3 * (ch true).idxs.length ∧ Run t n ⟨i, h, .right⟩ (ch true).live ⟨i, h, .up⟩ := by
      by_cases hl : n.right = 0
      · refine ⟨0, by omega, ?_⟩
        have : ch true = .nil := (hch true).nil_iff.2 hl
        rw [this]
        exact .same ((round_right hn).2 hl) (.refl _)
      · have hne : ch true ≠ .nil := fun e => hl ((hch true).nil_iff.1 e)
        obtain ⟨k, hk1, hk2⟩ := ih true (i :: h) (hch true) hne r2
        have hcm := (hch true).mem hne
        obtain ⟨q, c', hq⟩ := Sh.mem_idxs_nodes [] hcm.1
        obtain ⟨nl, hnl, _⟩ := (hch true).cnt hq
        have hlr : n.left ≠ n.right := by
          intro e
          by_cases hz : ch false = .nil
          · have := (hch false).nil_iff.1 hz
            have : n.left = 0 := this
            omega
          · exact l3 _ ((hch false).mem hz).1 (by
              have : n.child false = n.child true := e
              rw [this]; exact hcm.1)
        refine ⟨1 + k + 1, by omega, ?_⟩
        have e1 : Run t 1 ⟨i, h, .right⟩ [] ⟨n.right, i :: h, .self⟩ :=
          .cont ((round_right hn).1 hl) (.refl _)
        have e3 : Run t 1 ⟨n.right, i :: h, .up⟩ [] ⟨i, h, .up⟩ :=
          .cont ((round_up hnl hn).2 hlr rfl) (.refl _)
        have := (e1.trans hk2).trans e3
        rwa [List.append_nil] at this
    obtain ⟨n1, a1, b1⟩ := step1
    obtain ⟨n2, a2, b2⟩ := step2
    obtain ⟨n3, a3, b3⟩ := step3
    refine ⟨n1 + (n2 + n3), ?_, ?_⟩
    · rw [Sh.idxs_node]
      simp only [List.length_cons, List.length_append]
      omega
    · have := b1.trans (b2.trans b3)
      exact this

/-! ### Whole calls -/

theorem nextLoop_run {n fuel : Nat} {it it' : Iter} {out : List Nat} (h : Run t n it out it')
    (hend : round t it' = .ok (.finished it')) (hf : n < fuel) :
    (out = [] ∧ nextLoop t fuel it = .ok (false, it')) ∨
    (∃ x out' it1 n', out = x :: out' ∧ nextLoop t fuel it = .ok (true, it1) ∧ it1.index = x ∧ n' < n ∧
      Run t n' it1 out' it') := by
  induction h generalizing fuel with
  | refl it =>
    cases fuel with
    | zero => omega
    | succ fuel =>
      left
      refine ⟨rfl, ?_⟩
      rw [nextLoop, hend]; rfl
  | @cont it it1 n out it' h1 h2 ih =>
    cases fuel with
    | zero => omega
    | succ fuel =>
      have e : nextLoop t (fuel + 1) it = nextLoop t fuel it1 := by rw [nextLoop, h1]; rfl
      rw [e]
      rcases ih hend (fuel := fuel) (by omega) with h | ⟨x, o, i1, n', e1, e2, e3, e4, e5⟩
      · exact .inl h
      · exact .inr ⟨x, o, i1, n', e1, e2, e3, by omega, e5⟩
  | @found it it1 n out it' h1 h2 ih =>
    cases fuel with
    | zero => omega
    | succ fuel =>
      right
      refine ⟨it1.index, out, it1, n, rfl, ?_, rfl, by omega, h2⟩
      rw [nextLoop, h1]; rfl
  | @same it it1 n out it' h1 h2 ih =>
    have e : nextLoop t fuel it = nextLoop t fuel it1 := by
      cases fuel with
      | zero => rfl
      | succ fuel => rw [nextLoop, nextLoop, h1]
    rw [e]
    exact ih hend hf

theorem visitLoop_run (vs : Nat → List T) : ∀ {fuel n : Nat} {it it' : Iter} {out : List Nat}, Run t n it out it' →
    round t it' = .ok (.finished it') → n < 3 * t.nodes.length + 1 → out.length < fuel →
    (∀ x ∈ out, t.valsForNode x = .ok (vs x)) →
    visitLoop t fuel it = .ok (out.map (fun x => (x, vs x))) := by
  intro fuel
  induction fuel with
  | zero => intro n it it' out _ _ _ h; omega
  | succ fuel ih =>
    intro n it it' out h hend hn hlen hv
    rw [visitLoop]
    unfold next
    rcases nextLoop_run h hend hn with ⟨e1, e2⟩ | ⟨x, o, i1, n', e1, e2, e3, e4, e5⟩
    · subst e1
      simp only [e2, Out.bind_ok, Bool.false_eq_true, if_false, Out.pure_eq, List.map_nil]
    · subst e1
      simp only [e2, Out.bind_ok, if_true]
      rw [e3, hv x (by simp)]
      simp only [Out.bind_ok]
      rw [ih e5 hend (by omega) (by simp at hlen; omega) (fun y hy => hv y (by simp [hy]))]
      rfl

/-- the iteration over a tree -/
theorem visit_spec {W : Nat} {s : Sh} (h : Inv W t s) :
    t.visit = .ok ((s.entries []).map (fun e => (e.2.1, valsAt t.vals (t.key e.2.1) e.2.2))) := by
  have hpos := h.pos
  have hperm := h.perm
  have hlen : s.idxs.length ≤ t.nodes.length - 1 := by
    have := hperm.length_eq
    rw [List.length_append, List.length_range'] at this
    omega
  have hne : s ≠ .nil := by
    intro e
    have := h.wf
    rw [e] at this
    exact this
  obtain ⟨n, h1, h2⟩ := run_sub [] h.rep hne h.idxs_nodup
  have hm := h.rep.mem hne
  obtain ⟨q, c, hq⟩ := Sh.mem_idxs_nodes [] hm.1
  obtain ⟨rn, hrn, _⟩ := h.rep.cnt hq
  have hl2 : s.live.length ≤ s.idxs.length := by
    have : ∀ s : Sh, s.live.length ≤ s.idxs.length := by
      intro s
      induction s with
      | nil => simp [Sh.live]
      | node i p c ch ih =>
        have h1 := ih false
        have h2 := ih true
        rw [Sh.idxs_node]
        simp only [Sh.live, List.length_append, List.length_cons]
        split <;> simp <;> omega
    exact this s
  have key := visitLoop_run (fun x => valsAt t.vals (t.key x) ((t.nodes[x]?).getD default).cnt) h2
    (round_end hrn) (by omega) (fuel := t.nodes.length + 1) (by omega) ?_
  · unfold Tree.visit
    show visitLoop t _ ⟨1, [], .self⟩ = _
    rw [key, Sh.live_eq s [], List.map_map]
    congr 1
    apply List.map_congr_left
    intro e he
    obtain ⟨q, x, c⟩ := e
    obtain ⟨nx, hnx, hcx⟩ := h.rep.cnt (Sh.mem_entries.1 he).1
    simp only [Function.comp]
    rw [hnx]
    simp [hcx]
  · intro x hx
    rw [Sh.live_eq s [], List.mem_map] at hx
    obtain ⟨⟨q, x', c⟩, he, rfl⟩ := hx
    obtain ⟨nx, hnx, hcx⟩ := h.rep.cnt (Sh.mem_entries.1 he).1
    have h0 := (h.rep.lt _ (Sh.mem_entries_idx he)).2
    simp only at h0 ⊢
    unfold Tree.valsForNode
    rw [if_neg h0, node_eq hnx, hnx]
    rfl

end Verif.Tree
