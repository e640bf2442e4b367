/-! The shape of a tree: an inductive tree of indexed nodes, and what `add` and `deleteNode` do to
it. -/

namespace Verif.Tree

/-- A subtree: node index, bits below the parent, number of values, children (`false`: left). -/
inductive Sh
  | nil
  | node (i : Nat) (p : List Bool) (c : Nat) (ch : Bool → Sh)

namespace Sh

/-- indexes, in preorder -/
def idxs : Sh → List Nat
  | nil => []
  | node i _ _ ch => i :: ((ch false).idxs ++ (ch true).idxs)

/-- all nodes below the path `pre`, in preorder: path, index, number of values -/
def nodes : Sh → List Bool → List (List Bool × Nat × Nat)
  | nil, _ => []
  | node i p c ch, pre => (pre ++ p, i, c) :: ((ch false).nodes (pre ++ p) ++ (ch true).nodes (pre ++ p))

/-- the nodes holding values -/
def entries (s : Sh) (pre : List Bool) : List (List Bool × Nat × Nat) :=
  (s.nodes pre).filter (fun e => e.2.2 != 0)

/-- the subtree is empty or its bits begin with `b` -/
def Starts (b : Bool) : Sh → Prop
  | nil => True
  | node _ p _ _ => ∃ q, p = b :: q

/-- well formed below a parent, with `d` bits left -/
def Wf : Nat → Sh → Prop
  | _, nil => True
  | d, node _ p c ch => p ≠ [] ∧ p.length ≤ d ∧ (c = 0 → ∀ b, ch b ≠ nil) ∧
      ∀ b, Starts b (ch b) ∧ Wf (d - p.length) (ch b)

/-- a well formed root -/
def WfRoot (d : Nat) : Sh → Prop
  | nil => False
  | node i p _ ch => i = 1 ∧ p = [] ∧ ∀ b, Starts b (ch b) ∧ Wf d (ch b)

/-- replace one child -/
def upd (ch : Bool → Sh) (b : Bool) (s : Sh) : Bool → Sh := fun b' => if b' = b then s else ch b'

@[simp] theorem upd_same (ch : Bool → Sh) (b : Bool) (s : Sh) : upd ch b s b = s := by simp [upd]
@[simp] theorem upd_not (ch : Bool → Sh) (b : Bool) (s : Sh) : upd ch b s (!b) = ch (!b) := by
  simp [upd]
theorem upd_ne {ch : Bool → Sh} {b b' : Bool} {s : Sh} (h : b' ≠ b) : upd ch b s b' = ch b' := by
  simp [upd, h]

theorem eq_or_not (b b' : Bool) : b' = b ∨ b' = !b := by cases b <;> cases b' <;> simp

/-- the two children in order, seen from side `b` -/
theorem perm_children {α : Type} (f : Bool → List α) (b : Bool) :
    (f false ++ f true).Perm (f b ++ f (!b)) := by
  cases b
  · exact .refl _
  · exact List.perm_append_comm

theorem nodes_node (i : Nat) (p : List Bool) (c : Nat) (ch : Bool → Sh) (pre : List Bool) :
    (node i p c ch).nodes pre =
      (pre ++ p, i, c) :: ((ch false).nodes (pre ++ p) ++ (ch true).nodes (pre ++ p)) := rfl

theorem idxs_node (i : Nat) (p : List Bool) (c : Nat) (ch : Bool → Sh) :
    (node i p c ch).idxs = i :: ((ch false).idxs ++ (ch true).idxs) := rfl

theorem mem_nodes_node {i : Nat} {p : List Bool} {c : Nat} {ch : Bool → Sh} {pre : List Bool}
    {e : List Bool × Nat × Nat} :
    e ∈ (node i p c ch).nodes pre ↔ e = (pre ++ p, i, c) ∨ ∃ b, e ∈ (ch b).nodes (pre ++ p) := by
  rw [nodes_node, List.mem_cons, List.mem_append]
  constructor
  · rintro (h | h | h)
    · exact .inl h
    · exact .inr ⟨_, h⟩
    · exact .inr ⟨_, h⟩
  · rintro (h | ⟨b, h⟩)
    · exact .inl h
    · cases b
      · exact .inr (.inl h)
      · exact .inr (.inr h)

theorem mem_idxs_node {i : Nat} {p : List Bool} {c : Nat} {ch : Bool → Sh} {x : Nat} :
    x ∈ (node i p c ch).idxs ↔ x = i ∨ ∃ b, x ∈ (ch b).idxs := by
  rw [idxs_node, List.mem_cons, List.mem_append]
  constructor
  · rintro (h | h | h)
    · exact .inl h
    · exact .inr ⟨_, h⟩
    · exact .inr ⟨_, h⟩
  · rintro (h | ⟨b, h⟩)
    · exact .inl h
    · cases b
      · exact .inr (.inl h)
      · exact .inr (.inr h)

theorem idxs_perm (i : Nat) (p : List Bool) (c : Nat) (ch : Bool → Sh) (b : Bool) :
    (node i p c ch).idxs.Perm (i :: ((ch b).idxs ++ (ch (!b)).idxs)) := by
  rw [idxs_node]
  exact .cons _ (perm_children (fun b => (ch b).idxs) b)

theorem mem_entries {s : Sh} {pre q : List Bool} {i c : Nat} :
    (q, i, c) ∈ s.entries pre ↔ (q, i, c) ∈ s.nodes pre ∧ c ≠ 0 := by
  unfold entries
  rw [List.mem_filter]
  simp

theorem mem_entries_node {i : Nat} {p : List Bool} {c : Nat} {ch : Bool → Sh} {pre : List Bool}
    {q : List Bool} {i' c' : Nat} :
    (q, i', c') ∈ (node i p c ch).entries pre ↔
      ((q, i', c') = (pre ++ p, i, c) ∧ c ≠ 0) ∨ ∃ b, (q, i', c') ∈ (ch b).entries (pre ++ p) := by
  rw [mem_entries, mem_nodes_node]
  constructor
  · rintro ⟨h | ⟨b, h⟩, h2⟩
    · cases h; exact .inl ⟨rfl, h2⟩
    · exact .inr ⟨b, mem_entries.2 ⟨h, h2⟩⟩
  · rintro (⟨h, h2⟩ | ⟨b, h⟩)
    · cases h; exact ⟨.inl rfl, h2⟩
    · obtain ⟨h1, h2⟩ := mem_entries.1 h
      exact ⟨.inr ⟨b, h1⟩, h2⟩

/-- every path begins with the path of the subtree's top -/
theorem path_prefix {i : Nat} {p : List Bool} {c : Nat} {ch : Bool → Sh} :
    ∀ {pre : List Bool} {e}, e ∈ (node i p c ch).nodes pre → ∃ x, e.1 = pre ++ p ++ x := by
  suffices h : ∀ (s : Sh) (pre : List Bool) (e), e ∈ s.nodes pre →
      ∃ x, e.1 = pre ++ x ∧ ∀ i p c ch, s = node i p c ch → ∃ y, x = p ++ y by
    intro pre e he
    obtain ⟨x, h1, h2⟩ := h _ _ _ he
    obtain ⟨y, rfl⟩ := h2 i p c ch rfl
    exact ⟨y, by rw [h1, List.append_assoc]⟩
  intro s
  induction s with
  | nil => intro pre e he; simp [nodes] at he
  | node i p c ch ih =>
    intro pre e he
    rcases mem_nodes_node.1 he with rfl | ⟨b, he⟩
    · refine ⟨p, rfl, ?_⟩
      intro i' p' c' ch' h
      cases h
      exact ⟨[], by simp⟩
    · obtain ⟨x, h1, _⟩ := ih b _ _ he
      refine ⟨p ++ x, by rw [h1, List.append_assoc], ?_⟩
      intro i' p' c' ch' h
      cases h
      exact ⟨x, rfl⟩

/-- paths below a child that starts with `b` -/
theorem path_child {s : Sh} {b : Bool} (h : Starts b s) {pre : List Bool} {e}
    (he : e ∈ s.nodes pre) : ∃ x, e.1 = pre ++ b :: x := by
  cases s with
  | nil => simp [nodes] at he
  | node i p c ch =>
    obtain ⟨q, rfl⟩ := h
    obtain ⟨x, hx⟩ := path_prefix he
    exact ⟨q ++ x, by rw [hx]; simp⟩

theorem Wf.mono {s : Sh} : ∀ {d d' : Nat}, d ≤ d' → Wf d s → Wf d' s := by
  induction s with
  | nil => intro d d' _ _; trivial
  | node i p c ch ih =>
    intro d d' h hw
    obtain ⟨h1, h2, h3, h4⟩ := hw
    exact ⟨h1, by omega, h3, fun b => ⟨(h4 b).1, ih b (by omega) (h4 b).2⟩⟩

/-! ### Adding -/

/-- `add` of a prefix `bits` below the top of the subtree: new subtree, node that receives the
value, its previous number of values, allocated nodes (in order of allocation); `c'` is the new
number of values -/
inductive AddR (c' : Nat) : Sh → List Bool → Sh → Nat → Nat → List Nat → Prop
  /-- nothing there: a leaf -/
  | leaf (bits n) : AddR c' nil bits (node n bits c' (fun _ => nil)) n 0 [n]
  /-- the node exists -/
  | here (i p c ch) : AddR c' (node i p c ch) p (node i p c' ch) i c []
  /-- a node above the existing one -/
  | above (i p c ch bits b d n) : p = bits ++ b :: d →
      AddR c' (node i p c ch) bits
        (node n bits c' (upd (fun _ => nil) b (node i (b :: d) c ch))) n 0 [n]
  /-- in a child -/
  | down (i p c ch bits b bs s' k c0 u) : bits = p ++ b :: bs →
      AddR c' (ch b) (b :: bs) s' k c0 u →
      AddR c' (node i p c ch) bits (node i p c (upd ch b s')) k c0 u
  /-- a new node above the existing one and the new leaf -/
  | split (i p c ch bits b m d e n n2) : p = m ++ b :: d → bits = m ++ (!b) :: e → m ≠ [] →
      AddR c' (node i p c ch) bits
        (node n m 0 (upd (upd (fun _ => nil) (!b) (node n2 ((!b) :: e) c' (fun _ => nil)))
          b (node i (b :: d) c ch))) n2 0 [n, n2]

theorem AddR.ne_nil {c' : Nat} {s bits s' k c0 u} (h : AddR c' s bits s' k c0 u) : s' ≠ nil := by
  cases h <;> simp

theorem starts_nil (b : Bool) : Starts b nil := trivial

theorem AddR.starts {c' : Nat} {s bits s' k c0 u} (h : AddR c' s bits s' k c0 u) {b : Bool}
    (hb : ∃ q, bits = b :: q) (hs : Starts b s) : Starts b s' := by
  cases h with
  | leaf => exact hb
  | here => exact hs
  | above => exact hb
  | down => exact hs
  | split i p c ch bits b' m d e n n2 h1 h2 h3 =>
    obtain ⟨q, hq⟩ := hb
    obtain ⟨q', hq'⟩ := hs
    cases m with
    | nil => exact absurd rfl h3
    | cons x m =>
      rw [hq', List.cons_append] at h1
      injection h1 with h1 _
      exact ⟨m, by rw [h1]⟩

theorem AddR.wf {c' : Nat} (hc : c' ≠ 0) {s bits s' k c0 u} (h : AddR c' s bits s' k c0 u) :
    ∀ {d : Nat}, bits ≠ [] → bits.length ≤ d → Wf d s → Wf d s' := by
  induction h with
  | leaf bits n =>
    intro d h1 h2 _
    exact ⟨h1, h2, fun h => absurd h hc, fun b => ⟨trivial, trivial⟩⟩
  | here i p c ch =>
    intro d _ _ hw
    exact ⟨hw.1, hw.2.1, fun h => absurd h hc, hw.2.2.2⟩
  | above i p c ch bits b x n hp =>
    intro d h1 h2 hw
    subst hp
    refine ⟨h1, h2, fun h => absurd h hc, ?_⟩
    intro b'
    by_cases hb : b' = b
    · subst hb
      rw [upd_same]
      have hl := hw.2.1
      rw [List.length_append] at hl
      refine ⟨⟨x, rfl⟩, by simp, by simp at hl ⊢; omega, hw.2.2.1, ?_⟩
      intro b''
      refine ⟨(hw.2.2.2 b'').1, ?_⟩
      have := (hw.2.2.2 b'').2
      rw [List.length_append] at this
      rw [show d - bits.length - (b' :: x).length = d - (bits.length + (b' :: x).length) by omega]
      exact this
    · rw [upd_ne hb]; exact ⟨trivial, trivial⟩
  | down i p c ch bits b bs s' k c0 u hp hr ih =>
    intro d h1 h2 hw
    subst hp
    rw [List.length_append] at h2
    refine ⟨hw.1, hw.2.1, ?_, ?_⟩
    · intro h b'
      by_cases hb : b' = b
      · subst hb; rw [upd_same]; exact hr.ne_nil
      · rw [upd_ne hb]; exact hw.2.2.1 h b'
    · intro b'
      by_cases hb : b' = b
      · subst hb
        rw [upd_same]
        exact ⟨hr.starts ⟨bs, rfl⟩ (hw.2.2.2 b').1, ih (by simp) (by omega) (hw.2.2.2 b').2⟩
      · rw [upd_ne hb]; exact hw.2.2.2 b'
  | split i p c ch bits b m x e n n2 hp hq hm =>
    intro d h1 h2 hw
    subst hp; subst hq
    have hl := hw.2.1
    rw [List.length_append] at hl h2
    refine ⟨hm, by omega, ?_, ?_⟩
    · intro _ b'
      rcases eq_or_not b b' with rfl | rfl
      · rw [upd_same]; simp
      · rw [upd_not, upd_same]; simp
    · intro b'
      rcases eq_or_not b b' with rfl | rfl
      · rw [upd_same]
        refine ⟨⟨x, rfl⟩, by simp, by omega, hw.2.2.1, ?_⟩
        intro b''
        refine ⟨(hw.2.2.2 b'').1, ?_⟩
        have := (hw.2.2.2 b'').2
        rw [List.length_append] at this
        rw [show d - m.length - (b' :: x).length = d - (m.length + (b' :: x).length) by omega]
        exact this
      · rw [upd_not, upd_same]
        exact ⟨⟨e, rfl⟩, by simp, by omega, fun h => absurd h hc, fun _ => ⟨trivial, trivial⟩⟩

theorem AddR.wfRoot {c' : Nat} {s bits s' k c0 u} (hc : c' ≠ 0) (h : AddR c' s bits s' k c0 u)
    {d : Nat} (hb : bits.length ≤ d) (hw : WfRoot d s) : WfRoot d s' := by
  cases h with
  | leaf => exact hw.elim
  | here => exact hw
  | above i p c ch bits b x n hp =>
    rw [hw.2.1] at hp
    exact absurd hp.symm (by simp)
  | down i p c ch bits b bs s' k c0 u hp hr =>
    obtain ⟨h1, h2, h3⟩ := hw
    refine ⟨h1, h2, ?_⟩
    subst h2
    intro b'
    by_cases e : b' = b
    · subst e
      rw [upd_same]
      refine ⟨hr.starts ⟨bs, rfl⟩ (h3 b').1, hr.wf hc (by simp) ?_ (h3 b').2⟩
      rw [hp] at hb
      simpa using hb
    · rw [upd_ne e]; exact h3 b'
  | split i p c ch bits b m x e n n2 hp hq hm =>
    rw [hw.2.1] at hp
    exact absurd hp.symm (by simp)

theorem AddR.idxs_perm {c' : Nat} {s bits s' k c0 u} (h : AddR c' s bits s' k c0 u) :
    s'.idxs.Perm (s.idxs ++ u) := by
  induction h with
  | leaf bits n => simp [idxs]
  | here i p c ch => simp [idxs]
  | above i p c ch bits b x n hp =>
    refine (Sh.idxs_perm _ _ _ _ b).trans ?_
    rw [upd_same, upd_not]
    simp only [idxs, List.append_nil]
    exact (List.perm_append_singleton _ _).symm
  | down i p c ch bits b bs s' k c0 u hp hr ih =>
    refine (Sh.idxs_perm _ _ _ _ b).trans ?_
    rw [upd_same, upd_not]
    refine .trans ?_ ((Sh.idxs_perm i p c ch b).symm.append_right u)
    refine .cons _ ?_
    refine (ih.append_right _).trans ?_
    show (_ ++ u ++ _).Perm (_ ++ _ ++ u)
    rw [List.append_assoc, List.append_assoc]
    exact (List.perm_append_comm).append_left _
  | split i p c ch bits b m x e n n2 hp hq hm =>
    refine (Sh.idxs_perm _ _ _ _ b).trans ?_
    rw [upd_same, upd_not, upd_same]
    simp only [idxs, List.append_nil]
    have : ∀ l : List Nat, (n :: (l ++ [n2])).Perm (l ++ [n, n2]) := fun l => by
      rw [show l ++ [n, n2] = (l ++ [n]) ++ [n2] by simp]
      exact (List.perm_append_singleton n l).symm.append_right [n2]
    exact this _

theorem AddR.target {c' : Nat} {s bits s' k c0 u} (h : AddR c' s bits s' k c0 u) :
    (c0 = 0 ∧ k ∈ u) ∨ (u = [] ∧ k ∈ s.idxs) := by
  induction h with
  | leaf => simp
  | here => simp [idxs]
  | above => simp
  | down i p c ch bits b bs s' k c0 u hp hr ih =>
    rcases ih with h | h
    · exact .inl h
    · exact .inr ⟨h.1, mem_idxs_node.2 (.inr ⟨b, h.2⟩)⟩
  | split => simp

theorem append_cons_inj {pre x y : List Bool} {b : Bool} : pre ++ b :: x ≠ pre ++ (!b) :: y := by
  intro h
  have := List.append_cancel_left h
  injection this with h _
  cases b <;> simp at h

/-- `add` changes the entry at the path and no other -/
theorem AddR.entries {c' : Nat} (hc : c' ≠ 0) {s bits s' k c0 u} (h : AddR c' s bits s' k c0 u) :
    ∀ {d : Nat} {pre : List Bool}, Wf d s ∨ WfRoot d s →
      (∀ q i c, (q, i, c) ∈ s'.entries pre ↔
        (q = pre ++ bits ∧ i = k ∧ c = c') ∨ (q ≠ pre ++ bits ∧ (q, i, c) ∈ s.entries pre)) ∧
      (∀ i c, (pre ++ bits, i, c) ∈ s.entries pre ↔ i = k ∧ c = c0 ∧ c ≠ 0) := by
  induction h with
  | leaf bits n =>
    intro d pre _
    constructor
    · intro q i c
      rw [mem_entries_node]
      simp [Sh.entries, nodes, hc]
    · intro i c
      simp [Sh.entries, nodes]
  | here i p c ch =>
    intro d pre hw
    have hst : ∀ b, Starts b (ch b) := by
      rcases hw with h | h
      · exact fun b => (h.2.2.2 b).1
      · exact fun b => (h.2.2 b).1
    have hne : ∀ b q i' c'', (q, i', c'') ∈ (ch b).entries (pre ++ p) → q ≠ pre ++ p := by
      intro b q i' c'' h he
      obtain ⟨x, hx⟩ := path_child (hst b) (mem_entries.1 h).1
      simp only [he] at hx
      have := congrArg List.length hx
      simp at this
    constructor
    · intro q i' c''
      rw [mem_entries_node, mem_entries_node]
      constructor
      · rintro (⟨h, _⟩ | ⟨b, h⟩)
        · cases h; exact .inl ⟨rfl, rfl, rfl⟩
        · exact .inr ⟨hne b _ _ _ h, .inr ⟨b, h⟩⟩
      · rintro (⟨rfl, rfl, rfl⟩ | ⟨h1, (⟨h, _⟩ | h)⟩)
        · exact .inl ⟨rfl, hc⟩
        · cases h; exact absurd rfl h1
        · exact .inr h
    · intro i' c''
      rw [mem_entries_node]
      constructor
      · rintro (⟨h, h0⟩ | ⟨b, h⟩)
        · cases h; exact ⟨rfl, rfl, h0⟩
        · exact absurd rfl (hne b _ _ _ h)
      · rintro ⟨rfl, rfl, h⟩
        exact .inl ⟨rfl, h⟩
  | above i p c ch bits b x n hp =>
    intro d pre hw
    subst hp
    have hsame : ∀ e, e ∈ (node i (b :: x) c ch).entries (pre ++ bits) ↔
        e ∈ (node i (bits ++ b :: x) c ch).entries pre := by
      intro e
      unfold Sh.entries
      rw [nodes_node, nodes_node, List.append_assoc]
    have hne : ∀ q i' c'', (q, i', c'') ∈ (node i (bits ++ b :: x) c ch).entries pre → q ≠ pre ++ bits := by
      intro q i' c'' h he
      obtain ⟨y, hy⟩ := path_prefix (mem_entries.1 h).1
      simp only [he] at hy
      have := congrArg List.length hy
      simp at this
    constructor
    · intro q i' c''
      rw [mem_entries_node]
      constructor
      · rintro (⟨h, _⟩ | ⟨b', h⟩)
        · cases h; exact .inl ⟨rfl, rfl, rfl⟩
        · rcases eq_or_not b b' with rfl | rfl
          · rw [upd_same, hsame] at h
            exact .inr ⟨hne _ _ _ h, h⟩
          · rw [upd_not] at h
            simp [Sh.entries, nodes] at h
      · rintro (⟨rfl, rfl, rfl⟩ | ⟨h1, h⟩)
        · exact .inl ⟨rfl, hc⟩
        · exact .inr ⟨b, by rw [upd_same, hsame]; exact h⟩
    · intro i' c''
      constructor
      · intro h; exact absurd rfl (hne _ _ _ h)
      · rintro ⟨_, rfl, h⟩; exact absurd rfl h
  | down i p c ch bits b bs s' k c0 u hp hr ih =>
    intro d pre hw
    subst hp
    have hst : ∀ b, Starts b (ch b) ∧ ∃ d, Wf d (ch b) := by
      rcases hw with h | h
      · exact fun b => ⟨(h.2.2.2 b).1, _, (h.2.2.2 b).2⟩
      · exact fun b => ⟨(h.2.2 b).1, _, (h.2.2 b).2⟩
    obtain ⟨d', hw'⟩ := (hst b).2
    obtain ⟨ih1, ih2⟩ := ih (pre := pre ++ p) (.inl hw')
    have hne : ∀ q i' c'', (q, i', c'') ∈ (ch (!b)).entries (pre ++ p) → q ≠ pre ++ (p ++ b :: bs) := by
      intro q i' c'' h he
      obtain ⟨x, hx⟩ := path_child (hst (!b)).1 (mem_entries.1 h).1
      simp only [he] at hx
      rw [← List.append_assoc] at hx
      exact append_cons_inj hx
    have e1 : pre ++ (p ++ b :: bs) = pre ++ p ++ b :: bs := by simp
    have hlen : pre ++ p ≠ pre ++ (p ++ b :: bs) := by
      intro h
      have := congrArg List.length h
      simp at this
    constructor
    · intro q i' c''
      rw [mem_entries_node, mem_entries_node]
      constructor
      · rintro (⟨h, h0⟩ | ⟨b', h⟩)
        · cases h; exact .inr ⟨hlen, .inl ⟨rfl, h0⟩⟩
        · rcases eq_or_not b b' with rfl | rfl
          · rw [upd_same, ih1, ← e1] at h
            rcases h with h | h
            · exact .inl h
            · exact .inr ⟨h.1, .inr ⟨_, h.2⟩⟩
          · rw [upd_not] at h
            exact .inr ⟨hne _ _ _ h, .inr ⟨_, h⟩⟩
      · rintro (h | ⟨h1, (h | ⟨b', h⟩)⟩)
        · refine .inr ⟨b, ?_⟩
          rw [upd_same, ih1, ← e1]
          exact .inl h
        · exact .inl h
        · refine .inr ⟨b', ?_⟩
          rcases eq_or_not b b' with rfl | rfl
          · rw [upd_same, ih1, ← e1]
            exact .inr ⟨h1, h⟩
          · rw [upd_not]; exact h
    · intro i' c''
      rw [mem_entries_node]
      constructor
      · rintro (⟨h, h0⟩ | ⟨b', h⟩)
        · injection h with h _; exact absurd h.symm hlen
        · rcases eq_or_not b b' with rfl | rfl
          · rw [e1] at h; exact (ih2 i' c'').1 h
          · exact absurd rfl (hne _ _ _ h)
      · intro h
        refine .inr ⟨b, ?_⟩
        rw [e1]
        exact (ih2 i' c'').2 h
  | split i p c ch bits b m x e n n2 hp hq hm =>
    intro d pre hw
    subst hp; subst hq
    have hsame : ∀ y, y ∈ (node i (b :: x) c ch).entries (pre ++ m) ↔
        y ∈ (node i (m ++ b :: x) c ch).entries pre := by
      intro y
      unfold Sh.entries
      rw [nodes_node, nodes_node, List.append_assoc]
    have hne : ∀ q i' c'', (q, i', c'') ∈ (node i (m ++ b :: x) c ch).entries pre →
        q ≠ pre ++ (m ++ (!b) :: e) := by
      intro q i' c'' h he
      obtain ⟨y, hy⟩ := path_prefix (mem_entries.1 h).1
      simp only [he] at hy
      rw [List.append_assoc, List.append_assoc, List.cons_append, ← List.append_assoc,
        ← List.append_assoc] at hy
      exact append_cons_inj hy.symm
    constructor
    · intro q i' c''
      rw [mem_entries_node]
      constructor
      · rintro (⟨h, h0⟩ | ⟨b', h⟩)
        · exact absurd rfl h0
        · rcases eq_or_not b b' with rfl | rfl
          · rw [upd_same, hsame] at h
            exact .inr ⟨hne _ _ _ h, h⟩
          · rw [upd_not, upd_same, mem_entries_node] at h
            rcases h with ⟨h, _⟩ | ⟨_, h⟩
            · cases h; exact .inl ⟨by simp, rfl, rfl⟩
            · simp [Sh.entries, nodes] at h
      · rintro (⟨rfl, rfl, rfl⟩ | ⟨h1, h⟩)
        · refine .inr ⟨!b, ?_⟩
          rw [upd_not, upd_same, mem_entries_node]
          exact .inl ⟨by simp, hc⟩
        · exact .inr ⟨b, by rw [upd_same, hsame]; exact h⟩
    · intro i' c''
      constructor
      · intro h; exact absurd rfl (hne _ _ _ h)
      · rintro ⟨_, rfl, h⟩; exact absurd rfl h

/-! ### Deleting -/

/-- set the number of values of node `k` -/
def setCnt (k c : Nat) : Sh → Sh
  | nil => nil
  | node i p c0 ch => node i p (if i = k then c else c0) (fun b => setCnt k c (ch b))

/-- well formed except possibly for a node `k` without values -/
def WfX (k : Nat) : Nat → Sh → Prop
  | _, nil => True
  | d, node i p c ch => p ≠ [] ∧ p.length ≤ d ∧ (c = 0 → i ≠ k → ∀ b, ch b ≠ nil) ∧
      ∀ b, Starts b (ch b) ∧ WfX k (d - p.length) (ch b)

theorem setCnt_nil_iff {k c : Nat} {s : Sh} : setCnt k c s = nil ↔ s = nil := by
  cases s <;> simp [setCnt]

theorem setCnt_idxs (k c : Nat) : ∀ s : Sh, (setCnt k c s).idxs = s.idxs
  | nil => rfl
  | node i p c0 ch => by
    rw [setCnt, idxs_node, idxs_node, setCnt_idxs k c (ch false), setCnt_idxs k c (ch true)]

theorem setCnt_starts {k c : Nat} {b : Bool} {s : Sh} (h : Starts b s) : Starts b (setCnt k c s) := by
  cases s with
  | nil => trivial
  | node i p c0 ch => exact h

theorem setCnt_wfX {k c : Nat} : ∀ {s : Sh} {d : Nat}, Wf d s → WfX k d (setCnt k c s) := by
  intro s
  induction s with
  | nil => intro d _; trivial
  | node i p c0 ch ih =>
    intro d h
    obtain ⟨h1, h2, h3, h4⟩ := h
    refine ⟨h1, h2, ?_, fun b => ⟨setCnt_starts (h4 b).1, ih b (h4 b).2⟩⟩
    intro hc hi b hb
    rw [if_neg hi] at hc
    exact h3 hc b (setCnt_nil_iff.1 hb)

theorem WfX.wf {k : Nat} : ∀ {s : Sh} {d : Nat}, WfX k d s → k ∉ s.idxs → Wf d s := by
  intro s
  induction s with
  | nil => intro d _ _; trivial
  | node i p c0 ch ih =>
    intro d h hk
    obtain ⟨h1, h2, h3, h4⟩ := h
    rw [mem_idxs_node, not_or] at hk
    exact ⟨h1, h2, fun hc => h3 hc (fun h => hk.1 h.symm),
      fun b => ⟨(h4 b).1, ih b (h4 b).2 (fun h => hk.2 ⟨b, h⟩)⟩⟩

/-- setting the number of values to something non zero keeps a tree well formed -/
theorem setCnt_wf {k c : Nat} (hc : c ≠ 0) : ∀ {s : Sh} {d : Nat}, Wf d s → Wf d (setCnt k c s) := by
  intro s
  induction s with
  | nil => intro d _; trivial
  | node i p c0 ch ih =>
    intro d h
    obtain ⟨h1, h2, h3, h4⟩ := h
    refine ⟨h1, h2, ?_, fun b => ⟨setCnt_starts (h4 b).1, ih b (h4 b).2⟩⟩
    intro hc' b hb
    split at hc'
    · exact hc hc'
    · exact h3 hc' b (setCnt_nil_iff.1 hb)

theorem mem_setCnt {k c : Nat} : ∀ {s : Sh} {pre q : List Bool} {i c' : Nat},
    (q, i, c') ∈ (setCnt k c s).nodes pre ↔
      (i ≠ k ∧ (q, i, c') ∈ s.nodes pre) ∨ (i = k ∧ c' = c ∧ ∃ c0, (q, i, c0) ∈ s.nodes pre) := by
  intro s
  induction s with
  | nil => intro pre q i c'; simp [setCnt, nodes]
  | node j p c0 ch ih =>
    intro pre q i c'
    rw [setCnt, mem_nodes_node]
    simp only [mem_nodes_node, ih]
    constructor
    · rintro (h | ⟨b, h | ⟨h1, h2, c1, h3⟩⟩)
      · injection h with h1 h2
        injection h2 with h2 h3
        subst h1 h2
        by_cases hk : i = k
        · rw [if_pos hk] at h3
          exact .inr ⟨hk, h3, c0, .inl rfl⟩
        · rw [if_neg hk] at h3
          exact .inl ⟨hk, .inl (by rw [h3])⟩
      · exact .inl ⟨h.1, .inr ⟨b, h.2⟩⟩
      · exact .inr ⟨h1, h2, c1, .inr ⟨b, h3⟩⟩
    · rintro (⟨h1, h | ⟨b, h⟩⟩ | ⟨h1, h2, c1, h | ⟨b, h⟩⟩)
      · cases h
        exact .inl (by rw [if_neg h1])
      · exact .inr ⟨b, .inl ⟨h1, h⟩⟩
      · cases h
        exact .inl (by rw [if_pos h1, h2])
      · exact .inr ⟨b, .inr ⟨h1, h2, c1, h⟩⟩

/-- node `k` has no values -/
def CntZero (k : Nat) : Sh → Prop
  | nil => True
  | node i _ c ch => (i = k → c = 0) ∧ ∀ b, CntZero k (ch b)

theorem cntZero_setCnt (k : Nat) : ∀ s : Sh, CntZero k (setCnt k 0 s)
  | nil => trivial
  | node i p c0 ch => ⟨fun h => by simp [h], fun b => cntZero_setCnt k (ch b)⟩

/-- the entry of `k` is gone -/
theorem entries_setCnt_zero {k : Nat} {s : Sh} {pre q : List Bool} {i c : Nat} :
    (q, i, c) ∈ (setCnt k 0 s).entries pre ↔ i ≠ k ∧ (q, i, c) ∈ s.entries pre := by
  rw [mem_entries, mem_setCnt, mem_entries]
  constructor
  · rintro ⟨h | ⟨_, h, _⟩, h0⟩
    · exact ⟨h.1, h.2, h0⟩
    · exact absurd h h0
  · rintro ⟨h1, h2, h0⟩
    exact ⟨.inl ⟨h1, h2⟩, h0⟩

/-- the node for `bits` exists: its parent and itself -/
inductive Path : Sh → List Bool → Nat → Nat → Prop
  | here (i p c ch bits b bs k c2 ch2) : bits = p ++ b :: bs → ch b = node k (b :: bs) c2 ch2 →
      Path (node i p c ch) bits i k
  | down (i p c ch bits b bs pi k) : bits = p ++ b :: bs → Path (ch b) (b :: bs) pi k →
      Path (node i p c ch) bits pi k

theorem Path.mem {s : Sh} {bits : List Bool} {pi k : Nat} (h : Path s bits pi k) :
    ∀ {pre : List Bool}, ∃ c, (pre ++ bits, k, c) ∈ s.nodes pre := by
  induction h with
  | here i p c ch bits b bs k c2 ch2 h1 h2 =>
    intro pre
    refine ⟨c2, mem_nodes_node.2 (.inr ⟨b, ?_⟩)⟩
    rw [h2, mem_nodes_node, h1]
    exact .inl (by simp)
  | down i p c ch bits b bs pi k h1 h2 ih =>
    intro pre
    obtain ⟨c', h⟩ := ih (pre := pre ++ p)
    refine ⟨c', mem_nodes_node.2 (.inr ⟨b, ?_⟩)⟩
    rw [h1, ← List.append_assoc]
    exact h

theorem Path.setCnt {s : Sh} {bits : List Bool} {pi k x c : Nat} (h : Path s bits pi k) :
    Path (setCnt x c s) bits pi k := by
  induction h with
  | here i p c ch bits b bs k c2 ch2 h1 h2 =>
    exact .here _ _ _ _ _ b bs _ _ _ h1 (by rw [h2, Sh.setCnt])
  | down i p c ch bits b bs pi k h1 h2 ih => exact .down _ _ _ _ _ b bs _ _ h1 ih

/-- `deleteNode` of the node `k` at `bits` (it has no values any more) below the top of the subtree,
`root`: the top is the root of the tree. New subtree, freed nodes in order, node whose values were
moved and where to -/
inductive DelR : Bool → Sh → List Bool → Sh → Nat → List Nat → Option (Nat × Nat) → Prop
  /-- both children remain -/
  | two (r i p c ch bits b bs k ch2) : bits = p ++ b :: bs → ch b = node k (b :: bs) 0 ch2 →
      (∀ e, ch2 e ≠ nil) →
      DelR r (node i p c ch) bits (node i p c ch) k [] none
  /-- the only child takes its place -/
  | one (r i p c ch bits b bs k ch2 e j q c3 ch3) : bits = p ++ b :: bs →
      ch b = node k (b :: bs) 0 ch2 → ch2 e = node j q c3 ch3 → ch2 (!e) = nil →
      DelR r (node i p c ch) bits (node i p c (upd ch b (node j (b :: bs ++ q) c3 ch3))) k [k] none
  /-- a leaf -/
  | leaf (r i p c ch bits b bs k ch2) : bits = p ++ b :: bs →
      ch b = node k (b :: bs) 0 ch2 → (∀ e, ch2 e = nil) → (r = true ∨ c ≠ 0) →
      DelR r (node i p c ch) bits (node i p c (upd ch b nil)) k [k] none
  /-- a leaf; the sibling is merged with the parent -/
  | merge (i p ch bits b bs k ch2 j q c3 ch3) : bits = p ++ b :: bs →
      ch b = node k (b :: bs) 0 ch2 → (∀ e, ch2 e = nil) → ch (!b) = node j q c3 ch3 →
      DelR false (node i p 0 ch) bits (node i (p ++ q) c3 ch3) k [j, k] (some (j, i))
  /-- in a child -/
  | down (r i p c ch bits b bs s' k fr mv) : bits = p ++ b :: bs →
      DelR false (ch b) (b :: bs) s' k fr mv →
      DelR r (node i p c ch) bits (node i p c (upd ch b s')) k fr mv

theorem DelR.ne_nil {r : Bool} {s bits s' k fr mv} (h : DelR r s bits s' k fr mv) :
    s ≠ nil ∧ s' ≠ nil := by
  cases h <;> simp

theorem DelR.starts {r : Bool} {s bits s' k fr mv} (h : DelR r s bits s' k fr mv) {b : Bool}
    (hs : Starts b s) : Starts b s' := by
  cases h with
  | two => exact hs
  | one => exact hs
  | leaf => exact hs
  | merge i p ch bits b' bs k ch2 j q c3 ch3 =>
    obtain ⟨x, rfl⟩ := hs
    exact ⟨x ++ q, rfl⟩
  | down => exact hs

theorem perm_upd {i : Nat} {p : List Bool} {c : Nat} {ch : Bool → Sh} {b : Bool} {s' : Sh} {l : List Nat}
    (h : (ch b).idxs.Perm (s'.idxs ++ l)) :
    (node i p c ch).idxs.Perm ((node i p c (upd ch b s')).idxs ++ l) := by
  refine (Sh.idxs_perm _ _ _ _ b).trans ?_
  refine .trans ?_ ((Sh.idxs_perm i p c (upd ch b s') b).symm.append_right l)
  rw [upd_same, upd_not]
  refine .cons _ ?_
  refine (h.append_right _).trans ?_
  show (_ ++ l ++ _).Perm (_ ++ _ ++ l)
  rw [List.append_assoc, List.append_assoc]
  exact (List.perm_append_comm).append_left _

theorem DelR.idxs_perm {r : Bool} {s bits s' k fr mv} (h : DelR r s bits s' k fr mv) :
    s.idxs.Perm (s'.idxs ++ fr) := by
  induction h with
  | two => rw [List.append_nil]
  | one r i p c ch bits b bs k ch2 e j q c3 ch3 h1 h2 h3 h4 =>
    apply perm_upd
    rw [h2]
    refine (Sh.idxs_perm _ _ _ _ e).trans ?_
    rw [h3, h4]
    simp only [idxs, List.append_nil]
    exact (List.perm_append_singleton _ _).symm
  | leaf r i p c ch bits b bs k ch2 h1 h2 h3 h4 =>
    apply perm_upd
    rw [h2, idxs_node, h3, h3]
    simp [idxs]
  | merge i p ch bits b bs k ch2 j q c3 ch3 h1 h2 h3 h4 =>
    refine (Sh.idxs_perm _ _ _ _ b).trans ?_
    rw [h2, h4, idxs_node, h3, h3]
    simp only [idxs, List.append_nil, List.cons_append, List.nil_append]
    refine .cons _ ?_
    have : ∀ l : List Nat, (k :: j :: l).Perm (l ++ [j, k]) := fun l => by
      refine (List.Perm.swap j k l).trans ?_
      exact List.perm_append_comm (l₁ := [j, k]) (l₂ := l)
    exact this _
  | down r i p c ch bits b bs s' k fr mv h1 h2 ih => exact perm_upd ih

theorem DelR.mem {r : Bool} {s bits s' k fr mv} (h : DelR r s bits s' k fr mv) : k ∈ s.idxs := by
  induction h with
  | two r i p c ch bits b bs k ch2 h1 h2 h3 =>
    exact mem_idxs_node.2 (.inr ⟨b, by rw [h2]; simp [idxs]⟩)
  | one r i p c ch bits b bs k ch2 e j q c3 ch3 h1 h2 =>
    exact mem_idxs_node.2 (.inr ⟨b, by rw [h2]; simp [idxs]⟩)
  | leaf r i p c ch bits b bs k ch2 h1 h2 =>
    exact mem_idxs_node.2 (.inr ⟨b, by rw [h2]; simp [idxs]⟩)
  | merge i p ch bits b bs k ch2 j q c3 ch3 h1 h2 =>
    exact mem_idxs_node.2 (.inr ⟨b, by rw [h2]; simp [idxs]⟩)
  | down r i p c ch bits b bs s' k fr mv h1 h2 ih =>
    exact mem_idxs_node.2 (.inr ⟨b, ih⟩)

/-- the children of a node have no nodes in common -/
theorem nodup_children {i : Nat} {p : List Bool} {c : Nat} {ch : Bool → Sh}
    (h : (node i p c ch).idxs.Nodup) (b : Bool) :
    i ∉ (ch b).idxs ∧ (ch b).idxs.Nodup ∧ ∀ x, x ∈ (ch b).idxs → x ∉ (ch (!b)).idxs := by
  have h1 : (i :: ((ch b).idxs ++ (ch (!b)).idxs)).Nodup := ((Sh.idxs_perm i p c ch b).nodup_iff).1 h
  obtain ⟨h2, h3⟩ := List.nodup_cons.1 h1
  obtain ⟨h4, h5, h6⟩ := List.nodup_append.1 h3
  exact ⟨fun h => h2 (List.mem_append_left _ h), h4, fun x hx hx' => h6 x hx x hx' rfl⟩

theorem DelR.wf {r : Bool} {s bits s' k fr mv} (h : DelR r s bits s' k fr mv) (hnd : s.idxs.Nodup) :
    (r = false → ∀ {d : Nat}, WfX k d s → Wf d s') := by
  induction h with
  | two r i p c ch bits b bs k ch2 h1 h2 h3 =>
    intro _ d hw
    obtain ⟨w1, w2, w3, w4⟩ := hw
    have hk : k ∈ (ch b).idxs := by rw [h2]; simp [idxs]
    obtain ⟨n1, n2, n3⟩ := nodup_children hnd b
    refine ⟨w1, w2, fun hc => w3 hc (fun he => n1 (he ▸ hk)), ?_⟩
    intro b'
    refine ⟨(w4 b').1, ?_⟩
    rcases eq_or_not b b' with rfl | rfl
    · have hw2 := (w4 b').2
      rw [h2] at hw2 n2 ⊢
      refine ⟨hw2.1, hw2.2.1, fun _ => h3, fun e => ⟨(hw2.2.2.2 e).1, ?_⟩⟩
      exact (hw2.2.2.2 e).2.wf (nodup_children n2 e).1
    · exact (w4 _).2.wf (n3 k hk)
  | one r i p c ch bits b bs k ch2 e j q c3 ch3 h1 h2 h3 h4 =>
    intro _ d hw
    obtain ⟨w1, w2, w3, w4⟩ := hw
    have hk : k ∈ (ch b).idxs := by rw [h2]; simp [idxs]
    obtain ⟨n1, n2, n3⟩ := nodup_children hnd b
    refine ⟨w1, w2, ?_, ?_⟩
    · intro hc b'
      rcases eq_or_not b b' with rfl | rfl
      · rw [upd_same]; simp
      · rw [upd_not]; exact w3 hc (fun he => n1 (he ▸ hk)) _
    · intro b'
      rcases eq_or_not b b' with rfl | rfl
      · rw [upd_same]
        refine ⟨⟨bs ++ q, rfl⟩, ?_⟩
        have hw2 := (w4 b').2
        rw [h2] at hw2 n2
        have hw3 := (hw2.2.2.2 e).2.wf (nodup_children n2 e).1
        rw [h3] at hw3
        obtain ⟨v1, v2, v3, v4⟩ := hw3
        have hl := hw2.2.1
        refine ⟨by simp, by rw [List.length_append]; omega, v3, fun x => ⟨(v4 x).1, ?_⟩⟩
        have := (v4 x).2
        rwa [Nat.sub_sub, ← List.length_append] at this
      · rw [upd_not]; exact ⟨(w4 _).1, (w4 _).2.wf (n3 k hk)⟩
  | leaf r i p c ch bits b bs k ch2 h1 h2 h3 h4 =>
    intro hr d hw
    obtain ⟨w1, w2, w3, w4⟩ := hw
    have hk : k ∈ (ch b).idxs := by rw [h2]; simp [idxs]
    obtain ⟨n1, n2, n3⟩ := nodup_children hnd b
    have hc : c ≠ 0 := by
      rcases h4 with h | h
      · rw [h] at hr; simp at hr
      · exact h
    refine ⟨w1, w2, fun h => absurd h hc, ?_⟩
    intro b'
    rcases eq_or_not b b' with rfl | rfl
    · rw [upd_same]; exact ⟨trivial, trivial⟩
    · rw [upd_not]; exact ⟨(w4 _).1, (w4 _).2.wf (n3 k hk)⟩
  | merge i p ch bits b bs k ch2 j q c3 ch3 h1 h2 h3 h4 =>
    intro _ d hw
    obtain ⟨w1, w2, w3, w4⟩ := hw
    have hk : k ∈ (ch b).idxs := by rw [h2]; simp [idxs]
    obtain ⟨n1, n2, n3⟩ := nodup_children hnd b
    have hw2 := (w4 (!b)).2.wf (n3 k hk)
    rw [h4] at hw2
    obtain ⟨v1, v2, v3, v4⟩ := hw2
    refine ⟨by simp [w1], by rw [List.length_append]; omega, v3, fun x => ⟨(v4 x).1, ?_⟩⟩
    have := (v4 x).2
    rwa [Nat.sub_sub, ← List.length_append] at this
  | down r i p c ch bits b bs s' k fr mv h1 h2 ih =>
    intro _ d hw
    obtain ⟨w1, w2, w3, w4⟩ := hw
    have hk : k ∈ (ch b).idxs := h2.mem
    obtain ⟨n1, n2, n3⟩ := nodup_children hnd b
    refine ⟨w1, w2, ?_, ?_⟩
    · intro hc b'
      rcases eq_or_not b b' with rfl | rfl
      · rw [upd_same]; exact h2.ne_nil.2
      · rw [upd_not]; exact w3 hc (fun he => n1 (he ▸ hk)) _
    · intro b'
      rcases eq_or_not b b' with rfl | rfl
      · rw [upd_same]
        exact ⟨h2.starts (w4 b').1, ih n2 rfl (w4 b').2⟩
      · rw [upd_not]; exact ⟨(w4 _).1, (w4 _).2.wf (n3 k hk)⟩

/-- a well formed root except possibly for a node `k` without values -/
def WfRootX (k d : Nat) : Sh → Prop
  | nil => False
  | node i p _ ch => i = 1 ∧ p = [] ∧ ∀ b, Starts b (ch b) ∧ WfX k d (ch b)

theorem setCnt_wfRootX {k c d : Nat} {s : Sh} (h : WfRoot d s) : WfRootX k d (setCnt k c s) := by
  cases s with
  | nil => exact h.elim
  | node i p c0 ch => exact ⟨h.1, h.2.1, fun b => ⟨setCnt_starts (h.2.2 b).1, setCnt_wfX (h.2.2 b).2⟩⟩

theorem setCnt_wfRoot {k c d : Nat} (hc : c ≠ 0) {s : Sh} (h : WfRoot d s) : WfRoot d (setCnt k c s) := by
  cases s with
  | nil => exact h.elim
  | node i p c0 ch =>
    exact ⟨h.1, h.2.1, fun b => ⟨setCnt_starts (h.2.2 b).1, setCnt_wf hc (h.2.2 b).2⟩⟩

theorem DelR.wfRoot {s bits s' k fr mv} (h : DelR true s bits s' k fr mv) (hnd : s.idxs.Nodup) {d : Nat}
    (hw : WfRootX k d s) : WfRoot d s' := by
  -- the root seen as a node with a value and one bit
  cases h with
  | two _ i p c ch bits b bs k ch2 h1 h2 h3 =>
    obtain ⟨rfl, rfl, w4⟩ := hw
    refine ⟨rfl, rfl, ?_⟩
    have hk : k ∈ (ch b).idxs := by rw [h2]; simp [idxs]
    obtain ⟨n1, n2, n3⟩ := nodup_children hnd b
    intro b'
    refine ⟨(w4 b').1, ?_⟩
    rcases eq_or_not b b' with rfl | rfl
    · have hw2 := (w4 b').2
      rw [h2] at hw2 n2 ⊢
      refine ⟨hw2.1, hw2.2.1, fun _ => h3, fun e => ⟨(hw2.2.2.2 e).1, ?_⟩⟩
      exact (hw2.2.2.2 e).2.wf (nodup_children n2 e).1
    · exact (w4 _).2.wf (n3 k hk)
  | one _ i p c ch bits b bs k ch2 e j q c3 ch3 h1 h2 h3 h4 =>
    obtain ⟨rfl, rfl, w4⟩ := hw
    refine ⟨rfl, rfl, ?_⟩
    have hk : k ∈ (ch b).idxs := by rw [h2]; simp [idxs]
    obtain ⟨n1, n2, n3⟩ := nodup_children hnd b
    intro b'
    rcases eq_or_not b b' with rfl | rfl
    · rw [upd_same]
      refine ⟨⟨bs ++ q, rfl⟩, ?_⟩
      have hw2 := (w4 b').2
      rw [h2] at hw2 n2
      have hw3 := (hw2.2.2.2 e).2.wf (nodup_children n2 e).1
      rw [h3] at hw3
      obtain ⟨v1, v2, v3, v4⟩ := hw3
      have hl := hw2.2.1
      refine ⟨by simp, by rw [List.length_append]; omega, v3, fun x => ⟨(v4 x).1, ?_⟩⟩
      have := (v4 x).2
      rwa [Nat.sub_sub, ← List.length_append] at this
    · rw [upd_not]; exact ⟨(w4 _).1, (w4 _).2.wf (n3 k hk)⟩
  | leaf _ i p c ch bits b bs k ch2 h1 h2 h3 h4 =>
    obtain ⟨rfl, rfl, w4⟩ := hw
    refine ⟨rfl, rfl, ?_⟩
    have hk : k ∈ (ch b).idxs := by rw [h2]; simp [idxs]
    obtain ⟨n1, n2, n3⟩ := nodup_children hnd b
    intro b'
    rcases eq_or_not b b' with rfl | rfl
    · rw [upd_same]; exact ⟨trivial, trivial⟩
    · rw [upd_not]; exact ⟨(w4 _).1, (w4 _).2.wf (n3 k hk)⟩
  | down _ i p c ch bits b bs s' k fr mv h1 h2 =>
    obtain ⟨rfl, rfl, w4⟩ := hw
    refine ⟨rfl, rfl, ?_⟩
    have hk : k ∈ (ch b).idxs := h2.mem
    obtain ⟨n1, n2, n3⟩ := nodup_children hnd b
    intro b'
    rcases eq_or_not b b' with rfl | rfl
    · rw [upd_same]
      exact ⟨h2.starts (w4 b').1, h2.wf n2 rfl (w4 b').2⟩
    · rw [upd_not]; exact ⟨(w4 _).1, (w4 _).2.wf (n3 k hk)⟩

/-- where the values of node `x` are after the deletion -/
def moved (mv : Option (Nat × Nat)) (x : Nat) : Nat :=
  match mv with
  | none => x
  | some (j, i) => if x = j then i else x

theorem DelR.mv_mem {r : Bool} {s bits s' k fr} {j i : Nat} (h : DelR r s bits s' k fr (some (j, i))) :
    j ∈ s.idxs ∧ i ∈ s.idxs ∧ fr = [j, k] := by
  generalize hm : some (j, i) = mv at h
  induction h with
  | two => simp at hm
  | one => simp at hm
  | leaf => simp at hm
  | merge i' p ch bits b bs k ch2 j' q c3 ch3 h1 h2 h3 h4 =>
    cases hm
    exact ⟨mem_idxs_node.2 (.inr ⟨!b, by rw [h4]; simp [idxs]⟩), by simp [idxs], rfl⟩
  | down r i' p c ch bits b bs s' k fr mv h1 h2 ih =>
    obtain ⟨h3, h4, h5⟩ := ih hm
    exact ⟨mem_idxs_node.2 (.inr ⟨b, h3⟩), mem_idxs_node.2 (.inr ⟨b, h4⟩), h5⟩

theorem mem_entries_idx {s : Sh} : ∀ {pre q : List Bool} {x c : Nat}, (q, x, c) ∈ s.entries pre → x ∈ s.idxs := by
  induction s with
  | nil => intro pre q x c h; simp [entries, nodes] at h
  | node i p c0 ch ih =>
    intro pre q x c h
    rcases mem_entries_node.1 h with ⟨h, _⟩ | ⟨b, h⟩
    · cases h; simp [idxs]
    · exact mem_idxs_node.2 (.inr ⟨b, ih b h⟩)

theorem entries_nil {pre : List Bool} : nil.entries pre = [] := rfl

/-- the entries are the same, up to the place of the values -/
theorem DelR.entries {r : Bool} {s bits s' k fr mv} (h : DelR r s bits s' k fr mv)
    (hnd : s.idxs.Nodup) : ∀ {pre q : List Bool} {x c : Nat},
      (q, x, c) ∈ s'.entries pre ↔ ∃ x0, (q, x0, c) ∈ s.entries pre ∧ x = moved mv x0 := by
  induction h with
  | two => intro pre q x c; simp [moved]
  | one r i p c ch bits b bs k ch2 e j q c3 ch3 h1 h2 h3 h4 =>
    intro pre q' x c'
    simp only [moved, exists_eq_right']
    rw [mem_entries_node, mem_entries_node]
    have : ∀ b', (q', x, c') ∈ (upd ch b (node j (b :: bs ++ q) c3 ch3) b').entries (pre ++ p) ↔
        (q', x, c') ∈ (ch b').entries (pre ++ p) := by
      intro b'
      rcases eq_or_not b b' with rfl | rfl
      · rw [upd_same, h2, mem_entries_node (i := k)]
        constructor
        · intro h
          refine .inr ⟨e, ?_⟩
          rw [h3]
          unfold Sh.entries at h ⊢
          rw [nodes_node] at h ⊢
          rwa [List.append_assoc _ (b' :: bs)]
        · rintro (⟨_, h⟩ | ⟨e', h⟩)
          · exact absurd rfl h
          · rcases eq_or_not e e' with rfl | rfl
            · rw [h3] at h
              unfold Sh.entries at h ⊢
              rw [nodes_node] at h ⊢
              rwa [List.append_assoc _ (b' :: bs)] at h
            · rw [h4] at h; simp [Sh.entries, nodes] at h
      · rw [upd_not]
    simp only [this]
  | leaf r i p c ch bits b bs k ch2 h1 h2 h3 h4 =>
    intro pre q' x c'
    simp only [moved, exists_eq_right']
    rw [mem_entries_node, mem_entries_node]
    have : ∀ b', (q', x, c') ∈ (upd ch b nil b').entries (pre ++ p) ↔
        (q', x, c') ∈ (ch b').entries (pre ++ p) := by
      intro b'
      rcases eq_or_not b b' with rfl | rfl
      · rw [upd_same, h2, mem_entries_node (i := k), entries_nil]
        constructor
        · intro h; simp at h
        · rintro (⟨_, h⟩ | ⟨e', h⟩)
          · exact absurd rfl h
          · rw [h3] at h; simp [Sh.entries, nodes] at h
      · rw [upd_not]
    simp only [this]
  | merge i p ch bits b bs k ch2 j q c3 ch3 h1 h2 h3 h4 =>
    intro pre q' x c'
    have hnd2 := (nodup_children hnd (!b)).2.1
    have hji : ∀ e, j ∉ (ch3 e).idxs := by
      intro e
      rw [h4] at hnd2
      exact (nodup_children hnd2 e).1
    have hold : ∀ x0, (q', x0, c') ∈ (node i p 0 ch).entries pre ↔ (q', x0, c') ∈ (ch (!b)).entries (pre ++ p) := by
      intro x0
      rw [mem_entries_node]
      constructor
      · rintro (⟨_, h⟩ | ⟨b', h⟩)
        · exact absurd rfl h
        · rcases eq_or_not b b' with rfl | rfl
          · rw [h2, mem_entries_node] at h
            rcases h with ⟨_, h⟩ | ⟨e', h⟩
            · exact absurd rfl h
            · rw [h3] at h; simp [Sh.entries, nodes] at h
          · exact h
      · intro h; exact .inr ⟨_, h⟩
    simp only [hold]
    rw [h4, mem_entries_node]
    simp only [mem_entries_node, List.append_assoc]
    constructor
    · rintro (⟨h, h0⟩ | ⟨e, h⟩)
      · cases h
        exact ⟨j, .inl ⟨rfl, h0⟩, by simp [moved]⟩
      · refine ⟨x, .inr ⟨e, h⟩, ?_⟩
        have : x ≠ j := by rintro rfl; exact hji e (mem_entries_idx h)
        simp [moved, this]
    · rintro ⟨x0, ⟨h, h0⟩ | ⟨e, h⟩, hx⟩
      · cases h
        refine .inl ⟨?_, h0⟩
        rw [hx]; simp [moved]
      · have : x0 ≠ j := by rintro rfl; exact hji e (mem_entries_idx h)
        simp only [moved, this, if_false] at hx
        subst hx
        exact .inr ⟨e, h⟩
  | down r i p c ch bits b bs s' k fr mv h1 h2 ih =>
    intro pre q' x c'
    obtain ⟨n1, n2, n3⟩ := nodup_children hnd b
    have hmv : ∀ x0, x0 ∉ (ch b).idxs → moved mv x0 = x0 := by
      intro x0 hx0
      cases mv with
      | none => rfl
      | some ji =>
        obtain ⟨j, i'⟩ := ji
        have := h2.mv_mem.1
        have hne : x0 ≠ j := by rintro rfl; exact hx0 this
        simp [moved, hne]
    rw [mem_entries_node]
    simp only [mem_entries_node]
    constructor
    · rintro (⟨h, h0⟩ | ⟨b', h⟩)
      · cases h
        exact ⟨i, .inl ⟨rfl, h0⟩, (hmv i n1).symm⟩
      · rcases eq_or_not b b' with rfl | rfl
        · rw [upd_same, ih n2] at h
          obtain ⟨x0, h3, h4⟩ := h
          exact ⟨x0, .inr ⟨_, h3⟩, h4⟩
        · rw [upd_not] at h
          exact ⟨x, .inr ⟨_, h⟩, (hmv x (fun hx => n3 x hx (mem_entries_idx h))).symm⟩
    · rintro ⟨x0, ⟨h, h0⟩ | ⟨b', h⟩, hx⟩
      · cases h
        rw [hmv _ n1] at hx
        subst hx
        exact .inl ⟨rfl, h0⟩
      · refine .inr ⟨b', ?_⟩
        rcases eq_or_not b b' with rfl | rfl
        · rw [upd_same, ih n2]
          exact ⟨x0, h, hx⟩
        · rw [upd_not]
          rw [hmv x0 (fun hx => n3 x0 hx (mem_entries_idx h))] at hx
          subst hx
          exact h

/-! ### Order -/

theorem lt_append_left (pre : List Bool) {x y : List Bool} (h : x < y) : pre ++ x < pre ++ y := by
  induction pre with
  | nil => exact h
  | cons a pre ih => exact List.Lex.cons ih

theorem nodes_sorted (s : Sh) : ∀ {d : Nat} (pre : List Bool), Wf d s ∨ WfRoot d s →
    (s.nodes pre).Pairwise (fun a b => a.1 < b.1) := by
  induction s with
  | nil => intro d pre _; exact .nil
  | node i p c ch ih =>
    intro d pre hw
    have hst : ∀ b, Starts b (ch b) ∧ ∃ d, Wf d (ch b) := by
      rcases hw with h | h
      · exact fun b => ⟨(h.2.2.2 b).1, _, (h.2.2.2 b).2⟩
      · exact fun b => ⟨(h.2.2 b).1, _, (h.2.2 b).2⟩
    rw [nodes_node, List.pairwise_cons, List.pairwise_append]
    refine ⟨?_, ?_, ?_, ?_⟩
    · intro e he
      have : ∃ b, e ∈ (ch b).nodes (pre ++ p) := by
        rcases List.mem_append.1 he with h | h
        · exact ⟨_, h⟩
        · exact ⟨_, h⟩
      obtain ⟨b, hb⟩ := this
      obtain ⟨x, hx⟩ := path_child (hst b).1 hb
      rw [hx]
      show pre ++ p < pre ++ p ++ b :: x
      have := lt_append_left (pre ++ p) (show ([] : List Bool) < b :: x from List.Lex.nil)
      rwa [List.append_nil] at this
    · obtain ⟨d', h⟩ := (hst false).2
      exact ih false _ (.inl h)
    · obtain ⟨d', h⟩ := (hst true).2
      exact ih true _ (.inl h)
    · intro a ha e he
      obtain ⟨x, hx⟩ := path_child (hst false).1 ha
      obtain ⟨y, hy⟩ := path_child (hst true).1 he
      rw [hx, hy]
      exact lt_append_left _ (List.Lex.rel (by decide))

theorem entries_sorted {s : Sh} {d : Nat} (pre : List Bool) (h : Wf d s ∨ WfRoot d s) :
    (s.entries pre).Pairwise (fun a b => a.1 < b.1) := (nodes_sorted s pre h).filter _

end Sh
end Verif.Tree
