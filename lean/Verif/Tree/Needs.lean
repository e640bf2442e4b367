import Verif.Tree.Refine
import Verif.Tree.Spec

/-! How many nodes a tree needs for the prefixes it stores. -/

namespace Verif.Tree
open Verif.Id

theorem Needs.mono {S S' : List Bool → Prop} (h : ∀ q, S q → S' q) {q : List Bool} (hq : Needs S q) : Needs S' q := by
  rcases hq with hq | hq | ⟨r, r', h1, h2⟩
  · exact .inl hq
  · exact .inr (.inl (h q hq))
  · exact .inr (.inr ⟨r, r', h _ h1, h _ h2⟩)

theorem NeedsAtMost.mono {n : Nat} {S S' : List Bool → Prop} (hn : NeedsAtMost n S) (h : ∀ q, S' q → S q) :
    NeedsAtMost n S' := by
  obtain ⟨ks, h1, h2⟩ := hn
  exact ⟨ks, h1, fun q hq => h2 q (hq.mono h)⟩

theorem NeedsAtMost.le {n m : Nat} {S : List Bool → Prop} (hn : NeedsAtMost n S) (h : n ≤ m) : NeedsAtMost m S := by
  obtain ⟨ks, h1, h2⟩ := hn
  exact ⟨ks, Nat.le_trans h1 h, h2⟩

/-- below a subtree a prefix is stored -/
theorem Sh.some_entry (s : Sh) : ∀ {d : Nat} {pre : List Bool}, Sh.Wf d s → s ≠ .nil →
    ∃ q x c, (q, x, c) ∈ s.entries pre := by
  induction s with
  | nil => intro d pre _ h; exact absurd rfl h
  | node i p c ch ih =>
    intro d pre hw _
    by_cases hc : c = 0
    · obtain ⟨q, x, c', h⟩ := ih true (pre := pre ++ p) (hw.2.2.2 true).2 (hw.2.2.1 hc true)
      exact ⟨q, x, c', Sh.mem_entries.2 ⟨Sh.mem_nodes_node.2 (.inr ⟨true, (Sh.mem_entries.1 h).1⟩), (Sh.mem_entries.1 h).2⟩⟩
    · exact ⟨_, i, c, Sh.mem_entries.2 ⟨Sh.mem_nodes_node.2 (.inl rfl), hc⟩⟩

theorem Sh.entries_child {i : Nat} {p : List Bool} {c : Nat} {ch : Bool → Sh} {pre : List Bool} {e} (b : Bool)
    (h : e ∈ (ch b).entries (pre ++ p)) : e ∈ (Sh.node i p c ch).entries pre :=
  Sh.mem_entries.2 ⟨Sh.mem_nodes_node.2 (.inr ⟨b, (Sh.mem_entries.1 h).1⟩), (Sh.mem_entries.1 h).2⟩

/-- the nodes of a subtree are needed -/
theorem Sh.needs {s : Sh} : ∀ {d : Nat} {pre q : List Bool} {x c : Nat}, Sh.Wf d s → (q, x, c) ∈ s.nodes pre →
    Needs (fun q => ∃ x c, (q, x, c) ∈ s.entries pre) q := by
  induction s with
  | nil => intro d pre q x c _ h; simp [Sh.nodes] at h
  | node i p c0 ch ih =>
    intro d pre q x c hw h
    rcases Sh.mem_nodes_node.1 h with h' | ⟨b, h'⟩
    · cases h'
      by_cases hc : c0 = 0
      · have sub : ∀ b, ∃ r x c', (pre ++ p ++ b :: r, x, c') ∈ (Sh.node i p c0 ch).entries pre := by
          intro b
          obtain ⟨q', x', c', h1⟩ := Sh.some_entry (ch b) (pre := pre ++ p) (hw.2.2.2 b).2 (hw.2.2.1 hc b)
          obtain ⟨r, hr⟩ := Sh.path_child (hw.2.2.2 b).1 (Sh.mem_entries.1 h1).1
          have hr : q' = _ := hr
          subst hr
          exact ⟨r, x', c', Sh.entries_child b h1⟩
        obtain ⟨r, x1, c1, h1⟩ := sub false
        obtain ⟨r', x2, c2, h2⟩ := sub true
        exact .inr (.inr ⟨r, r', ⟨x1, c1, h1⟩, ⟨x2, c2, h2⟩⟩)
      · exact .inr (.inl ⟨i, c0, Sh.mem_entries.2 ⟨h, hc⟩⟩)
    · exact (ih b (hw.2.2.2 b).2 h').mono (fun q ⟨x, c, hx⟩ => ⟨x, c, Sh.entries_child b hx⟩)

theorem Sh.root_needs {s : Sh} {d : Nat} {q : List Bool} {x c : Nat} (hw : Sh.WfRoot d s) (h : (q, x, c) ∈ s.nodes []) :
    Needs (fun q => ∃ x c, (q, x, c) ∈ s.entries []) q := by
  cases s with
  | nil => exact hw.elim
  | node i p c0 ch =>
    obtain ⟨_, rfl, h4⟩ := hw
    rcases Sh.mem_nodes_node.1 h with h' | ⟨b, h'⟩
    · cases h'
      exact .inl rfl
    · exact (Sh.needs (h4 b).2 h').mono (fun q ⟨x, c, hx⟩ => ⟨x, c, Sh.entries_child b hx⟩)

theorem Sh.length_nodes {s : Sh} : ∀ pre : List Bool, (s.nodes pre).length = s.idxs.length := by
  induction s with
  | nil => intro _; rfl
  | node i p c ch ih =>
    intro pre
    rw [Sh.nodes_node, Sh.idxs_node]
    simp only [List.length_cons, List.length_append, ih]

/-- a tree has no more nodes than it needs -/
theorem Sh.idxs_needs {W n : Nat} {s : Sh} (hw : Sh.WfRoot W s)
    (hn : NeedsAtMost n (fun q => ∃ x c, (q, x, c) ∈ s.entries [])) : s.idxs.length ≤ n := by
  obtain ⟨ks, h1, h2⟩ := hn
  have irr : ∀ a : List Bool, ¬ a < a := by
    intro a
    induction a with
    | nil => intro h; cases h
    | cons b a ih =>
      intro h
      cases h with
      | rel h => cases b <;> cases h
      | cons h => exact ih h
  have hnd : ((s.nodes []).map (·.1)).Nodup := by
    unfold List.Nodup
    rw [List.pairwise_map]
    refine (Sh.nodes_sorted s [] (.inr hw)).imp ?_
    intro a b hab he
    rw [he] at hab
    exact irr _ hab
  have hsub : (s.nodes []).map (·.1) ⊆ ks := by
    intro q hq
    obtain ⟨⟨q', x, c⟩, h3, rfl⟩ := List.mem_map.1 hq
    exact h2 q' (Sh.root_needs hw h3)
  have := hnd.length_le_of_subset hsub
  rw [List.length_map, Sh.length_nodes] at this
  omega

/-! ### Few prefixes -/

/-- storing one more prefix takes at most two more nodes -/
theorem needs_cons {S : List Bool → Prop} (p : List Bool) : ∃ l : List (List Bool), l.length ≤ 1 ∧
    ∀ q, Needs (fun q => q = p ∨ S q) q → Needs S q ∨ q = p ∨ q ∈ l := by
  -- the new branching points are prefixes of `p`
  have key : ∀ q, Needs (fun q => q = p ∨ S q) q → Needs S q ∨ q = p ∨
      ∃ b r r', p = q ++ b :: r ∧ S (q ++ (!b) :: r') ∧ ∀ r'', ¬ S (q ++ b :: r'') := by
    intro q hq
    by_cases hn : Needs S q
    · exact .inl hn
    · right
      rcases hq with hq | hq | ⟨r, r', h1, h2⟩
      · exact absurd (.inl hq) hn
      · rcases hq with hq | hq
        · exact .inl hq
        · exact absurd (.inr (.inl hq)) hn
      · right
        rcases h1 with h1 | h1
        · rcases h2 with h2 | h2
          · rw [← h1] at h2
            have := List.append_cancel_left h2
            cases this
          · exact ⟨false, r, r', h1.symm, h2, fun r'' h => hn (.inr (.inr ⟨r'', r', h, h2⟩))⟩
        · rcases h2 with h2 | h2
          · exact ⟨true, r', r, h2.symm, h1, fun r'' h => hn (.inr (.inr ⟨r, r'', h1, h⟩))⟩
          · exact absurd (.inr (.inr ⟨r, r', h1, h2⟩)) hn
  -- there is at most one
  have uniq : ∀ q q' b r r' c u u', p = q ++ b :: r → S (q ++ (!b) :: r') → (∀ r'', ¬ S (q ++ b :: r'')) →
      p = q' ++ c :: u → S (q' ++ (!c) :: u') → q.length < q'.length → False := by
    intro q q' b r r' c u u' h1 _ h3 h4 h5 hl
    have hp : q ++ [b] <+: p := by rw [h1]; exact ⟨r, by simp⟩
    have hp' : q' <+: p := by rw [h4]; exact ⟨c :: u, rfl⟩
    obtain ⟨w, hw⟩ := List.prefix_of_prefix_length_le hp hp' (by simp; omega)
    refine h3 (w ++ (!c) :: u') ?_
    rw [← hw] at h5
    simpa using h5
  by_cases hex : ∃ q, ∃ b r r', p = q ++ b :: r ∧ S (q ++ (!b) :: r') ∧ ∀ r'', ¬ S (q ++ b :: r'')
  · obtain ⟨q0, b, r, r', g1, g2, g3⟩ := hex
    refine ⟨[q0], by simp, fun q hq => ?_⟩
    rcases key q hq with h | h | ⟨c, u, u', f1, f2, f3⟩
    · exact .inl h
    · exact .inr (.inl h)
    · right; right
      rw [List.mem_singleton]
      rcases Nat.lt_trichotomy q.length q0.length with hlt | heq | hlt
      · exact (uniq q q0 c u u' b r r' f1 f2 f3 g1 g2 hlt).elim
      · have := f1.symm.trans g1
        exact (List.append_inj this heq).1
      · exact (uniq q0 q b r r' c u u' g1 g2 g3 f1 f2 hlt).elim
  · refine ⟨[], by simp, fun q hq => ?_⟩
    rcases key q hq with h | h | h
    · exact .inl h
    · exact .inr (.inl h)
    · exact absurd ⟨q, h⟩ hex

/-- for `n` prefixes, `2 n` nodes are enough -/
theorem needs_of_keys : ∀ (ks : List (List Bool)), NeedsAtMost (max 1 (2 * ks.length)) (· ∈ ks) := by
  intro ks
  induction ks with
  | nil =>
    refine ⟨[[]], by simp, fun q hq => ?_⟩
    rcases hq with hq | hq | ⟨r, r', h, _⟩
    · simp [hq]
    · cases hq
    · cases h
  | cons p ks ih =>
    cases ks with
    | nil =>
      refine ⟨[[], p], by simp, fun q hq => ?_⟩
      rcases hq with hq | hq | ⟨r, r', h1, h2⟩
      · simp [hq]
      · simp only [List.mem_singleton] at hq; simp [hq]
      · simp only [List.mem_singleton] at h1 h2
        rw [← h1] at h2
        have := List.append_cancel_left h2
        cases this
    | cons p' ks =>
      obtain ⟨l, h1, h2⟩ := needs_cons (S := (· ∈ p' :: ks)) p
      obtain ⟨ns, h3, h4⟩ := ih
      refine ⟨p :: (l ++ ns), ?_, fun q hq => ?_⟩
      · simp only [List.length_cons, List.length_append] at h3 ⊢
        omega
      · rcases h2 q (hq.mono (fun q h => List.mem_cons.1 h)) with h | h | h
        · simp [h4 q h]
        · simp [h]
        · simp [h]

theorem needs_of_atMost {T : Type} {n : Nat} (hn : 1 ≤ n) {M : List Bool → Option T} (h : AtMost n M) :
    NeedsAtMost (2 * n) (fun q => M q ≠ none) := by
  obtain ⟨ks, h1, h2⟩ := h
  exact ((needs_of_keys ks).mono h2).le (by omega)

/-! ### Prefixes in a part of the space -/

/-- all prefixes of length at most `n` -/
def allPfx : Nat → List (List Bool)
  | 0 => [[]]
  | n + 1 => [] :: ((allPfx n).map (false :: ·) ++ (allPfx n).map (true :: ·))

theorem length_allPfx : ∀ n, (allPfx n).length + 1 = 2 ^ (n + 1)
  | 0 => rfl
  | n + 1 => by
    have := length_allPfx n
    rw [allPfx, Nat.pow_succ]
    simp only [List.length_cons, List.length_append, List.length_map]
    omega

theorem mem_allPfx : ∀ {n : Nat} {q : List Bool}, q.length ≤ n → q ∈ allPfx n
  | 0, q, h => by
    have : q = [] := List.length_eq_zero_iff.1 (by omega)
    simp [allPfx, this]
  | n + 1, [], _ => by simp [allPfx]
  | n + 1, b :: q, h => by
    have : q ∈ allPfx n := mem_allPfx (by simpa using h)
    cases b <;> simp [allPfx, this]

/-- when all prefixes stored begin with 0, half of the nodes is enough -/
theorem needs_half {W : Nat} {S : List Bool → Prop} (h : ∀ q, S q → q.length ≤ W + 1 ∧ (q = [] ∨ ∃ r, q = false :: r)) :
    NeedsAtMost (2 ^ (W + 1)) S := by
  refine ⟨[] :: (allPfx W).map (false :: ·), ?_, fun q hq => ?_⟩
  · have := length_allPfx W
    simp only [List.length_cons, List.length_map]
    omega
  · cases q with
    | nil => simp
    | cons b q =>
      have : ∃ q', S (b :: q ++ q') := by
        rcases hq with hq | hq | ⟨r, _, h1, _⟩
        · cases hq
        · exact ⟨[], by simpa using hq⟩
        · exact ⟨_, h1⟩
      obtain ⟨q', hs⟩ := this
      obtain ⟨h1, h2⟩ := h _ hs
      rcases h2 with h2 | ⟨r, h2⟩
      · simp at h2
      · simp only [List.cons_append, List.cons.injEq] at h2
        simp only [List.length_cons, List.length_append] at h1
        rw [h2.1]
        have : q ∈ allPfx W := mem_allPfx (by omega)
        simp [this]

end Verif.Tree
