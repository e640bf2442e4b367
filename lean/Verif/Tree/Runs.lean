import Verif.Tree.Needs

/-! Histories: the invariant holds always, the abstract map is followed as long as keys do not overlap. -/

namespace Verif.Tree
open Verif.Id
variable {T : Type} [Inhabited T] {P : Pkg}

theorem pfx_eq {W : Nat} (x : BitVec W) {n : Nat} (hn : n ≤ W) : pfx x n = bitsOf W x n := by
  unfold pfx bitsOf
  apply List.map_congr_left
  intro k hk
  have : k < W := Nat.lt_of_lt_of_le (List.mem_range.1 hk) hn
  simp [BitVec.getMsbD, this]

theorem pfx_id (id : MyId P) (h : id.len ≤ P.W) : pfx id.id id.len = bitsId id := pfx_eq id.id h

/-! ### The invariant -/

theorem exec_set {t : Tree T} {id : MyId P} {v : T} {b c t'}
    (h : t.add id v (some (fun _ _ => true)) (some (fun _ => v)) = .ok (b, c, t')) :
    (Op.set id v).exec t = .ok (.added b c, t') := by
  show (t.add id v (some (fun _ _ => true)) (some (fun _ => v)) >>= _) = _
  rw [h]; rfl
theorem exec_add {t : Tree T} {id : MyId P} {v : T} {m b c t'} (h : t.add id v m none = .ok (b, c, t')) :
    (Op.add id v m).exec t = .ok (.added b c, t') := by
  show (t.add id v m none >>= _) = _
  rw [h]; rfl
theorem exec_delete {t : Tree T} {id : MyId P} {v : T} {m n t'} (h : t.delete id m v = .ok (n, t')) :
    (Op.delete id m v).exec t = .ok (.deleted n, t') := by
  show (t.delete id m v >>= _) = _
  rw [h]; rfl

theorem exec_inv (hP : WidthOk P.W) {t : Tree T} {s : Sh} (h : Inv P.W t s) (o : Op P T)
    (ho : o.id.len ≤ P.W) : ∃ r t' s', o.exec t = .ok (r, t') ∧ Inv P.W t' s' := by
  cases o with
  | set id v =>
    obtain ⟨bb, c', t', s', k, c0, used, h1, h2, h3, h4, _⟩ := add_spec hP h id ho v
      (some (fun _ _ => true)) (some (fun _ => v))
    exact ⟨_, t', s', exec_set h1, h4⟩
  | add id v m =>
    obtain ⟨bb, c', t', s', k, c0, used, h1, h2, h3, h4, _⟩ := add_spec hP h id ho v m none
    exact ⟨_, t', s', exec_add h1, h4⟩
  | delete id m v =>
    rcases delete_spec hP h id ho v m with ⟨h1, h2⟩ | ⟨k, c0, d, t', s', hk, h1, h2⟩
    · exact ⟨_, t, s, exec_delete h1, h⟩
    · exact ⟨_, t', s', exec_delete h1, h2.inv⟩

theorem run_inv (hP : WidthOk P.W) : ∀ {os : List (Op P T)} {t : Tree T} {s : Sh}, Inv P.W t s →
    (∀ o ∈ os, o.id.len ≤ P.W) → ∃ rs t' s', run t os = .ok (rs, t') ∧ Inv P.W t' s' := by
  intro os
  induction os with
  | nil => intro t s h _; exact ⟨[], t, s, rfl, h⟩
  | cons o os ih =>
    intro t s h ho
    obtain ⟨r, t1, s1, h1, h2⟩ := exec_inv hP h o (ho o (by simp))
    obtain ⟨rs, t2, s2, h3, h4⟩ := ih h2 (fun o' h' => ho o' (by simp [h']))
    exact ⟨r :: rs, t2, s2, by rw [run, h1]; simp only [Out.bind_ok]; rw [h3]; rfl, h4⟩

theorem Reach.inv (hP : WidthOk P.W) {t : Tree T} (h : Reach P t) : ∃ s, Inv P.W t s := by
  obtain ⟨os, rs, h1, h2⟩ := h
  obtain ⟨rs', t', s', h3, h4⟩ := run_inv hP (Inv.new (T := T) P) h1
  rw [h2] at h3
  cases h3
  exact ⟨s', h4⟩

theorem ReachSet.reach {t : Tree T} (h : ReachSet P t) : Reach P t := by
  obtain ⟨os, rs, h1, h2⟩ := h
  exact ⟨os, rs, fun o ho => (h1 o ho).1, h2⟩

theorem run_append : ∀ {os : List (Op P T)} {t : Tree T} {rs t1 o r t2}, run t os = .ok (rs, t1) →
    o.exec t1 = .ok (r, t2) → run t (os ++ [o]) = .ok (rs ++ [r], t2) := by
  intro os
  induction os with
  | nil =>
    intro t rs t1 o r t2 h1 h2
    cases h1
    show (o.exec t >>= _) = _
    rw [h2]; rfl
  | cons o' os ih =>
    intro t rs t1 o r t2 h1 h2
    rw [run] at h1
    rw [List.cons_append, run]
    cases he : o'.exec t with
    | ok p =>
      obtain ⟨r', t'⟩ := p
      rw [he] at h1
      simp only [Out.bind_ok] at h1 ⊢
      cases hr : run t' os with
      | ok p2 =>
        obtain ⟨rs', t''⟩ := p2
        rw [hr] at h1
        cases h1
        rw [ih hr h2]
        rfl
      | _ => rw [hr] at h1; cases h1
    | _ => rw [he] at h1; cases h1

/-! ### Paths -/

theorem Rep.child {W : Nat} {ns : List Node} {s : Sh} : ∀ {x : Nat} {pre q : List Bool} {i c : Nat} {n cn : Node}
    {b : Bool}, Rep W ns s x → (q, i, c) ∈ s.nodes pre → ns[i]? = some n → n.child b ≠ 0 →
    ns[n.child b]? = some cn → ∃ c', (q ++ bitsNode W cn, n.child b, c') ∈ s.nodes pre := by
  induction s with
  | nil => intro x pre q i c n cn b _ h; simp [Sh.nodes] at h
  | node j p c0 ch ih =>
    intro x pre q i c n cn b hr hm hn h0 hcn
    obtain ⟨rfl, _, n', hn', hp, hc, hch⟩ := hr
    rcases Sh.mem_nodes_node.1 hm with h | ⟨b', h⟩
    · cases h
      rw [hn] at hn'
      cases hn'
      have hr := hch b
      have hne : ch b ≠ .nil := fun e => h0 (hr.nil_iff.1 e)
      cases hcb : ch b with
      | nil => exact absurd hcb hne
      | node k p' c' ch' =>
        rw [hcb] at hr
        obtain ⟨hk, _, n2, hn2, hp2, _, _⟩ := hr
        rw [hcn] at hn2
        cases hn2
        refine ⟨c', Sh.mem_nodes_node.2 (.inr ⟨b, ?_⟩)⟩
        rw [hcb, Sh.mem_nodes_node, hp2, hk]
        exact .inl rfl
    · obtain ⟨c', h'⟩ := ih b' (hch b') h hn h0 hcn
      exact ⟨c', Sh.mem_nodes_node.2 (.inr ⟨b', h'⟩)⟩

theorem Rep.at {W : Nat} {t : Tree T} {s : Sh} : ∀ {x : Nat} {pre : List Bool}, Rep W t.nodes s x →
    (∀ n, t.nodes[x]? = some n → s ≠ .nil → At W t (pre ++ bitsNode W n) x) →
    ∀ q i c, (q, i, c) ∈ s.nodes pre → At W t q i := by
  induction s with
  | nil => intro x pre _ _ q i c h; simp [Sh.nodes] at h
  | node j p c0 ch ih =>
    intro x pre hr ha q i c hm
    obtain ⟨rfl, h0, n, hn, hp, hc, hch⟩ := hr
    have hax := ha n hn (by simp)
    rw [hp] at hax
    rcases Sh.mem_nodes_node.1 hm with h | ⟨b, h⟩
    · cases h; exact hax
    · refine ih b (hch b) ?_ q i c h
      intro cn hcn hne
      have hz : n.child b ≠ 0 := fun e => hne ((hch b).nil_iff.2 e)
      cases b with
      | false => exact At.left hax hn hz hcn
      | true => exact At.right hax hn hz hcn

theorem Inv.at_iff {W : Nat} {t : Tree T} {s : Sh} (h : Inv W t s) {q : List Bool} {i : Nat} :
    At W t q i ↔ ∃ c, (q, i, c) ∈ s.nodes [] := by
  constructor
  · intro ha
    induction ha with
    | root =>
      have hw := h.wf
      cases s with
      | nil => exact hw.elim
      | node j p c ch => exact ⟨c, Sh.mem_nodes_node.2 (.inl (by rw [hw.1, hw.2.1]; rfl))⟩
    | @left q i n c ha hn h0 hc ih =>
      obtain ⟨c1, h1⟩ := ih
      exact h.rep.child (b := false) h1 hn h0 hc
    | @right q i n c ha hn h0 hc ih =>
      obtain ⟨c1, h1⟩ := ih
      exact h.rep.child (b := true) h1 hn h0 hc
  · rintro ⟨c, hm⟩
    refine h.rep.at (pre := []) ?_ q i c hm
    intro n hn hne
    have hw := h.wf
    have hr := h.rep
    cases s with
    | nil => exact absurd rfl hne
    | node j p c ch =>
      obtain ⟨_, _, n', hn', hp, _⟩ := hr
      rw [hn] at hn'
      cases hn'
      rw [hp, hw.2.1]
      exact At.root

/-! ### What is stored -/

/-- the values under a prefix -/
def contents (t : Tree T) (s : Sh) (q : List Bool) : List T :=
  match (s.entries []).find? (fun e => e.1 = q) with
  | some e => valsAt t.vals (t.key e.2.1) e.2.2
  | none => []

theorem Inv.abs {W : Nat} {t : Tree T} {s : Sh} (h : Inv W t s) : Abs t s (contents t s) := by
  constructor
  · intro q x c hx
    unfold contents
    cases hf : (s.entries []).find? (fun e => e.1 = q) with
    | none =>
      have := List.find?_eq_none.1 hf _ hx
      simp at this
    | some e =>
      obtain ⟨q', x', c'⟩ := e
      have h1 := List.find?_some hf
      have h2 := List.mem_of_find?_eq_some hf
      simp only [decide_eq_true_eq] at h1
      subst h1
      obtain ⟨rfl, rfl⟩ := Sh.nodes_unique (.inr h.wf) (Sh.mem_entries.1 h2).1 (Sh.mem_entries.1 hx).1
      rfl
  · intro q hq
    unfold contents
    cases hf : (s.entries []).find? (fun e => e.1 = q) with
    | none => rfl
    | some e =>
      obtain ⟨q', x', c'⟩ := e
      have h1 := List.find?_some hf
      have h2 := List.mem_of_find?_eq_some hf
      simp only [decide_eq_true_eq] at h1
      subst h1
      exact absurd h2 (hq _ _)

theorem Inv.vals_at {W : Nat} {t : Tree T} {s : Sh} (h : Inv W t s) {q : List Bool} {i c : Nat}
    (hm : (q, i, c) ∈ s.nodes []) : t.valsForNode i = .ok (valsAt t.vals (t.key i) c) := by
  obtain ⟨n, hn, hc⟩ := h.rep.cnt hm
  have h0 := (h.rep.lt i (Sh.mem_nodes_idx hm)).2
  unfold Tree.valsForNode
  rw [if_neg h0, node_eq hn, ← hc]
  rfl

theorem Inv.holds {W : Nat} {t : Tree T} {s : Sh} {M : List Bool → List T} (h : Inv W t s) (ha : Abs t s M)
    {q : List Bool} {l : List T} : Holds W t q l ↔ l = M q := by
  have key : ∀ i c, (q, i, c) ∈ s.nodes [] → valsAt t.vals (t.key i) c = M q := by
    intro i c hm
    by_cases hc : c = 0
    · subst hc
      rw [ha.none q ?_]
      · rfl
      · intro x c hx
        have := Sh.nodes_unique (.inr h.wf) (Sh.mem_entries.1 hx).1 hm
        exact (Sh.mem_entries.1 hx).2 this.2
    · exact (ha.entry q i c (Sh.mem_entries.2 ⟨hm, hc⟩)).symm
  constructor
  · rintro (⟨i, h1, h2⟩ | ⟨h1, rfl⟩)
    · obtain ⟨c, hm⟩ := h.at_iff.1 h1
      rw [h.vals_at hm] at h2
      cases h2
      exact key i c hm
    · rw [ha.none q]
      intro x c hx
      exact h1 x (h.at_iff.2 ⟨c, (Sh.mem_entries.1 hx).1⟩)
  · rintro rfl
    by_cases hm : ∃ i c, (q, i, c) ∈ s.nodes []
    · obtain ⟨i, c, hm⟩ := hm
      refine .inl ⟨i, h.at_iff.2 ⟨c, hm⟩, ?_⟩
      rw [h.vals_at hm, key i c hm]
    · refine .inr ⟨?_, ?_⟩
      · intro i hi
        obtain ⟨c, hc⟩ := h.at_iff.1 hi
        exact hm ⟨i, c, hc⟩
      · exact ha.none q (fun x c hx => hm ⟨x, c, (Sh.mem_entries.1 hx).1⟩)

theorem Small.counts_le {W : Nat} {t : Tree T} {s : Sh} {M : List Bool → List T} (hs : Small W t) (h : Inv W t s)
    (ha : Abs t s M) (q : List Bool) : (M q).length ≤ 2 ^ W := by
  by_cases hm : ∃ x c, (q, x, c) ∈ s.entries []
  · obtain ⟨x, c, hx⟩ := hm
    obtain ⟨n, hn, hc⟩ := h.rep.cnt (Sh.mem_entries.1 hx).1
    rw [ha.entry q x c hx, length_valsAt, ← hc]
    exact hs.counts q x n (h.at_iff.2 ⟨c, (Sh.mem_entries.1 hx).1⟩) hn
  · rw [ha.none q (fun x c hx => hm ⟨x, c, hx⟩)]
    exact Nat.zero_le _

/-! ### Number of nodes -/

theorem Sh.idxs_pow {s : Sh} : ∀ {d : Nat}, Sh.Wf d s → s.idxs.length + 1 ≤ 2 ^ d := by
  induction s with
  | nil => intro d _; simpa [Sh.idxs] using Nat.one_le_two_pow
  | node i p c ch ih =>
    intro d hw
    obtain ⟨h1, h2, _, h4⟩ := hw
    have hp : 0 < p.length := List.length_pos_iff.2 h1
    have a := ih false (h4 false).2
    have b := ih true (h4 true).2
    have e : 2 ^ (d - p.length) * 2 ≤ 2 ^ d := by
      rw [← Nat.pow_succ]
      exact Nat.pow_le_pow_right (by decide) (by omega)
    rw [Sh.idxs_node]
    simp only [List.length_cons, List.length_append]
    omega

theorem Sh.idxs_entries {s : Sh} : ∀ {d : Nat} (pre : List Bool), Sh.Wf d s →
    (s = .nil ∨ s.idxs.length + 1 ≤ 2 * (s.entries pre).length) := by
  induction s with
  | nil => intro d _ _; exact .inl rfl
  | node i p c ch ih =>
    intro d pre hw
    right
    obtain ⟨h1, h2, h3, h4⟩ := hw
    have a := ih false (pre ++ p) (h4 false).2
    have b := ih true (pre ++ p) (h4 true).2
    have hl : ((Sh.node i p c ch).entries pre).length = (if c = 0 then 0 else 1) +
        (((ch false).entries (pre ++ p)).length + ((ch true).entries (pre ++ p)).length) := by
      unfold Sh.entries
      rw [Sh.nodes_node, List.filter_cons, List.filter_append]
      by_cases hc : c = 0
      · simp [hc]
      · simp [hc]; omega
    rw [hl, Sh.idxs_node]
    simp only [List.length_cons, List.length_append]
    by_cases hc : c = 0
    · have := h3 hc
      rcases a with a | a
      · exact absurd a (this false)
      · rcases b with b | b
        · exact absurd b (this true)
        · rw [if_pos hc]; omega
    · rw [if_neg hc]
      rcases a with a | a <;> rcases b with b | b
      · rw [a, b]; simp [Sh.idxs]; omega
      · rw [a]; simp [Sh.idxs]; omega
      · rw [b]; simp [Sh.idxs]; omega
      · omega

theorem Sh.root_idxs_entries {W : Nat} {s : Sh} (hw : Sh.WfRoot W s) :
    s.idxs.length ≤ 1 ∨ s.idxs.length ≤ 2 * (s.entries []).length := by
  cases s with
  | nil => exact hw.elim
  | node i p c ch =>
    obtain ⟨_, _, h4⟩ := hw
    have a := Sh.idxs_entries ([] ++ p) (h4 false).2
    have b := Sh.idxs_entries ([] ++ p) (h4 true).2
    have hl : ((ch false).entries ([] ++ p)).length + ((ch true).entries ([] ++ p)).length ≤
        ((Sh.node i p c ch).entries []).length := by
      unfold Sh.entries
      rw [Sh.nodes_node, List.filter_cons, List.filter_append]
      by_cases hc : c = 0
      · simp [hc]
      · simp [hc]
    rw [Sh.idxs_node]
    simp only [List.length_cons, List.length_append]
    rcases a with a | a <;> rcases b with b | b
    · rw [a, b]; simp [Sh.idxs]
    · rw [a]; simp [Sh.idxs]; omega
    · rw [b]; simp [Sh.idxs]; omega
    · omega

theorem Sh.root_idxs_pow {W : Nat} {s : Sh} (hw : Sh.WfRoot W s) : s.idxs.length + 1 ≤ 2 ^ (W + 1) := by
  cases s with
  | nil => exact hw.elim
  | node i p c ch =>
    obtain ⟨_, _, h4⟩ := hw
    have a := Sh.idxs_pow (h4 false).2
    have b := Sh.idxs_pow (h4 true).2
    rw [Sh.idxs_node, Nat.pow_succ]
    simp only [List.length_cons, List.length_append]
    omega

theorem Inv.tight {W : Nat} {t : Tree T} {s : Sh} (h : Inv W t s) (ha : t.avail = []) :
    t.nodes.length = s.idxs.length + 1 := by
  have h1 := h.perm.length_eq
  have h2 := h.pos
  rw [ha, List.append_nil, List.length_range'] at h1
  omega

/-- the conditions under which the keys of the value map do not overlap -/
theorem Inv.bound {W : Nat} {t t' : Tree T} {s' : Sh} (h' : Inv W t' s')
    (hl : t'.nodes.length = t.nodes.length ∨ t'.avail = []) (ht : t.nodes.length ≤ 2 ^ (64 - W) + 1)
    (hW : W = 16 ∨ (W = 32 ∧ NeedsAtMost (2 ^ 32) (fun q => ∃ x c, (q, x, c) ∈ s'.entries []))) : t'.nodes.length ≤ 2 ^ (64 - W) + 1 := by
  rcases hl with hl | hl
  · omega
  · rw [h'.tight hl]
    rcases hW with rfl | ⟨rfl, hE⟩
    · exact Nat.le_trans (Sh.root_idxs_pow h'.wf) (by decide)
    · have := Sh.idxs_needs h'.wf hE
      omega

theorem entries_length_le {W : Nat} {s : Sh} (hw : Sh.WfRoot W s) {ks : List (List Bool)}
    (h : ∀ q x c, (q, x, c) ∈ s.entries [] → q ∈ ks) : (s.entries []).length ≤ ks.length := by
  have hs := Sh.entries_sorted [] (.inr hw)
  have irr : ∀ a : List Bool, ¬ a < a := by
    intro a
    induction a with
    | nil => intro h; cases h
    | cons b a ih =>
      intro h
      cases h with
      | rel h => cases b <;> cases h
      | cons h => exact ih h
  have hnd : ((s.entries []).map (·.1)).Nodup := by
    unfold List.Nodup
    rw [List.pairwise_map]
    refine hs.imp ?_
    intro a b hab he
    rw [he] at hab
    exact irr _ hab
  have hsub : (s.entries []).map (·.1) ⊆ ks := by
    intro q hq
    obtain ⟨⟨q', x, c⟩, h1, rfl⟩ := List.mem_map.1 hq
    exact h q' x c h1
  have := hnd.length_le_of_subset hsub
  simpa using this

/-! ### Set and Delete -/

/-- at most one value -/
theorem addL_set (v : T) (o : Option T) :
    addL (some (fun _ _ => true)) (some (fun _ => v)) v o.toList = [v] := by
  cases o <;> rfl

theorem keepL_toList (m : T → T → Bool) (v : T) (o : Option T) :
    keepL m (o.toList.filter (fun x => !m x v)) = (o.filter (fun x => !m x v)).toList := by
  cases o with
  | none => rfl
  | some w =>
    simp only [Option.toList_some, List.filter_cons, List.filter_nil, Option.filter_some]
    by_cases h : m w v
    · simp [h, keepL]
    · simp [h, keepL, addL]

theorem toList_length_le (o : Option T) (W : Nat) : o.toList.length ≤ 2 ^ W := by
  have : 1 ≤ 2 ^ W := Nat.one_le_two_pow
  cases o <;> simp; omega

/-- one call -/
theorem exec_map (hP : P.W = 16 ∨ P.W = 32) {t : Tree T} {s : Sh} {M : List Bool → Option T}
    (h : Inv P.W t s) (ha : Abs t s (fun q => (M q).toList)) (hsz : t.nodes.length ≤ 2 ^ (64 - P.W) + 1)
    (o : Op P T) (ho : o.id.len ≤ P.W ∧ o.NoAdd) (hb : P.W = 32 → NeedsAtMost (2 ^ 32) (fun q => o.map M q ≠ none)) :
    ∃ t' s', o.exec t = .ok (o.res M, t') ∧ Inv P.W t' s' ∧ Abs t' s' (fun q => (o.map M q).toList) ∧
      t'.nodes.length ≤ 2 ^ (64 - P.W) + 1 := by
  have hP' : WidthOk P.W := by rcases hP with h | h <;> simp [WidthOk, h]
  have hcnt : ∀ q, ((M q).toList).length ≤ 2 ^ P.W := fun q => toList_length_le _ _
  have hpf := pfx_id o.id ho.1
  cases o with
  | add id v m => exact ho.2.elim
  | set id v =>
    have hlt : (addL (some (fun _ _ => true)) (some (fun _ => v)) v (M (bitsId id)).toList).length ≤ 2 ^ P.W := by
      rw [addL_set]
      exact Nat.one_le_two_pow
    obtain ⟨bb, c', t', s', h1, h2, h3, h4, h5, h6⟩ := add_abs hP' h ha id ho.1 v (some (fun _ _ => true))
      (some (fun _ => v)) hcnt hlt
    have hsz' : t'.nodes.length ≤ 2 ^ (64 - P.W) + 1 := by
      refine h2.bound h3 hsz ?_
      rcases hP with hP | hP
      · exact .inl hP
      · refine .inr ⟨hP, (hb hP).mono ?_⟩
        · rintro q ⟨x, c, hx⟩
          have hpf' : pfx id.id id.len = bitsId id := hpf
          show (if q = pfx id.id id.len then some v else M q) ≠ none
          rw [hpf']
          rcases (h6 q).1 ⟨x, c, hx⟩ with h | ⟨x', c', h'⟩
          · simp [h]
          · split
            · simp
            · have := ha.entry_iff h.wf (q := q)
              intro hn
              exact (this.2 ⟨x', c', h'⟩) (by simp [hn])
    obtain ⟨g1, g2, g3⟩ := h5 hsz'
    have e := addL_set v (M (bitsId id))
    refine ⟨t', s', ?_, h2, ?_, hsz'⟩
    · rw [exec_set h1]
      simp only [Op.res, Op.pfx]
      rw [hpf]
      have hc1 : c' = 1 := by rw [g2, e]; rfl
      rw [hc1]
      congr 3
      rw [hc1] at g3
      show bb = (M (bitsId id)).isNone
      cases hm : M (bitsId id) <;> cases bb <;> simp [hm] at g3 <;> rfl
    · have : (fun q => (Op.map (.set id v) M q).toList) = setM (fun q => (M q).toList) (bitsId id)
          (addL (some (fun _ _ => true)) (some (fun _ => v)) v (M (bitsId id)).toList) := by
        funext q
        have hpf' : pfx id.id id.len = bitsId id := hpf
        show (if q = pfx id.id id.len then some v else M q).toList = if q = bitsId id then _ else _
        rw [hpf', e]
        split <;> rfl
      rw [this]; exact g1
  | delete id m v =>
    obtain ⟨t', s', h1, h2, h3, h4⟩ := delete_abs hP' h ha id ho.1 v m hcnt hsz
    refine ⟨t', s', ?_, h2, ?_, by omega⟩
    · rw [exec_delete h1]
      simp only [Op.res, Op.pfx]
      rw [hpf]
      show Out.ok (Res.deleted _, t') = Out.ok (Res.deleted (match M (bitsId id) with | some w => _ | none => _), t')
      cases hm : M (bitsId id) with
      | none => rfl
      | some w =>
        simp only [Option.toList_some, List.filter_cons, List.filter_nil]
        by_cases hw : m w v <;> simp [hw]
    · have : (fun q => (Op.map (.delete id m v) M q).toList) = setM (fun q => (M q).toList) (bitsId id)
          (keepL m ((M (bitsId id)).toList.filter (fun x => !m x v))) := by
        funext q
        have hpf' : pfx id.id id.len = bitsId id := hpf
        show (if q = pfx id.id id.len then (M q).filter (fun w => !m w v) else M q).toList =
          if q = bitsId id then _ else _
        rw [hpf', keepL_toList]
        split
        · rename_i hq; rw [hq]
        · rfl
      rw [this]; exact h4

theorem run_map (hP : P.W = 16 ∨ P.W = 32) : ∀ {os : List (Op P T)} {t : Tree T} {s : Sh}
    {M : List Bool → Option T}, Inv P.W t s → Abs t s (fun q => (M q).toList) →
    t.nodes.length ≤ 2 ^ (64 - P.W) + 1 → (∀ o ∈ os, o.id.len ≤ P.W ∧ o.NoAdd) →
    (P.W = 32 → ∀ n, NeedsAtMost (2 ^ 32) (fun q => mapOf (os.take n) M q ≠ none)) →
    ∃ t' s', run t os = .ok (resOf os M, t') ∧ Inv P.W t' s' ∧ Abs t' s' (fun q => (mapOf os M q).toList) ∧
      t'.nodes.length ≤ 2 ^ (64 - P.W) + 1 := by
  intro os
  induction os with
  | nil => intro t s M h ha hsz _ _; exact ⟨t, s, rfl, h, ha, hsz⟩
  | cons o os ih =>
    intro t s M h ha hsz ho hb
    obtain ⟨t1, s1, h1, h2, h3, h4⟩ := exec_map hP h ha hsz o (ho o (by simp)) (fun hw => hb hw 1)
    obtain ⟨t2, s2, g1, g2, g3, g4⟩ := ih h2 h3 h4 (fun o' h' => ho o' (by simp [h'])) (fun hw n => hb hw (n + 1))
    refine ⟨t2, s2, ?_, g2, g3, g4⟩
    rw [run, h1]
    simp only [Out.bind_ok]
    rw [g1]
    rfl

/-! ### Iteration -/

theorem visit_map {W : Nat} {t : Tree T} {s : Sh} {M : List Bool → Option T} (h : Inv W t s)
    (ha : Abs t s (fun q => (M q).toList)) :
    ∃ L, ListsMap L M ∧ ∃ vis, t.visit = .ok vis ∧ vis.map (·.2) = L.map (fun e => [e.2]) := by
  have hsm : ∀ q x c, (q, x, c) ∈ s.entries [] → ∃ v, M q = some v ∧ valsAt t.vals (t.key x) c = [v] := by
    intro q x c hx
    have h1 := ha.entry q x c hx
    cases hm : M q with
    | none =>
      rw [hm] at h1
      have := congrArg List.length h1
      rw [length_valsAt] at this
      exact absurd this.symm (Sh.mem_entries.1 hx).2
    | some v =>
      rw [hm] at h1
      exact ⟨v, rfl, h1.symm⟩
  refine ⟨(s.entries []).map (fun e => (e.1, ((M e.1).getD default))), ⟨?_, ?_⟩, _, visit_spec h, ?_⟩
  · rw [List.pairwise_map]
    exact Sh.entries_sorted [] (.inr h.wf)
  · intro q v
    rw [List.mem_map]
    constructor
    · rintro ⟨⟨q', x, c⟩, h1, h2⟩
      cases h2
      obtain ⟨w, h3, _⟩ := hsm q' x c h1
      simp [h3]
    · intro hq
      have := (ha.entry_iff h.wf (q := q)).1 (by simp [hq])
      obtain ⟨x, c, hx⟩ := this
      exact ⟨(q, x, c), hx, by simp [hq]⟩
  · rw [List.map_map, List.map_map]
    apply List.map_congr_left
    rintro ⟨q, x, c⟩ hx
    obtain ⟨w, h3, h4⟩ := hsm q x c hx
    simp [h3, h4]

end Verif.Tree
