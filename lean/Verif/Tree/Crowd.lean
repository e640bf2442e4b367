import Verif.Tree.Props

/-! The prefix tree of width 32 with many prefixes: the numbers of the nodes. -/

namespace Verif.Tree
open Verif.Id
variable {T : Type} [Inhabited T]

theorem lt_irrefl_bits (a : List Bool) : ¬ a < a := by
  induction a with
  | nil => intro h; cases h
  | cons b a ih =>
    intro h
    cases h with
    | rel h => cases b <;> cases h
    | cons h => exact ih h

theorem full_pfx_inj {x y : BitVec 32} (h : pfx x 32 = pfx y 32) : x = y := by
  apply BitVec.eq_of_getMsbD_eq
  intro i hi
  have := congrArg (fun l => l[i]?) h
  simpa [pfx, hi] using this

theorem Sh.length_entries_node (i : Nat) (p : List Bool) (c : Nat) (ch : Bool → Sh) (pre : List Bool) :
    ((Sh.node i p c ch).entries pre).length = (if c = 0 then 0 else 1) +
      (((ch false).entries (pre ++ p)).length + ((ch true).entries (pre ++ p)).length) := by
  unfold Sh.entries
  rw [Sh.nodes_node, List.filter_cons, List.filter_append]
  by_cases hc : c = 0
  · simp [hc]
  · simp [hc]; omega

/-- when all prefixes stored have the full length, there is one node less than twice their number -/
theorem Sh.full_count : ∀ {s : Sh} {d : Nat} (pre : List Bool), Sh.Wf d s → s ≠ .nil →
    (∀ e ∈ s.entries pre, e.1.length = pre.length + d) → s.idxs.length + 1 = 2 * (s.entries pre).length := by
  intro s
  induction s with
  | nil => intro d pre _ h; exact absurd rfl h
  | node i p c ch ih =>
    intro d pre hw _ hf
    obtain ⟨h1, h2, h3, h4⟩ := hw
    rw [Sh.length_entries_node, Sh.idxs_node]
    by_cases hc : c = 0
    · have sub : ∀ b, (ch b).idxs.length + 1 = 2 * ((ch b).entries (pre ++ p)).length := by
        intro b
        refine ih b (pre ++ p) (h4 b).2 (h3 hc b) ?_
        intro e he
        have := hf e (Sh.mem_entries_node.2 (.inr ⟨b, he⟩))
        rw [List.length_append]
        omega
      have a := sub false
      have b := sub true
      rw [if_pos hc]
      simp only [List.length_cons, List.length_append]
      omega
    · have hp := hf _ (Sh.mem_entries_node.2 (.inl ⟨rfl, hc⟩))
      simp only [List.length_append] at hp
      have nil : ∀ b, ch b = .nil := by
        intro b
        have hb := h4 b
        cases hs : ch b with
        | nil => rfl
        | node j q c' ch' =>
          rw [hs] at hb
          have := hb.2.1
          have := hb.2.2.1
          have : q.length ≠ 0 := fun h => hb.2.1 (List.length_eq_zero_iff.1 h)
          omega
      rw [nil false, nil true, if_neg hc]
      simp [Sh.idxs, Sh.entries, Sh.nodes]

theorem Sh.root_full_count {W : Nat} {s : Sh} (hW : W ≠ 0) (hw : Sh.WfRoot W s)
    (hf : ∀ e ∈ s.entries [], e.1.length = W)
    (hb : ∀ b : Bool, ∃ e ∈ s.entries [], e.1.head? = some b) : s.idxs.length + 1 = 2 * (s.entries []).length := by
  cases s with
  | nil => exact hw.elim
  | node i p c ch =>
    obtain ⟨h1, rfl, h4⟩ := hw
    have hc : c = 0 := by
      by_cases hc : c = 0
      · exact hc
      · have := hf _ (Sh.mem_entries_node.2 (.inl ⟨rfl, hc⟩))
        simp at this
        omega
    have ne : ∀ b, ch b ≠ .nil := by
      intro b hn
      obtain ⟨⟨q, x, c'⟩, h5, h6⟩ := hb b
      rcases Sh.mem_entries_node.1 h5 with ⟨h7, h8⟩ | ⟨b', h7⟩
      · exact h8 hc
      · have hx := Sh.path_child (h4 b').1 (Sh.mem_entries.1 h7).1
        obtain ⟨y, hy⟩ := hx
        simp only at h6 hy
        rw [hy] at h6
        simp only [List.append_nil, List.nil_append, List.head?_cons, Option.some.injEq] at h6
        subst h6
        rw [hn] at h7
        simp [Sh.entries, Sh.nodes] at h7
    have sub : ∀ b, (ch b).idxs.length + 1 = 2 * ((ch b).entries ([] ++ [])).length := by
      intro b
      refine Sh.full_count _ (h4 b).2 (ne b) ?_
      intro e he
      have := hf e (Sh.mem_entries_node.2 (.inr ⟨b, he⟩))
      simpa using this
    have a := sub false
    have b := sub true
    rw [Sh.length_entries_node, Sh.idxs_node, if_pos hc]
    simp only [List.length_cons, List.length_append]
    omega

/-- when two nodes are allocated, the prefix goes to the second -/
theorem Sh.AddR.second {c' : Nat} {s bits s' k c0 u} (h : Sh.AddR c' s bits s' k c0 u) {a b : Nat}
    (hu : u = [a, b]) : k = b := by
  induction h with
  | leaf => simp at hu
  | here => simp at hu
  | above => simp at hu
  | down _ _ _ _ _ _ _ _ _ _ _ _ _ ih => exact ih hu
  | split => simp only [List.cons.injEq, and_true] at hu; exact hu.2

/-- the bits of the first node -/
def Sh.bits : Sh → List Bool
  | .nil => []
  | .node _ p _ _ => p

/-- below every node there is a prefix stored -/
theorem Sh.entry_below {s : Sh} : ∀ {d : Nat} {pre q : List Bool} {x c : Nat}, Sh.Wf d s → (q, x, c) ∈ s.nodes pre →
    ∃ q' x' c', (q ++ q', x', c') ∈ s.entries pre := by
  have some_entry : ∀ (s : Sh) {d : Nat} {pre : List Bool}, Sh.Wf d s → s ≠ .nil →
      ∃ q' x' c', (pre ++ s.bits ++ q', x', c') ∈ s.entries pre := by
    intro s
    induction s with
    | nil => intro d pre _ h; exact absurd rfl h
    | node i p c ch ih =>
      intro d pre hw _
      by_cases hc : c = 0
      · obtain ⟨q', x', c', h⟩ := ih true (pre := pre ++ p) (hw.2.2.2 true).2 (hw.2.2.1 hc true)
        refine ⟨(ch true).bits ++ q', x', c', Sh.mem_entries_node.2 (.inr ⟨true, ?_⟩)⟩
        show (pre ++ p ++ _, _, _) ∈ _
        rw [← List.append_assoc]
        exact h
      · exact ⟨[], i, c, Sh.mem_entries_node.2 (.inl ⟨by simp [Sh.bits], hc⟩)⟩
  induction s with
  | nil => intro d pre q x c _ h; simp [Sh.nodes] at h
  | node i p c0 ch ih =>
    intro d pre q x c hw h
    rcases Sh.mem_nodes_node.1 h with h' | ⟨b, h'⟩
    · cases h'
      exact some_entry (.node i p c0 ch) hw (by simp)
    · obtain ⟨q', x', c', h2⟩ := ih b (hw.2.2.2 b).2 h'
      exact ⟨q', x', c', Sh.mem_entries_node.2 (.inr ⟨b, h2⟩)⟩

theorem Sh.root_below {s : Sh} {d : Nat} {q : List Bool} {x c : Nat} (hw : Sh.WfRoot d s) (hq : q ≠ [])
    (h : (q, x, c) ∈ s.nodes []) : ∃ q' x' c', (q ++ q', x', c') ∈ s.entries [] := by
  cases s with
  | nil => exact hw.elim
  | node i p c0 ch =>
    obtain ⟨_, rfl, h4⟩ := hw
    rcases Sh.mem_nodes_node.1 h with h' | ⟨b, h'⟩
    · cases h'
      exact absurd rfl hq
    · obtain ⟨q', x', c', h2⟩ := Sh.entry_below (h4 b).2 h'
      exact ⟨q', x', c', Sh.mem_entries_node.2 (.inr ⟨b, h2⟩)⟩

/-! ### The ids -/

/-- the order of the ids: 0, `2^31`, 1, 2, … -/
def crowdId : Nat → BitVec 32
  | 0 => 0
  | 1 => 0x80000000
  | n + 2 => BitVec.ofNat 32 (n + 1)

theorem crowdId_toNat {n : Nat} (h : n ≤ 2 ^ 31) :
    (crowdId n).toNat = if n = 0 then 0 else if n = 1 then 2 ^ 31 else n - 1 := by
  match n with
  | 0 => rfl
  | 1 => rfl
  | n + 2 =>
    show (BitVec.ofNat 32 (n + 1)).toNat = n + 1
    rw [BitVec.toNat_ofNat, Nat.mod_eq_of_lt (by omega)]

theorem crowdId_inj {m n : Nat} (hm : m ≤ 2 ^ 31) (hn : n ≤ 2 ^ 31) (h : crowdId m = crowdId n) : m = n := by
  have := congrArg BitVec.toNat h
  rw [crowdId_toNat hm, crowdId_toNat hn] at this
  split at this <;> split at this <;> (try split at this) <;> (try split at this) <;> omega

theorem crowd_pfx_inj {m n : Nat} (hm : m ≤ 2 ^ 31) (hn : n ≤ 2 ^ 31) (h : pfx (crowdId m) 32 = pfx (crowdId n) 32) :
    m = n := crowdId_inj hm hn (full_pfx_inj h)

theorem head_pfx (x : BitVec 32) : (pfx x 32).head? = some x.msb := by
  simp [pfx, List.range_succ_eq_map, BitVec.msb]

/-- only the second id has its first bit set -/
theorem crowd_head {n : Nat} (h : n ≤ 2 ^ 31) : (pfx (crowdId n) 32).head? = some (decide (n = 1)) := by
  rw [head_pfx, BitVec.msb_eq_decide, crowdId_toNat h]
  congr 1
  rw [decide_eq_decide]
  split
  · omega
  · split <;> omega

/-- the tree after storing `n` of the ids -/
structure Crowd (f : BitVec 32 → T) (n : Nat) (t : Tree T) (s : Sh) : Prop where
  inv : Inv 32 t s
  avail : t.avail = []
  ids : ∀ q x c, (q, x, c) ∈ s.entries [] →
    ∃ i, i < n ∧ q = pfx (crowdId i) 32 ∧ c = 1 ∧ getV t.vals (t.key x) = f (crowdId i)
  mem : ∀ i, i < n → ∃ x, (pfx (crowdId i) 32, x, 1) ∈ s.entries []
  size : 2 ≤ n → t.nodes.length = 2 * n
  last : 3 ≤ n → (pfx (crowdId (n - 1)) 32, 2 * n - 1, 1) ∈ s.entries []

theorem Crowd.new (f : BitVec 32 → T) : Crowd f 0 (newTree id32 : Tree T) (.node 1 [] 0 (fun _ => .nil)) := by
  refine ⟨Inv.new id32, rfl, ?_, fun i h => by omega, fun h => by omega, fun h => by omega⟩
  intro q x c h
  simp [Sh.entries, Sh.nodes] at h

/-- the number of entries -/
theorem Crowd.length {n : Nat} {s : Sh} (hw : Sh.WfRoot 32 s) (hn : n ≤ 2 ^ 31 + 1)
    (ids : ∀ q x c, (q, x, c) ∈ s.entries [] → ∃ i, i < n ∧ q = pfx (crowdId i) 32)
    (mem : ∀ i, i < n → ∃ x, (pfx (crowdId i) 32, x, 1) ∈ s.entries []) : (s.entries []).length = n := by
  have hs := Sh.entries_sorted [] (.inr hw)
  have hnd : ((s.entries []).map (·.1)).Nodup := by
    unfold List.Nodup
    rw [List.pairwise_map]
    refine hs.imp ?_
    intro a b h e
    rw [e] at h
    exact lt_irrefl_bits _ h
  let ps : List (List Bool) := (List.range n).map (fun i => pfx (crowdId i) 32)
  have hps : ps.Nodup := by
    unfold List.Nodup
    rw [List.pairwise_map]
    have hr : (List.range n).Pairwise (· ≠ ·) := List.nodup_range
    refine (List.Pairwise.and_mem.1 hr).imp ?_
    rintro a b ⟨ha, hb, hne⟩ heq
    rw [List.mem_range] at ha hb
    exact hne (crowd_pfx_inj (by omega) (by omega) heq)
  have l1 := hnd.length_le_of_subset (l₂ := ps) (by
    intro q hq
    obtain ⟨⟨q', x, c⟩, h1, rfl⟩ := List.mem_map.1 hq
    obtain ⟨i, h2, h3⟩ := ids _ _ _ h1
    exact List.mem_map.2 ⟨i, List.mem_range.2 h2, h3.symm⟩)
  have l2 := hps.length_le_of_subset (l₂ := (s.entries []).map (·.1)) (by
    intro q hq
    obtain ⟨i, h1, rfl⟩ := List.mem_map.1 hq
    obtain ⟨x, h2⟩ := mem i (List.mem_range.1 h1)
    exact List.mem_map.2 ⟨_, h2, rfl⟩)
  simp only [ps, List.length_map, List.length_range] at l1 l2
  omega

/-- two keys are equal only for numbers that are equal modulo `2^32` -/
theorem key32_mod {x y : Nat} (h : (BitVec.ofNat 64 x <<< 32) = (BitVec.ofNat 64 y <<< 32)) :
    x % 2 ^ 32 = y % 2 ^ 32 := by
  have := congrArg BitVec.toNat h
  rw [BitVec.toNat_shiftLeft, BitVec.toNat_shiftLeft, BitVec.toNat_ofNat, BitVec.toNat_ofNat, Nat.shiftLeft_eq,
    Nat.shiftLeft_eq] at this
  omega

/-- the root is the only node with number 1 -/
theorem Inv.root_path {W : Nat} {t : Tree T} {s : Sh} (h : Inv W t s) {q : List Bool} {c : Nat}
    (hx : (q, 1, c) ∈ s.nodes []) : q = [] := by
  have hw := h.wf
  have hnd := h.idxs_nodup
  cases s with
  | nil => exact hw.elim
  | node i p c0 ch =>
    obtain ⟨rfl, rfl, _⟩ := hw
    exact (Sh.node_unique hnd hx (Sh.mem_nodes_node.2 (.inl rfl))).1

theorem Crowd.two_le {f : BitVec 32 → T} {n : Nat} {t : Tree T} {s : Sh} (h : Crowd f n t s) {q : List Bool}
    {x c : Nat} (hx : (q, x, c) ∈ s.entries []) : 2 ≤ x := by
  have h0 := (h.inv.rep.lt x (Sh.mem_entries_idx hx)).2
  have h1 : x ≠ 1 := by
    rintro rfl
    have hq := h.inv.root_path (Sh.mem_entries.1 hx).1
    obtain ⟨i, _, hi, _⟩ := h.ids _ _ _ hx
    rw [hq] at hi
    have := congrArg List.length hi
    simp [pfx] at this
  omega

/-- storing one more -/
theorem Crowd.step {f : BitVec 32 → T} {n : Nat} {t : Tree T} {s : Sh} (h : Crowd f n t s) (hn : n ≤ 2 ^ 31) :
    ∃ t' s', t.set (P := id32) ⟨crowdId n, 32⟩ (f (crowdId n)) = .ok (true, 1, t') ∧ Crowd f (n + 1) t' s' := by
  obtain ⟨bb, c', t', s', k, c0, used, h1, h2, h3, h4, h5, h6, h7, h8, h9, h10, h11⟩ :=
    add_spec_order (P := id32) (.inr (.inl rfl)) h.inv ⟨crowdId n, 32⟩ (Nat.le_refl _) (f (crowdId n))
      (some (fun _ _ => true)) (some (fun _ => f (crowdId n)))
  have hbits : bitsId (P := id32) ⟨crowdId n, 32⟩ = pfx (crowdId n) 32 := (pfx_id (P := id32) ⟨crowdId n, 32⟩ (Nat.le_refl _)).symm
  rw [hbits] at h3
  obtain ⟨e1, e2⟩ := h3.entries h2 (d := 32) (pre := []) (.inr h.inv.wf)
  simp only [List.nil_append] at e1 e2
  have hnew : ∀ x c, (pfx (crowdId n) 32, x, c) ∉ s.entries [] := by
    intro x c hx
    obtain ⟨i, hi, hp, _⟩ := h.ids _ _ _ hx
    have := crowd_pfx_inj hn (by omega) hp
    omega
  have hc0 : c0 = 0 := by
    by_cases hc : c0 = 0
    · exact hc
    · exact absurd ((e2 k c0).2 ⟨rfl, rfl, hc⟩) (hnew _ _)
  subst hc0
  rw [valStep_zero] at h5
  obtain ⟨rfl, hv⟩ := Prod.mk.inj h5
  have hc1 : c' = 1 := by rw [h6]; rfl
  subst hc1
  obtain ⟨ha, hu⟩ := h11 h.avail
  have hkey : ∀ x, t'.key x = BitVec.ofNat 64 x <<< 32 := fun x => h4.key x
  have hkey0 : ∀ x, t.key x = BitVec.ofNat 64 x <<< 32 := fun x => h.inv.key x
  rw [hkey0] at hv
  have hv' : t'.vals = t.vals.set (BitVec.ofNat 64 k <<< 32) (f (crowdId n)) := by
    rw [hv, show BitVec.ofNat 64 k <<< 32 + BitVec.ofNat 64 0 = BitVec.ofNat 64 k <<< 32 from BitVec.add_zero _]
  have hk' : (pfx (crowdId n) 32, k, 1) ∈ s'.entries [] := (e1 _ _ _).2 (.inl ⟨rfl, rfl, rfl⟩)
  have hmem : ∀ i, i < n + 1 → ∃ x, (pfx (crowdId i) 32, x, 1) ∈ s'.entries [] := by
    intro i hi
    by_cases hin : i = n
    · subst hin; exact ⟨k, hk'⟩
    · obtain ⟨x, hx⟩ := h.mem i (by omega)
      refine ⟨x, (e1 _ _ _).2 (.inr ⟨?_, hx⟩)⟩
      intro hp
      exact hin (crowd_pfx_inj (by omega) hn hp)
  have hids0 : ∀ q x c, (q, x, c) ∈ s'.entries [] → ∃ i, i < n + 1 ∧ q = pfx (crowdId i) 32 := by
    intro q x c hx
    rcases (e1 _ _ _).1 hx with ⟨rfl, _, _⟩ | ⟨_, hx⟩
    · exact ⟨n, by omega, rfl⟩
    · obtain ⟨i, hi, hq, _⟩ := h.ids _ _ _ hx
      exact ⟨i, by omega, hq⟩
  have hlen := Crowd.length h4.wf (by omega) hids0 hmem
  have htight := h4.tight ha
  have hsize : 2 ≤ n + 1 → t'.nodes.length = 2 * (n + 1) := by
    intro hn2
    have := Sh.root_full_count (W := 32) (by decide) h4.wf (by
      rintro ⟨q, x, c⟩ he
      obtain ⟨i, _, hq⟩ := hids0 _ _ _ he
      simp only
      rw [hq]
      simp [pfx]) (by
      intro b
      cases b with
      | false =>
        obtain ⟨x, hx⟩ := hmem 0 (by omega)
        exact ⟨_, hx, crowd_head (n := 0) (by omega)⟩
      | true =>
        obtain ⟨x, hx⟩ := hmem 1 (by omega)
        exact ⟨_, hx, crowd_head (n := 1) (by decide)⟩)
    rw [hlen] at this
    omega
  have hsmall : t'.nodes.length ≤ 2 ^ 32 + 2 := by
    by_cases hn2 : 2 ≤ n + 1
    · have := hsize hn2
      omega
    · rcases Sh.root_idxs_entries h4.wf with e | e
      · omega
      · rw [hlen] at e
        omega
  have hklt : k < t'.nodes.length := h4.entry_lt (Sh.mem_entries_idx hk')
  refine ⟨t', s', ?_, h4, ha, ?_, hmem, hsize, ?_⟩
  · exact h1
  · intro q x c hx
    rcases (e1 _ _ _).1 hx with ⟨rfl, rfl, rfl⟩ | ⟨_, hx⟩
    · refine ⟨n, by omega, rfl, rfl, ?_⟩
      rw [hkey, hv', getV_set, if_pos rfl]
    · obtain ⟨i, hi, hq, hc, hval⟩ := h.ids _ _ _ hx
      refine ⟨i, by omega, hq, hc, ?_⟩
      rw [hkey, hv', getV_set, if_neg, ← hval, hkey0]
      intro he
      have hm := key32_mod he
      have hx2 := h.two_le hx
      have hxk : x ≠ k := by
        rintro rfl
        have h1' := (e1 _ _ _).2 (.inr ⟨fun hq' => hnew x c (hq' ▸ hx), hx⟩)
        have := (Sh.node_unique h4.idxs_nodup (Sh.mem_entries.1 h1').1 (Sh.mem_entries.1 hk').1).1
        exact hnew x c (this ▸ hx)
      have hxlt : x < t'.nodes.length := Nat.lt_of_lt_of_le (h.inv.entry_lt (Sh.mem_entries_idx hx)) h8
      have hk2 : k ≠ 1 ∧ k ≠ 0 := by
        refine ⟨?_, (h4.rep.lt k (Sh.mem_entries_idx hk')).2⟩
        rintro rfl
        have hq := h4.root_path (Sh.mem_entries.1 hk').1
        have := congrArg List.length hq
        simp [pfx] at this
      omega
  · intro hn3
    have hs1 := h.size (by omega)
    have hs2 := hsize (by omega)
    have hu2 : used = [2 * n, 2 * n + 1] := by
      rw [hu, hs1, hs2, show 2 * (n + 1) - 2 * n = 2 by omega]
      rfl
    have := h3.second hu2
    subst this
    rw [show n + 1 - 1 = n by omega, show 2 * (n + 1) - 1 = 2 * n + 1 by omega]
    exact hk'

/-- the calls -/
def crowdOps (f : BitVec 32 → T) (n : Nat) : List (Op id32 T) :=
  (List.range n).map (fun i => .set ⟨crowdId i, 32⟩ (f (crowdId i)))

theorem crowd_run (f : BitVec 32 → T) : ∀ n, n ≤ 2 ^ 31 + 1 →
    ∃ rs t s, run (newTree id32) (crowdOps f n) = .ok (rs, t) ∧ Crowd f n t s := by
  intro n
  induction n with
  | zero => intro _; exact ⟨[], _, _, rfl, Crowd.new f⟩
  | succ n ih =>
    intro hn
    obtain ⟨rs, t, s, h1, h2⟩ := ih (by omega)
    obtain ⟨t', s', h3, h4⟩ := h2.step (by omega)
    refine ⟨rs ++ [.added true 1], t', s', ?_, h4⟩
    unfold crowdOps
    rw [List.range_succ, List.map_append]
    exact run_append h1 (exec_set h3)

/-- the tree with one more than `2^31` ids, after removing the second: the value of the last is at the key of the root -/
theorem Crowd.remove {f : BitVec 32 → T} {t : Tree T} {s : Sh} {n : Nat} (hn : n = 2 ^ 31 + 1) (h : Crowd f n t s)
    (m : T → T → Bool) (v : T) (hm : m (f (crowdId 1)) v = true) :
    ∃ t' s', t.delete (P := id32) ⟨crowdId 1, 32⟩ m v = .ok (1, t') ∧ Inv 32 t' s' ∧
      (pfx (crowdId (n - 1)) 32, 2 * n - 1, 1) ∈ s'.entries [] ∧
      ∀ q x c, (q, x, c) ∈ s'.entries [] →
        ∃ i, i < n ∧ i ≠ 1 ∧ q = pfx (crowdId i) 32 ∧ c = 1 ∧ 2 ≤ x ∧ x < 2 * n ∧
          getV t'.vals (t'.key x) = f (crowdId i) := by
  have hbits : bitsId (P := id32) ⟨crowdId 1, 32⟩ = pfx (crowdId 1) 32 := (pfx_id (P := id32) ⟨crowdId 1, 32⟩ (Nat.le_refl _)).symm
  obtain ⟨x1, hx1⟩ := h.mem 1 (by omega)
  have hlast := h.last (by omega)
  have hsize := h.size (by omega)
  rcases delete_spec (P := id32) (.inr (.inl rfl)) h.inv ⟨crowdId 1, 32⟩ (Nat.le_refl _) v m with ⟨_, h2⟩ | ⟨k, c0, d, t', s', hk, h1, hinv, hlen, hd, hout⟩
  · exact absurd (hbits ▸ hx1) (h2 _ _)
  · rw [hbits] at hk hout
    obtain ⟨u1, u2⟩ := Sh.nodes_unique (.inr h.inv.wf) (Sh.mem_entries.1 hk).1 (Sh.mem_entries.1 hx1).1
    subst u1 u2
    obtain ⟨i1, hi1, hp1, _, hval⟩ := h.ids _ _ _ hk
    have := crowd_pfx_inj (by decide) (by omega) hp1
    subst this
    have hva : valsAt t.vals (t.key k) 1 = [f (crowdId 1)] := by
      rw [← hval]
      show [getV t.vals (t.key k + BitVec.ofNat 64 0)] = _
      congr 2
      exact BitVec.add_zero _
    obtain ⟨d1, d2, d3, d4, d5⟩ := delVals_spec (vals := t.vals) (key := t.key k) (c := 1) (v := v) (m := m) (by decide)
    rw [hva] at d3 d4
    simp only [List.filter_cons, hm, List.filter_nil, if_true, Bool.not_true, Bool.false_eq_true, if_false,
      List.length_nil, List.length_cons] at d3 d4
    rw [d3] at hd
    subst hd
    rcases hout with ⟨o1, _⟩ | ⟨_, mv, cj, o2, o3, o4⟩
    · omega
    · have hmv : mv = none := by
        cases mv with
        | none => rfl
        | some ji =>
          obtain ⟨j, i⟩ := ji
          obtain ⟨_, _, _, _, _, _, p, b, bs, q, c, g1, g2, g3⟩ := o3 j i rfl
          obtain ⟨q', x', c', g4⟩ := Sh.root_below h.inv.wf (by simp) g3
          obtain ⟨i0, hi0, g5, _⟩ := h.ids _ _ _ g4
          have hh : (p ++ (!b) :: q ++ q').head? = p.head? := by cases p <;> simp at g1 ⊢
          have hh2 : (pfx (crowdId 1) 32).head? = p.head? := by rw [g2]; cases p <;> simp at g1 ⊢
          have e1 := crowd_head (n := i0) (by omega)
          have e2 := crowd_head (n := 1) (by decide)
          rw [← g5, hh, ← hh2, e2] at e1
          have : i0 = 1 := by simpa using e1
          subst this
          rw [g2, List.append_assoc] at g5
          have hcc := List.append_cancel_left g5
          rw [List.cons_append] at hcc
          have hbb := (List.cons.inj hcc).1
          cases b <;> cases hbb
      subst hmv
      have o2 : t'.vals = (delVals t.vals (t.key k) 1 v m).1 := o2
      have hkl := h.inv.entry_lt (Sh.mem_entries_idx hk)
      have hk2 := h.two_le hk
      have hkey : ∀ x, t'.key x = t.key x := fun x => (hinv.key x).trans (h.inv.key x).symm
      refine ⟨t', s', h1, hinv, (o4 _ _ _).2 ⟨_, ?_, hlast, rfl⟩, ?_⟩
      · rintro rfl
        have := (Sh.node_unique h.inv.idxs_nodup (Sh.mem_entries.1 hlast).1 (Sh.mem_entries.1 hk).1).1
        have := crowd_pfx_inj (by omega) (by decide) this
        omega
      · intro q x c hx
        obtain ⟨x0, hxk, hx0, hxe⟩ := (o4 _ _ _).1 hx
        have hxe : x = x0 := hxe
        subst hxe
        obtain ⟨i, hi, hq, hc, hv⟩ := h.ids _ _ _ hx0
        have hx2 := h.two_le hx0
        have hxl := h.inv.entry_lt (Sh.mem_entries_idx hx0)
        refine ⟨i, hi, ?_, hq, hc, hx2, by omega, ?_⟩
        · rintro rfl
          rw [hq] at hx0
          exact hxk (Sh.nodes_unique (.inr h.inv.wf) (Sh.mem_entries.1 hx0).1 (Sh.mem_entries.1 hk).1).1
        · rw [hkey, o2, d5, hv]
          intro j hj he
          have : j = 0 := by omega
          subst this
          rw [show BitVec.ofNat 64 0 = 0#64 from rfl, BitVec.add_zero, h.inv.key, h.inv.key] at he
          have := key32_mod he
          omega

/-- and after storing `0/0`: two prefixes have the same value -/
theorem Crowd.zero {f : BitVec 32 → T} {t : Tree T} {s : Sh} {n : Nat} (hn : n = 2 ^ 31 + 1) (h : Crowd f n t s)
    (m : T → T → Bool) (v : T) (hm : m (f (crowdId 1)) v = true) (w : T) :
    ∃ t' t'' s'', t.delete (P := id32) ⟨crowdId 1, 32⟩ m v = .ok (1, t') ∧
      t'.set (P := id32) ⟨0, 0⟩ w = .ok (true, 1, t'') ∧ Inv 32 t'' s'' ∧
      ([], 1, 1) ∈ s''.entries [] ∧ (pfx (crowdId (n - 1)) 32, 2 * n - 1, 1) ∈ s''.entries [] ∧
      ∀ q x c, (q, x, c) ∈ s''.entries [] → c = 1 ∧
        (((q = [] ∨ q = pfx (crowdId (n - 1)) 32) ∧ getV t''.vals (t''.key x) = w) ∨
          ∃ i, i < n - 1 ∧ i ≠ 1 ∧ q = pfx (crowdId i) 32 ∧ getV t''.vals (t''.key x) = f (crowdId i)) := by
  obtain ⟨t', s', h1, hinv, hlast, hids⟩ := h.remove hn m v hm
  obtain ⟨bb, c', t'', s'', k, c0, used, g1, g2, g3, g4, g5, g6, _⟩ :=
    add_spec (P := id32) (.inr (.inl rfl)) hinv ⟨0, 0⟩ (Nat.zero_le _) w (some (fun _ _ => true)) (some (fun _ => w))
  have hbits : bitsId (P := id32) ⟨0, 0⟩ = [] := rfl
  rw [hbits] at g3
  obtain ⟨e1, e2⟩ := g3.entries g2 (d := 32) (pre := []) (.inr hinv.wf)
  simp only [List.nil_append] at e1 e2
  have hnew : ∀ x c, ([], x, c) ∉ s'.entries [] := by
    intro x c hx
    obtain ⟨i, _, _, hq, _⟩ := hids _ _ _ hx
    have := congrArg List.length hq
    simp [pfx] at this
  have hc0 : c0 = 0 := by
    by_cases hc : c0 = 0
    · exact hc
    · exact absurd ((e2 k c0).2 ⟨rfl, rfl, hc⟩) (hnew _ _)
  subst hc0
  rw [valStep_zero] at g5
  obtain ⟨rfl, hv⟩ := Prod.mk.inj g5
  have hc1 : c' = 1 := by rw [g6]; rfl
  subst hc1
  have hk : k = 1 := by
    have hk' : ([], k, 1) ∈ s''.entries [] := (e1 _ _ _).2 (.inl ⟨rfl, rfl, rfl⟩)
    have hw := g4.wf
    cases s'' with
    | nil => exact hw.elim
    | node i p cc ch =>
      obtain ⟨rfl, rfl, hch⟩ := hw
      rcases Sh.mem_nodes_node.1 (Sh.mem_entries.1 hk').1 with h' | ⟨b, h'⟩
      · cases h'; rfl
      · obtain ⟨y, hy⟩ := Sh.path_child (hch b).1 h'
        simp at hy
  subst hk
  have hkey : ∀ x, t''.key x = BitVec.ofNat 64 x <<< 32 := fun x => g4.key x
  have hkey' : ∀ x, t'.key x = BitVec.ofNat 64 x <<< 32 := fun x => hinv.key x
  rw [hkey'] at hv
  have hv' : t''.vals = t'.vals.set (BitVec.ofNat 64 1 <<< 32) w := by
    rw [hv, show BitVec.ofNat 64 1 <<< 32 + BitVec.ofNat 64 0 = BitVec.ofNat 64 1 <<< 32 from BitVec.add_zero _]
  refine ⟨t', t'', s'', h1, g1, g4, (e1 _ _ _).2 (.inl ⟨rfl, rfl, rfl⟩), (e1 _ _ _).2 (.inr ⟨?_, hlast⟩), ?_⟩
  · intro hq
    have := congrArg List.length hq
    simp [pfx] at this
  · intro q x c hx
    rcases (e1 _ _ _).1 hx with ⟨rfl, rfl, rfl⟩ | ⟨_, hx⟩
    · refine ⟨rfl, .inl ⟨.inl rfl, ?_⟩⟩
      rw [hkey, hv', getV_set, if_pos rfl]
    · obtain ⟨i, hi, hi1, hq, hc, hx2, hxl, hval⟩ := hids _ _ _ hx
      refine ⟨hc, ?_⟩
      by_cases hin : i = n - 1
      · refine .inl ⟨.inr (hin ▸ hq), ?_⟩
        rw [hin] at hq
        have hx' : x = 2 * n - 1 := (Sh.nodes_unique (.inr hinv.wf) (Sh.mem_entries.1 (hq ▸ hx)).1 (Sh.mem_entries.1 hlast).1).1
        rw [hkey, hv', getV_set, if_pos]
        rw [hx', hn]
        rfl
      · refine .inr ⟨i, by omega, hi1, hq, ?_⟩
        rw [hkey, hv', getV_set, if_neg, ← hkey', hval]
        intro he
        have hm := key32_mod he
        have hxne : x ≠ 2 * n - 1 := by
          rintro rfl
          have := (Sh.node_unique hinv.idxs_nodup (Sh.mem_entries.1 hx).1 (Sh.mem_entries.1 hlast).1).1
          rw [hq] at this
          exact hin (crowd_pfx_inj (by omega) (by omega) this)
        omega

end Verif.Tree
