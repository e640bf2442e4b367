import Verif.Tree.Refine
import Verif.Tree.Iter

/-!
The prefix tree of width 64. `uint64(nodeIndex) << 64` is 0, so all nodes keep their values under the same keys of the
value map. When each stored prefix has one value, there is a single cell that all of them share.
-/

namespace Verif.Tree
open Verif.Id
variable {T : Type} [Inhabited T]

theorem key64 {t : Tree T} {s : Sh} (h : Inv 64 t s) (i : Nat) : t.key i = 0 := by
  unfold Tree.key
  rw [h.length]
  apply BitVec.eq_of_toNat_eq
  simp [BitVec.toNat_shiftLeft, Nat.shiftLeft_eq]

/-- the prefixes `ks` are stored, with one value each, and the shared cell has the value `c` -/
structure Cell (t : Tree T) (s : Sh) (ks : List (List Bool)) (c : T) : Prop where
  inv : Inv 64 t s
  one : ∀ q x n, (q, x, n) ∈ s.entries [] → n = 1
  keys : (s.entries []).map (·.1) = ks
  cell : getV t.vals 0 = c
  only : ∀ k, k ≠ 0 → getV t.vals k = default

theorem Cell.mem_iff {t : Tree T} {s : Sh} {ks : List (List Bool)} {c : T} (h : Cell t s ks c) {q : List Bool} :
    q ∈ ks ↔ ∃ x, (q, x, 1) ∈ s.entries [] := by
  rw [← h.keys, List.mem_map]
  constructor
  · rintro ⟨⟨q', x, n⟩, he, rfl⟩
    have := h.one _ _ _ he
    subst this
    exact ⟨x, he⟩
  · rintro ⟨x, he⟩
    exact ⟨_, he, rfl⟩

theorem Cell.sorted {t : Tree T} {s : Sh} {ks : List (List Bool)} {c : T} (h : Cell t s ks c) : ks.Pairwise (· < ·) := by
  rw [← h.keys, List.pairwise_map]
  exact Sh.entries_sorted [] (.inr h.inv.wf)

theorem cell_new : Cell (newTree id64 : Tree T) (.node 1 [] 0 (fun _ => .nil)) [] default :=
  ⟨Inv.new id64, by intro q x n h; simp [Sh.entries, Sh.nodes] at h, rfl, rfl, fun _ _ => rfl⟩

/-- `Set` -/
theorem cell_set {t : Tree T} {s : Sh} {ks : List (List Bool)} {c : T} (h : Cell t s ks c) (id : MyId id64)
    (hid : id.len ≤ 64) (v : T) :
    ∃ bb n t' s' ks', t.set id v = .ok (bb, n, t') ∧ Cell t' s' ks' v ∧ ∀ q, q ∈ ks' ↔ q = bitsId id ∨ q ∈ ks := by
  obtain ⟨bb, n, t', s', k, c0, used, h1, h2, h3, h4, h5, h6, -, -⟩ :=
    add_spec (P := id64) (by unfold WidthOk; decide) h.inv id hid v (some (fun _ _ => true)) (some (fun _ => v))
  have hent := h3.entries h2 (d := 64) (pre := []) (.inr h.inv.wf)
  simp only [List.nil_append] at hent
  obtain ⟨e1, e2⟩ := hent
  have hk : t.key k = 0 := key64 h.inv k
  rw [hk] at h5
  have hc0 : c0 = 0 ∨ c0 = 1 := by
    by_cases hz : c0 = 0
    · exact .inl hz
    · exact .inr (h.one _ _ _ ((e2 k c0).2 ⟨rfl, rfl, hz⟩))
  have hv : n = 1 ∧ getV t'.vals 0 = v ∧ ∀ k, k ≠ 0 → getV t'.vals k = default := by
    have hother : ∀ k : BitVec 64, k ≠ 0 → getV (t.vals.set (0 + BitVec.ofNat 64 0) v) k = default := by
      intro k hk
      rw [getV_set, if_neg (by simpa using hk)]
      exact h.only k hk
    rcases hc0 with rfl | rfl
    · rw [valStep_zero] at h5
      have a1 := congrArg Prod.fst h5
      have a2 := congrArg Prod.snd h5
      simp only at a1 a2
      rw [a1] at h6
      refine ⟨by simpa using h6, ?_, fun k hk => by rw [a2]; exact hother k hk⟩
      rw [a2, getV_set]
      simp
    · have a1 := congrArg Prod.fst h5
      have a2 := congrArg Prod.snd h5
      simp only [valStep, findMatch, if_true] at a1 a2
      rw [a1] at h6
      refine ⟨by simpa using h6, ?_, fun k hk => by rw [a2]; exact hother k hk⟩
      rw [a2, getV_set]
      simp
  refine ⟨bb, n, t', s', _, h1, ⟨h4, ?_, rfl, hv.2.1, hv.2.2⟩, ?_⟩
  · intro q x m hm
    rcases (e1 q x m).1 hm with ⟨_, _, rfl⟩ | ⟨_, hm⟩
    · exact hv.1
    · exact h.one _ _ _ hm
  · intro q
    rw [← h.keys]
    simp only [List.mem_map, Prod.exists, exists_and_right, exists_eq_right]
    constructor
    · rintro ⟨x, m, hm⟩
      rcases (e1 q x m).1 hm with ⟨hq, _⟩ | ⟨_, hm⟩
      · exact .inl hq
      · exact .inr ⟨x, m, hm⟩
    · intro hh
      by_cases hq : q = bitsId id
      · exact ⟨k, n, (e1 _ _ _).2 (.inl ⟨hq, rfl, rfl⟩)⟩
      · rcases hh with hh | ⟨x, m, hm⟩
        · exact absurd hh hq
        · exact ⟨x, m, (e1 _ _ _).2 (.inr ⟨hq, hm⟩)⟩

/-- `Delete` of a prefix that is not stored -/
theorem cell_delete_none {t : Tree T} {s : Sh} {ks : List (List Bool)} {c : T} (h : Cell t s ks c) (id : MyId id64)
    (hid : id.len ≤ 64) (m : T → T → Bool) (v : T) (hq : bitsId id ∉ ks) : t.delete id m v = .ok (0, t) := by
  rcases delete_spec (P := id64) (by unfold WidthOk; decide) h.inv id hid v m with ⟨h1, _⟩ | ⟨k, c0, _, _, _, hk, _⟩
  · exact h1
  · exact absurd (h.mem_iff.2 ⟨k, by rw [← h.one _ _ _ hk]; exact hk⟩) hq

theorem getV_none (vals : GoMap (BitVec 64) T) (k : BitVec 64) : getV (vals.del k) k = default := by
  rw [getV_del]; simp

/-- `Delete` of a stored prefix, when the shared value matches: the prefix is gone, and so is the value of all others -/
theorem cell_delete_some {t : Tree T} {s : Sh} {ks : List (List Bool)} {c : T} (h : Cell t s ks c) (id : MyId id64)
    (hid : id.len ≤ 64) (m : T → T → Bool) (v : T) (hq : bitsId id ∈ ks) (hm : m c v = true) :
    ∃ t' s' ks', t.delete id m v = .ok (1, t') ∧ Cell t' s' ks' default ∧ ∀ q, q ∈ ks' ↔ q ≠ bitsId id ∧ q ∈ ks := by
  rcases delete_spec (P := id64) (by unfold WidthOk; decide) h.inv id hid v m with ⟨_, h1⟩ | ⟨k, c0, d, t', s', hk, h1, h2⟩
  · obtain ⟨x, hx⟩ := h.mem_iff.1 hq
    exact absurd hx (h1 _ _)
  have hc0 := h.one _ _ _ hk
  subst hc0
  obtain ⟨hinv, hlen, hd, hout⟩ := h2
  rw [key64 h.inv] at hd hout
  have hD : delVals t.vals 0 1 v m = (t.vals.del 0, 0, 1, 0) := by
    have : getV t.vals (0 + BitVec.ofNat 64 0) = c := by simpa using h.cell
    simp only [delVals, List.range_succ, List.range_zero, List.nil_append, List.map_cons, List.map_nil, putBackV, this, hm,
      if_true, delLoop]
    simp
  rw [hD] at hd hout
  simp only at hd hout
  rcases hout with ⟨o1, _⟩ | ⟨_, mv, cj, o2, o3, o4⟩
  · exact absurd o1 (by simp)
  refine ⟨t', s', _, by rw [h1, hd], ⟨hinv, ?_, rfl, ?_, ?_⟩, ?_⟩
  · intro q x n hn
    obtain ⟨x0, _, g2, _⟩ := (o4 q x n).1 hn
    exact h.one _ _ _ g2
  · rw [o2]
    cases mv with
    | none => exact getV_none _ _
    | some ji =>
      obtain ⟨j, i⟩ := ji
      obtain ⟨-, -, -, -, ⟨qj, p5⟩, -⟩ := o3 j i rfl
      have hcj : cj = 0 ∨ cj = 1 := by
        by_cases hz : cj = 0
        · exact .inl hz
        · exact .inr (h.one _ _ _ (Sh.mem_entries.2 ⟨p5, hz⟩))
      simp only [mvStep, key64 h.inv]
      rcases hcj with rfl | rfl
      · exact getV_none _ _
      · simp only [moveLoop]
        exact getV_none _ _
  · intro k' hk'
    have hdel : getV (t.vals.del 0) k' = default := by
      rw [getV_del, if_neg (fun e => hk' e)]
      exact h.only k' hk'
    rw [o2]
    cases mv with
    | none => exact hdel
    | some ji =>
      obtain ⟨j, i⟩ := ji
      obtain ⟨-, -, -, -, ⟨qj, p5⟩, -⟩ := o3 j i rfl
      have hcj : cj = 0 ∨ cj = 1 := by
        by_cases hz : cj = 0
        · exact .inl hz
        · exact .inr (h.one _ _ _ (Sh.mem_entries.2 ⟨p5, hz⟩))
      simp only [mvStep, key64 h.inv]
      rcases hcj with rfl | rfl
      · exact hdel
      · simp only [moveLoop]
        rw [getV_del, if_neg (by simpa using hk'), getV_set, if_neg (by simpa using hk')]
        exact hdel
  · intro q
    rw [h.mem_iff]
    simp only [List.mem_map, Prod.exists, exists_and_right, exists_eq_right]
    constructor
    · rintro ⟨x, n, hn⟩
      obtain ⟨x0, g1, g2, _⟩ := (o4 q x n).1 hn
      have hn1 := h.one _ _ _ g2
      subst hn1
      refine ⟨?_, x0, g2⟩
      rintro rfl
      exact g1 (Sh.nodes_unique (.inr h.inv.wf) (Sh.mem_entries.1 g2).1 (Sh.mem_entries.1 hk).1).1
    · rintro ⟨hne, x, hx⟩
      refine ⟨_, 1, (o4 _ _ _).2 ⟨x, ?_, hx, rfl⟩⟩
      rintro rfl
      exact hne (Sh.node_unique h.inv.idxs_nodup (Sh.mem_entries.1 hx).1 (Sh.mem_entries.1 hk).1).1

/-- the iteration: the shared value once per stored prefix -/
theorem cell_visit {t : Tree T} {s : Sh} {ks : List (List Bool)} {c : T} (h : Cell t s ks c) :
    ∃ xs : List Nat, xs.length = ks.length ∧ t.visit = .ok (xs.map (fun x => (x, [c]))) := by
  refine ⟨(s.entries []).map (·.2.1), by rw [← h.keys]; simp, ?_⟩
  rw [visit_spec h.inv, List.map_map]
  congr 1
  apply List.map_congr_left
  rintro ⟨q, x, n⟩ he
  have := h.one _ _ _ he
  subst this
  simp [valsAt, key64 h.inv, Function.comp, List.range_succ]
  exact h.cell

end Verif.Tree
