import Verif.Tree.DelNode
import Verif.Tree.Vals

/-! `Delete` on a whole tree. -/

namespace Verif.Tree
open Verif.Id
variable {T : Type} [Inhabited T] {P : Pkg}

theorem Rep.setCnt {W : Nat} {ns ns' : List Node} {k C : Nat}
    (h : ∀ x, ns'[x]? = if x = k then (ns[k]?).map (fun n => { n with cnt := C }) else ns[x]?) :
    ∀ {s : Sh} {i : Nat}, Rep W ns s i → Rep W ns' (Sh.setCnt k C s) i := by
  intro s
  induction s with
  | nil => intro i h; exact h
  | node j p c ch ih =>
    intro i hr
    obtain ⟨rfl, h0, n, h3, h4, h5, h6⟩ := hr
    refine ⟨rfl, h0, if i = k then { n with cnt := C } else n, ?_, ?_, ?_, ?_⟩
    · rw [h]
      by_cases hik : i = k
      · rw [if_pos hik, if_pos hik, ← hik, h3]; rfl
      · rw [if_neg hik, if_neg hik, h3]
    · split <;> exact h4
    · split
      · rfl
      · exact h5
    · intro b
      have : (if i = k then { n with cnt := C } else n).child b = n.child b := by
        split
        · cases b <;> rfl
        · rfl
      rw [this]
      exact ih b (h6 b)

/-- the number of values of a node -/
theorem Rep.cnt {W : Nat} {ns : List Node} : ∀ {s : Sh} {i : Nat}, Rep W ns s i →
    ∀ {pre q : List Bool} {x c : Nat}, (q, x, c) ∈ s.nodes pre → ∃ n, ns[x]? = some n ∧ n.cnt = c := by
  intro s
  induction s with
  | nil => intro i _ pre q x c h; simp [Sh.nodes] at h
  | node j p c ch ih =>
    intro i hr pre q x c' hm
    obtain ⟨rfl, h0, n, h3, h4, h5, h6⟩ := hr
    rcases Sh.mem_nodes_node.1 hm with h | ⟨b, h⟩
    · cases h; exact ⟨n, h3, h5⟩
    · exact ih b (h6 b) h

theorem Sh.mem_nodes_idx {s : Sh} : ∀ {pre q : List Bool} {x c : Nat}, (q, x, c) ∈ s.nodes pre → x ∈ s.idxs := by
  induction s with
  | nil => intro pre q x c h; simp [Sh.nodes] at h
  | node i p c0 ch ih =>
    intro pre q x c h
    rcases Sh.mem_nodes_node.1 h with h | ⟨b, h⟩
    · cases h; simp [Sh.idxs]
    · exact Sh.mem_idxs_node.2 (.inr ⟨b, ih b h⟩)

/-- every node has a path -/
theorem Sh.mem_idxs_nodes {s : Sh} : ∀ {x : Nat} (pre : List Bool), x ∈ s.idxs → ∃ q c, (q, x, c) ∈ s.nodes pre := by
  induction s with
  | nil => intro x pre h; simp [Sh.idxs] at h
  | node i p c0 ch ih =>
    intro x pre h
    rcases Sh.mem_idxs_node.1 h with rfl | ⟨b, h⟩
    · exact ⟨_, _, Sh.mem_nodes_node.2 (.inl rfl)⟩
    · obtain ⟨q, c, h⟩ := ih b (pre ++ p) h
      exact ⟨q, c, Sh.mem_nodes_node.2 (.inr ⟨b, h⟩)⟩

/-- when values are moved, the place they go to holds none and is another node -/
theorem Sh.DelR.mv_info {r : Bool} {s bits s' k fr} {j i : Nat} (h : Sh.DelR r s bits s' k fr (some (j, i)))
    (hnd : s.idxs.Nodup) : j ≠ i ∧ ∀ {pre q : List Bool} {c : Nat}, (q, i, c) ∉ s.entries pre := by
  generalize hm : some (j, i) = mv at h
  induction h with
  | two => simp at hm
  | one => simp at hm
  | leaf => simp at hm
  | merge i' p ch bits b bs k ch2 j' q c3 ch3 h1 h2 h3 h4 =>
    cases hm
    constructor
    · rintro rfl
      exact (Sh.nodup_children hnd (!b)).1 (by rw [h4]; simp [Sh.idxs])
    · intro pre q c hq
      rcases Sh.mem_entries_node.1 hq with ⟨_, h⟩ | ⟨b', h⟩
      · exact h rfl
      · exact (Sh.nodup_children hnd b').1 (Sh.mem_entries_idx h)
  | down r i' p c ch bits b bs s' k fr mv h1 h2 ih =>
    obtain ⟨h3, h4⟩ := ih (Sh.nodup_children hnd b).2.1 hm
    subst hm
    refine ⟨h3, ?_⟩
    intro pre q c hq
    have him := h2.mv_mem.2.1
    rcases Sh.mem_entries_node.1 hq with ⟨h, _⟩ | ⟨b', h⟩
    · cases h; exact (Sh.nodup_children hnd b).1 him
    · rcases Sh.eq_or_not b b' with rfl | rfl
      · exact h4 h
      · exact (Sh.nodup_children hnd b).2.2 i him (Sh.mem_entries_idx h)

/-- when values are moved, they come from the other child of the parent, which is not the root -/
theorem Sh.DelR.mv_path {r : Bool} {s bits s' k fr} {j i : Nat} (h : Sh.DelR r s bits s' k fr (some (j, i))) :
    ∀ {d : Nat} (pre : List Bool), (r = true ∧ Sh.WfRootX k d s) ∨ Sh.WfX k d s →
      ∃ p b bs q c, p ≠ [] ∧ bits = p ++ b :: bs ∧ (pre ++ p ++ (!b) :: q, j, c) ∈ s.nodes pre := by
  generalize hm : some (j, i) = mv at h
  induction h with
  | two => simp at hm
  | one => simp at hm
  | leaf => simp at hm
  | merge i' p ch bits b bs k ch2 j' q c3 ch3 h1 h2 h3 h4 =>
    cases hm
    rintro d pre (⟨h, _⟩ | hw)
    · cases h
    · have hst := (hw.2.2.2 (!b)).1
      rw [h4] at hst
      obtain ⟨q', hq'⟩ := hst
      refine ⟨p, b, bs, q', c3, hw.1, h1, Sh.mem_nodes_node.2 (.inr ⟨!b, ?_⟩)⟩
      rw [h4, hq']
      exact Sh.mem_nodes_node.2 (.inl rfl)
  | down r i' p c ch bits b bs s' k fr mv h1 h2 ih =>
    intro d pre hw
    have hb : ∃ d', Sh.WfX k d' (ch b) := by
      rcases hw with ⟨_, hw⟩ | hw
      · exact ⟨_, (hw.2.2 b).2⟩
      · exact ⟨_, (hw.2.2.2 b).2⟩
    obtain ⟨d', hb⟩ := hb
    obtain ⟨p', b', bs', q, c', g1, g2, g3⟩ := ih hm (pre ++ p) (.inr hb)
    refine ⟨p ++ p', b', bs', q, c', by simp [g1], by rw [h1, g2, List.append_assoc], ?_⟩
    rw [← List.append_assoc]
    exact Sh.mem_nodes_node.2 (.inr ⟨b, g3⟩)

/-- paths determine nodes -/
theorem Sh.nodes_unique {s : Sh} {d : Nat} {pre q : List Bool} {x c x' c' : Nat}
    (hw : Sh.Wf d s ∨ Sh.WfRoot d s) (h : (q, x, c) ∈ s.nodes pre) (h' : (q, x', c') ∈ s.nodes pre) :
    x = x' ∧ c = c' := by
  have hp := Sh.nodes_sorted s pre hw
  have irr : ∀ a : List Bool, ¬ a < a := by
    intro a
    induction a with
    | nil => intro h; cases h
    | cons b a ih =>
      intro h
      cases h with
      | rel h => revert h; cases b <;> decide
      | cons h => exact ih h
  by_cases he : (q, x, c) = (q, x', c')
  · cases he; exact ⟨rfl, rfl⟩
  · exfalso
    have : ∀ l : List (List Bool × Nat × Nat), l.Pairwise (fun a b => a.1 < b.1) →
        (q, x, c) ∈ l → (q, x', c') ∈ l → False := by
      intro l
      induction l with
      | nil => intro _ h; simp at h
      | cons a l ih =>
        intro hp h1 h2
        rw [List.pairwise_cons] at hp
        rcases List.mem_cons.1 h1 with h1 | h1 <;> rcases List.mem_cons.1 h2 with h2 | h2
        · exact he (h1.trans h2.symm)
        · exact irr q (by have := hp.1 _ h2; rw [← h1] at this; exact this)
        · exact irr q (by have := hp.1 _ h1; rw [← h2] at this; exact this)
        · exact ih hp.2 h1 h2
    exact this _ hp h h'

theorem Inv.idxs_nodup {W : Nat} {t : Tree T} {s : Sh} (h : Inv W t s) : s.idxs.Nodup :=
  (List.nodup_append.1 h.nodup).1

/-- entries determined by their node -/
theorem Sh.node_unique {s : Sh} : ∀ {pre q q' : List Bool} {x c c' : Nat}, s.idxs.Nodup →
    (q, x, c) ∈ s.nodes pre → (q', x, c') ∈ s.nodes pre → q = q' ∧ c = c' := by
  induction s with
  | nil => intro pre q q' x c c' _ h; simp [Sh.nodes] at h
  | node i p c0 ch ih =>
    intro pre q q' x c c' hnd h h'
    rcases Sh.mem_nodes_node.1 h with h | ⟨b, h⟩ <;> rcases Sh.mem_nodes_node.1 h' with h' | ⟨b', h'⟩
    · cases h; cases h'; exact ⟨rfl, rfl⟩
    · cases h; exact absurd (Sh.mem_nodes_idx h') (Sh.nodup_children hnd b').1
    · cases h'; exact absurd (Sh.mem_nodes_idx h) (Sh.nodup_children hnd b).1
    · rcases Sh.eq_or_not b b' with rfl | rfl
      · exact ih b' (Sh.nodup_children hnd b').2.1 h h'
      · exact absurd (Sh.mem_nodes_idx h') ((Sh.nodup_children hnd b).2.2 x (Sh.mem_nodes_idx h))

/-- the effect of moving values -/
def mvStep (key : Nat → BitVec 64) (cj : Nat) (mv : Option (Nat × Nat)) (vals : GoMap (BitVec 64) T) :
    GoMap (BitVec 64) T :=
  match mv with
  | none => vals
  | some (j, i) => moveLoop (key j) (key i) cj 0 vals

/-- what `Delete` does when the prefix is stored -/
structure DeleteOut (W : Nat) (t : Tree T) (s : Sh) (bits : List Bool) (v : T) (m : T → T → Bool)
    (k c0 : Nat) (d : Nat) (t' : Tree T) (s' : Sh) : Prop where
  inv : Inv W t' s'
  len : t'.nodes.length = t.nodes.length
  d : d = (delVals t.vals (t.key k) c0 v m).2.2.1
  out : (0 < (delVals t.vals (t.key k) c0 v m).2.2.2 ∧ (delVals t.vals (t.key k) c0 v m).2.1 ≠ 0 ∧
          t'.vals = (delVals t.vals (t.key k) c0 v m).1 ∧
          s' = Sh.setCnt k (delVals t.vals (t.key k) c0 v m).2.1 s) ∨
        ((delVals t.vals (t.key k) c0 v m).2.2.2 = 0 ∧
          ∃ mv cj, t'.vals = mvStep t.key cj mv (delVals t.vals (t.key k) c0 v m).1 ∧
            (∀ j i, mv = some (j, i) → j ≠ i ∧ j ≠ k ∧ j ∈ s.idxs ∧ i ∈ s.idxs ∧
              (∃ q, (q, j, cj) ∈ s.nodes []) ∧ (∀ q c, (q, i, c) ∉ (Sh.setCnt k 0 s).entries []) ∧
              ∃ p b bs q c, p ≠ [] ∧ bits = p ++ b :: bs ∧ (p ++ (!b) :: q, j, c) ∈ s.nodes []) ∧
            ∀ q x c, (q, x, c) ∈ s'.entries [] ↔
              ∃ x0, x0 ≠ k ∧ (q, x0, c) ∈ s.entries [] ∧ x = Sh.moved mv x0)

theorem key_setN (t : Tree T) (i C : Nat) (V : GoMap (BitVec 64) T) : (setN t i C V).key = t.key := rfl

theorem Inv.stale_setN {W : Nat} {t : Tree T} {s : Sh} (h : Inv W t s) {k : Nat} (hk : k ∈ s.idxs) (C : Nat)
    (V : GoMap (BitVec 64) T) : Stale (Verif.Tree.setN t k C V).nodes t.avail := by
  intro pre x suf he n hn
  rw [getElem?_setN] at hn
  rw [show (Verif.Tree.setN t k C V).nodes.length = t.nodes.length by simp [Verif.Tree.setN]]
  split at hn
  · next hx =>
    subst hx
    exact absurd rfl ((List.nodup_append.1 h.nodup).2.2 x hk x (by rw [he]; simp))
  · exact h.stale pre x suf he n hn

/-- the invariant after the number of values of a node was changed -/
theorem Inv.setN {W : Nat} {t : Tree T} {s : Sh} (h : Inv W t s) {k : Nat} (hk : k ∈ s.idxs) (C : Nat) (hC : C ≠ 0)
    (V : GoMap (BitVec 64) T) : Inv W (setN t k C V) (Sh.setCnt k C s) := by
  have hl : (Verif.Tree.setN t k C V).nodes.length = t.nodes.length := by simp [Verif.Tree.setN]
  exact ⟨h.leftFn, h.length, h.rep.setCnt (fun x => getElem?_setN t k C x V), Sh.setCnt_wfRoot hC h.wf,
    by rw [Sh.setCnt_idxs, hl]; exact h.perm, by rw [hl]; exact h.cap, h.stale_setN hk C V,
    by rw [getElem?_setN, if_neg (by have := (h.rep.lt k hk).2; omega)]; exact h.zero⟩

/-- the search of `Delete` -/
theorem findTarget_spec (hP : WidthOk P.W) {t : Tree T} {s : Sh} (h : Inv P.W t s) (id : MyId P)
    (hid : id.len ≤ P.W) : ∃ tgt, t.findTarget id = .ok tgt ∧
      ((tgt = none ∧ ∀ x c', (bitsId id, x, c') ∉ s.nodes []) ∨
       (∃ pi k, tgt = some (pi, k) ∧ ((bitsId id = [] ∧ k = 1) ∨ Sh.Path s (bitsId id) pi k))) := by
  have hW := hP.le
  have hil : (bitsId id).length = id.len := by simp [bitsId]
  have hwf := h.wf
  have hrep := h.rep
  cases s with
  | nil => exact hwf.elim
  | node i p c ch =>
  obtain ⟨rfl, hi0, root, hn, hbn, hcn, hch⟩ := hrep
  obtain ⟨_, rfl, hw⟩ := hwf
  unfold Tree.findTarget
  simp only [node_eq hn, Out.bind_ok]
  by_cases hz : id.len = 0
  · rw [if_pos hz]
    exact ⟨some (0, 1), rfl, .inr ⟨0, 1, rfl, .inl ⟨List.length_eq_zero_iff.1 (by omega), rfl⟩⟩⟩
  · rw [if_neg hz]
    have hhd := leftBit_eq (by omega) id (by omega)
    cases hbi : bitsId id with
    | nil => rw [hbi] at hil; simp at hil; omega
    | cons e dd =>
    rw [hbi] at hhd
    have hlb : leftBit id = e := by simpa using hhd.symm
    have hbr : (if (!leftBit id) = true then findLoop t (id.len + 1) 1 root.left id
        else findLoop t (id.len + 1) 1 root.right id) = findLoop t (id.len + 1) 1 (root.child e) id := by
      rw [hlb]; cases e <;> rfl
    rw [hbr]
    rcases findLoop_spec hP (id.len + 1) 1 (root.child e) [] c ch root id P.W e dd hch hw (Nat.le_refl _)
      hbi hid (by omega) rfl with ⟨g1, g2⟩ | ⟨pi', k, g1, g2⟩
    · exact ⟨none, g1, .inl ⟨rfl, fun x c' => g2 [] x c'⟩⟩
    · exact ⟨some (pi', k), g1, .inr ⟨pi', k, rfl, .inr g2⟩⟩

theorem delete_spec (hP : WidthOk P.W) {t : Tree T} {s : Sh} (h : Inv P.W t s) (id : MyId P)
    (hid : id.len ≤ P.W) (v : T) (m : T → T → Bool) :
    (t.delete id m v = .ok (0, t) ∧ ∀ x c, (bitsId id, x, c) ∉ s.entries []) ∨
    (∃ k c0 d t' s', (bitsId id, k, c0) ∈ s.entries [] ∧ t.delete id m v = .ok (d, t') ∧
      DeleteOut P.W t s (bitsId id) v m k c0 d t' s') := by
  have hW := hP.le
  have hil : (bitsId id).length = id.len := by simp [bitsId]
  have hwf := h.wf
  have hrep := h.rep
  cases s with
  | nil => exact hwf.elim
  | node i p c ch =>
  obtain ⟨rfl, hi0, root, hn, hbn, hcn, hch⟩ := hrep
  obtain ⟨_, rfl, hw⟩ := hwf
  obtain ⟨tgt, hs1, hs2⟩ := findTarget_spec hP h id hid
  unfold Tree.delete
  simp only [hs1, Out.bind_ok]
  rcases hs2 with ⟨rfl, hno⟩ | ⟨pi, k, rfl, hpath⟩
  · left
    exact ⟨rfl, fun x c' hm => hno x c' (Sh.mem_entries.1 hm).1⟩
  · simp only
    have hmem : ∃ c0, (bitsId id, k, c0) ∈ (Sh.node 1 [] c ch).nodes [] := by
      rcases hpath with ⟨h1, rfl⟩ | hp
      · rw [h1]; exact ⟨c, Sh.mem_nodes_node.2 (.inl rfl)⟩
      · obtain ⟨c0, h1⟩ := hp.mem (pre := [])
        exact ⟨c0, h1⟩
    obtain ⟨c0, hmem⟩ := hmem
    obtain ⟨nk, hnk, hck⟩ := h.rep.cnt hmem
    have hkm := Sh.mem_nodes_idx hmem
    have hk0 := (h.rep.lt k hkm).2
    simp only [node_eq hnk, Out.bind_ok, hck]
    by_cases hc0 : c0 = 0
    · left
      rw [if_pos hc0]
      refine ⟨rfl, ?_⟩
      intro x c' hm
      rw [Sh.mem_entries] at hm
      have := Sh.nodes_unique (.inr h.wf) hmem hm.1
      omega
    · rw [if_neg hc0]
      right
      have hdv := deleteVal_eq hk0 hnk (by omega) v m
      rw [hck] at hdv
      simp only [hdv, Out.bind_ok]
      obtain ⟨b1, b2, b3, b4⟩ := putBackV_none (key := t.key k) (m := m) (v := v)
        (buf := (List.range c0).map (fun j => getV t.vals (t.key k + BitVec.ofNat 64 j)))
        (vals := delLoop (t.key k) c0 0 t.vals) (c := 0) (d := 0) (k := 0)
      change _ → (delVals t.vals (t.key k) c0 v m).2.1 ≠ 0 at b4
      change _ = _ → (delVals t.vals (t.key k) c0 v m).2.1 = 0 ∧ _ at b3
      change 0 < (delVals t.vals (t.key k) c0 v m).2.2.2 → _ at b4
      by_cases hkeep : 0 < (delVals t.vals (t.key k) c0 v m).2.2.2
      · rw [if_pos hkeep]
        refine ⟨k, c0, _, _, Sh.setCnt k (delVals t.vals (t.key k) c0 v m).2.1 (Sh.node 1 [] c ch),
          Sh.mem_entries.2 ⟨hmem, hc0⟩, rfl, ⟨h.setN hkm _ (b4 hkeep) _, by simp [setN], rfl,
            .inl ⟨hkeep, b4 hkeep, rfl, rfl⟩⟩⟩
      · rw [if_neg hkeep]
        have hC : (delVals t.vals (t.key k) c0 v m).2.1 = 0 := (b3 (by show (delVals t.vals (t.key k) c0 v m).2.2.2 = 0; omega)).1
        rw [hC]
        generalize hV : (delVals t.vals (t.key k) c0 v m).1 = V
        have hnd := h.idxs_nodup
        have hl : (setN t k 0 V).nodes.length = t.nodes.length := by simp [setN]
        have hr1 := h.rep.setCnt (fun x => getElem?_setN t k 0 x V)
        have hwx : Sh.WfRootX k P.W (Sh.setCnt k 0 (Sh.node 1 [] c ch)) := Sh.setCnt_wfRootX h.wf
        have hnd1 : (Sh.setCnt k 0 (Sh.node 1 [] c ch)).idxs.Nodup := by rw [Sh.setCnt_idxs]; exact hnd
        rcases hpath with ⟨hb0, rfl⟩ | hp
        · -- root
          have hdn : (setN t 1 0 V).deleteNode 1 pi = .ok (setN t 1 0 V) := by
            unfold Tree.deleteNode; rfl
          simp only [hdn, Out.bind_ok]
          refine ⟨1, c0, _, _, Sh.setCnt 1 0 (Sh.node 1 [] c ch), Sh.mem_entries.2 ⟨hmem, hc0⟩, rfl,
            ⟨⟨h.leftFn, h.length, hr1, ?_, ?_, ?_, h.stale_setN hkm 0 V,
              by rw [getElem?_setN, if_neg (by omega)]; exact h.zero⟩, hl, rfl, .inr ⟨by omega, none, 0, ?_, ?_, ?_⟩⟩⟩
          · refine ⟨rfl, rfl, ?_⟩
            intro b
            have hb := hwx.2.2 b
            refine ⟨hb.1, hb.2.wf ?_⟩
            rw [Sh.setCnt_idxs]
            exact (Sh.nodup_children hnd b).1
          · rw [Sh.setCnt_idxs, hl]; exact h.perm
          · rw [hl]; exact h.cap
          · exact hV.symm
          · intro j i h; cases h
          · intro q x c'
            rw [Sh.entries_setCnt_zero]
            simp [Sh.moved]
        · obtain ⟨s', fr, mv, t', g1, g2⟩ := deleteNode_spec hP (t := setN t k 0 V) h.length (hp.setCnt (x := k) (c := 0))
            (r := true) (d := P.W) hr1 hnd1 (Sh.cntZero_setCnt k _) (Nat.le_refl _) (.inl ⟨rfl, hwx⟩)
          simp only [g1, Out.bind_ok]
          have hfr := g2.delR.idxs_perm
          rw [Sh.setCnt_idxs] at hfr
          have hperm : (s'.idxs ++ t'.avail).Perm (List.range' 1 (t'.nodes.length - 1)) := by
            rw [g2.avail, g2.len, hl]
            show (s'.idxs ++ (t.avail ++ fr)).Perm _
            refine .trans ?_ h.perm
            refine .trans ?_ (hfr.append_right t.avail).symm
            rw [List.append_assoc]
            exact (List.perm_append_comm).append_left _
          refine ⟨k, c0, _, t', s', Sh.mem_entries.2 ⟨hmem, hc0⟩, rfl,
            ⟨⟨g2.leftFn.trans h.leftFn, g2.length.trans h.length, g2.rep, g2.delR.wfRoot hnd1 hwx, hperm, ?_, ?_, ?_⟩,
              g2.len.trans hl, rfl, .inr ⟨by omega, mv,
                (match mv with | none => 0 | some (j, _) => (((setN t k 0 V).nodes[j]?).getD default).cnt),
                ?_, ?_, ?_⟩⟩⟩
          · rw [g2.len, hl, g2.cap]; exact h.cap
          · have hnd2 : (s'.idxs ++ t'.avail).Nodup := hperm.nodup_iff.2 List.nodup_range'
            have hstale := h.stale_setN hkm 0 V
            rw [g2.avail]
            refine Stale.give hstale g2.len (fun x hx => g2.frame x ?_) fun x hx n hn => ?_
            · rw [Sh.setCnt_idxs]
              exact fun hx' => (List.nodup_append.1 h.nodup).2.2 x hx' x hx rfl
            · obtain ⟨f1, f2⟩ := g2.stale x hx n hn
              refine ⟨fun b => (f1 b).imp_right fun h1 h2 => ?_, fun b => ?_, f2⟩
              · rw [g2.avail] at hnd2
                exact (List.nodup_append.1 hnd2).2.2 _ h1 _ h2 rfl
              · rcases f1 b with h1 | h1
                · have := (List.getElem?_eq_some_iff.1 hn).1
                  omega
                · exact (g2.rep.lt _ h1).1
          · rw [g2.frame 0 (fun hx => by rw [Sh.setCnt_idxs] at hx; have := (h.rep.lt 0 hx).2; omega), getElem?_setN,
              if_neg (by omega)]
            exact h.zero
          · rw [g2.vals, hV]
            cases mv with
            | none => rfl
            | some ji => rfl
          · rintro j i rfl
            obtain ⟨e1, e2⟩ := g2.delR.mv_info hnd1
            obtain ⟨f1, f2, f3⟩ := g2.delR.mv_mem
            have hjk : j ≠ k := by
              rintro rfl
              rw [f3] at hfr
              have := (hfr.nodup_iff.1 hnd)
              have := (List.nodup_append.1 this).2.1
              simp at this
            rw [Sh.setCnt_idxs] at f1 f2
            have hmp : ∃ p b bs q c1, p ≠ [] ∧ bitsId id = p ++ b :: bs ∧
                (p ++ (!b) :: q, j, c1) ∈ (Sh.node 1 [] c ch).nodes [] := by
              obtain ⟨p, b, bs, q, c', y1, y2, y3⟩ := g2.delR.mv_path [] (.inl ⟨rfl, hwx⟩)
              rcases Sh.mem_setCnt.1 y3 with ⟨_, y3⟩ | ⟨y3, _⟩
              · exact ⟨p, b, bs, q, c', y1, y2, y3⟩
              · exact absurd y3 hjk
            refine ⟨e1, hjk, f1, f2, ?_, fun q c => e2, hmp⟩
            obtain ⟨q, cj, hq⟩ := Sh.mem_idxs_nodes [] f1
            obtain ⟨nj, hnj, hcj⟩ := h.rep.cnt hq
            refine ⟨q, ?_⟩
            simp only
            rw [getElem?_setN, if_neg hjk, hnj]
            simp only [Option.getD_some]
            rw [hcj]
            exact hq
          · intro q x c'
            rw [g2.delR.entries hnd1]
            simp only [Sh.entries_setCnt_zero, and_assoc]

end Verif.Tree
