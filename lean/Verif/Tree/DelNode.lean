import Verif.Tree.DelSpec

/-! `deleteNode` and `Delete`. -/

namespace Verif.Tree
open Verif.Id
variable {T : Type} [Inhabited T] {P : Pkg}

/-- the last part of `deleteNode` -/
def freeNode (t : Tree T) (k : Nat) : Tree T :=
  { t.upd k (fun n => { n with left := 0, right := 0 }) with avail := t.avail ++ [k] }

theorem getElem?_freeNode (t : Tree T) (k x : Nat) : (freeNode t k).nodes[x]? =
    if x = k then (t.nodes[k]?).map (fun n => { n with left := 0, right := 0 }) else t.nodes[x]? :=
  getElem?_upd t k x _

/-- `deleteNode` with the sides in one: `k` is the child of `pi` on side `b` -/
theorem deleteNode_eq {t : Tree T} {pi k : Nat} {pn n : Node} {b : Bool} (hk : k ≠ 1)
    (hpn : t.nodes[pi]? = some pn) (hn : t.nodes[k]? = some n) (h1 : pn.child b = k)
    (h2 : pn.child (!b) ≠ k) :
    t.deleteNode k pi =
      (if n.left ≠ 0 ∧ n.right ≠ 0 then .ok t
       else if n.left ≠ 0 ∨ n.right ≠ 0 then
         t.replaceByChild k (if n.left ≠ 0 then n.left else n.right) pi >>= fun t => .ok (freeNode t k)
       else if pi > 1 ∧ pn.cnt = 0 ∧ pn.child (!b) ≠ 0 then
         (t.upd pi (fun n => n.setChild b 0)).mergeSibling pi (pn.child (!b)) >>= fun t => .ok (freeNode t k)
       else .ok (freeNode (t.upd pi (fun n => n.setChild b 0)) k)) := by
  unfold Tree.deleteNode
  simp only [hk, if_false, node_eq hn, Out.bind_ok]
  by_cases hl : n.left = 0
  · by_cases hr : n.right = 0
    · simp only [hl, hr, ne_eq, not_true, and_self, if_false, or_self, node_eq hpn, Out.bind_ok]
      cases b with
      | false =>
        have h1' : pn.left = k := h1
        simp only [h1', if_true]
        show _ = (if pi > 1 ∧ pn.cnt = 0 ∧ ¬ pn.right = 0 then _ else _)
        split
        · rfl
        · rfl
      | true =>
        have h2' : ¬ pn.left = k := h2
        simp only [h2', if_false]
        show _ = (if pi > 1 ∧ pn.cnt = 0 ∧ ¬ pn.left = 0 then _ else _)
        split
        · rfl
        · rfl
    · simp only [hl, hr, ne_eq, not_true, not_false_eq_true, false_and, if_false, false_or, if_true]
      rfl
  · by_cases hr : n.right = 0
    · simp only [hl, hr, ne_eq, not_true, not_false_eq_true, and_false, if_false, or_false, if_true]
      rfl
    · simp only [hl, hr, ne_eq, not_false_eq_true, and_self, if_true]
      rfl

theorem replaceByChild_spec {t : Tree T} {pi k j : Nat} {pn n cn : Node} {b : Bool} {W : Nat} (hW : WidthOk W)
    (hlen : t.length = W)
    (hpn : t.nodes[pi]? = some pn) (hn : t.nodes[k]? = some n) (hcn : t.nodes[j]? = some cn)
    (h1 : pn.child b = k) (h2 : pn.child (!b) ≠ k) (hkp : k ≠ pi) (hjp : j ≠ pi)
    (hl : n.len + cn.len ≤ W) :
    ∃ z, t.replaceByChild k j pi = .ok ((t.upd pi (fun n => n.setChild b j)).upd j
        (fun c => { c with id := z, len := n.len + cn.len })) ∧
      bitsOf W z (n.len + cn.len) = bitsNode W n ++ bitsNode W cn := by
  obtain ⟨z, hz, hz'⟩ := mergeFromNodes_eq hW n cn hl
  refine ⟨z, ?_, hz'⟩
  unfold Tree.replaceByChild
  simp only [node_eq hpn, Out.bind_ok]
  have hu : (if pn.left = k then t.upd pi (fun n => { n with left := j })
      else t.upd pi (fun n => { n with right := j })) = t.upd pi (fun n => n.setChild b j) := by
    cases b with
    | false =>
      have h1' : pn.left = k := h1
      rw [if_pos h1']; rfl
    | true =>
      have h2' : ¬ pn.left = k := h2
      rw [if_neg h2']; rfl
  rw [hu]
  have hn' : (t.upd pi (fun n => n.setChild b j)).nodes[k]? = some n := by
    rw [getElem?_upd, if_neg hkp, hn]
  have hcn' : (t.upd pi (fun n => n.setChild b j)).nodes[j]? = some cn := by
    rw [getElem?_upd, if_neg hjp, hcn]
  simp only [node_eq hn', node_eq hcn', Out.bind_ok, tlength_upd, hlen, hz, Out.pure_eq]

theorem mergeSibling_spec {t : Tree T} {pi j : Nat} {pn sn : Node} {W : Nat} (hW : WidthOk W)
    (hlen : t.length = W)
    (hpn : t.nodes[pi]? = some pn) (hsn : t.nodes[j]? = some sn) (hjp : j ≠ pi) (hc : pn.cnt = 0)
    (hl : pn.len + sn.len ≤ W) :
    ∃ z t', t.mergeSibling pi j = .ok t' ∧
      bitsOf W z (pn.len + sn.len) = bitsNode W pn ++ bitsNode W sn ∧
      t'.nodes[pi]? = some ⟨sn.left, sn.right, z, pn.len + sn.len, sn.cnt⟩ ∧
      (∀ x, x ≠ pi → x ≠ j → t'.nodes[x]? = t.nodes[x]?) ∧
      t'.nodes.length = t.nodes.length ∧ t'.cap = t.cap ∧ t'.leftFn = t.leftFn ∧ t'.length = t.length ∧
      t'.avail = t.avail ++ [j] ∧ t'.vals = moveLoop (t.key j) (t.key pi) sn.cnt 0 t.vals ∧
      t'.nodes[j]? = some ⟨sn.left, sn.right, sn.id, sn.len, 0⟩ := by
  obtain ⟨z, hz, hz'⟩ := mergeFromNodes_eq hW pn sn hl
  have hpj : pi ≠ j := fun h => hjp h.symm
  unfold Tree.mergeSibling
  simp only [node_eq hpn, node_eq hsn, Out.bind_ok, hlen, hz]
  unfold Tree.moveTags
  have hs1 : (t.upd pi (fun n => { n with id := z, len := pn.len + sn.len })).nodes[j]? = some sn := by
    rw [getElem?_upd, if_neg hjp, hsn]
  simp only [node_eq hs1, Out.bind_ok, Out.pure_eq]
  generalize ht2 : ((({ (t.upd pi (fun n => { n with id := z, len := pn.len + sn.len })) with
        vals := moveLoop ((t.upd pi (fun n => { n with id := z, len := pn.len + sn.len })).key j)
          ((t.upd pi (fun n => { n with id := z, len := pn.len + sn.len })).key pi) sn.cnt 0
          (t.upd pi (fun n => { n with id := z, len := pn.len + sn.len })).vals } : Tree T).upd pi
        (fun n => { n with cnt := n.cnt + sn.cnt })).upd j (fun n => { n with cnt := 0 })) = t2
  have key : ∀ x, t2.nodes[x]? = if x = j then some { sn with cnt := 0 } else
      if x = pi then some { pn with id := z, len := pn.len + sn.len, cnt := sn.cnt } else t.nodes[x]? := by
    intro x
    rw [← ht2, getElem?_upd]
    by_cases hxj : x = j
    · rw [if_pos hxj, if_pos hxj, getElem?_upd, if_neg hjp]
      show Option.map _ ((t.upd pi _).nodes[j]?) = _
      rw [hs1]; rfl
    · rw [if_neg hxj, if_neg hxj, getElem?_upd]
      by_cases hxp : x = pi
      · rw [if_pos hxp, if_pos hxp]
        show Option.map _ ((t.upd pi _).nodes[pi]?) = _
        rw [getElem?_upd, if_pos rfl, hpn]
        simp [hc]
      · rw [if_neg hxp, if_neg hxp]
        show (t.upd pi _).nodes[x]? = _
        rw [getElem?_upd, if_neg hxp]
  have hj2 := key j
  rw [if_pos rfl] at hj2
  simp only [node_eq hj2, Out.bind_ok]
  refine ⟨z, _, rfl, hz', ?_, ?_, ?_, ?_, ?_, ?_, ?_, ?_, ?_⟩
  · show (t2.upd pi _).nodes[pi]? = _
    rw [getElem?_upd, if_pos rfl, key, if_neg hpj, if_pos rfl]
    rfl
  · intro x hx1 hx2
    show (t2.upd pi _).nodes[x]? = _
    rw [getElem?_upd, if_neg hx1, key, if_neg hx2, if_neg hx1]
  · show (t2.upd pi _).nodes.length = _
    rw [← ht2]; simp [Tree.upd]
  · rw [← ht2]; rfl
  · rw [← ht2]; rfl
  · rw [← ht2]; exact hlen
  · rw [← ht2]; rfl
  · rw [← ht2]; rfl
  · show (t2.upd pi _).nodes[j]? = _
    rw [getElem?_upd, if_neg hjp, hj2]

/-- the values after `deleteNode` -/
def mvVals (t : Tree T) (mv : Option (Nat × Nat)) : GoMap (BitVec 64) T :=
  match mv with
  | none => t.vals
  | some (j, i) => moveLoop (t.key j) (t.key i) ((t.nodes[j]?).getD default).cnt 0 t.vals

structure DelOut (t : Tree T) (W : Nat) (r : Bool) (s : Sh) (bits : List Bool) (i k : Nat)
    (s' : Sh) (fr : List Nat) (mv : Option (Nat × Nat)) (t' : Tree T) : Prop where
  delR : Sh.DelR r s bits s' k fr mv
  rep : Rep W t'.nodes s' i
  frame : ∀ x, x ∉ s.idxs → t'.nodes[x]? = t.nodes[x]?
  len : t'.nodes.length = t.nodes.length
  avail : t'.avail = t.avail ++ fr
  cap : t'.cap = t.cap
  leftFn : t'.leftFn = t.leftFn
  length : t'.length = t.length
  vals : t'.vals = mvVals t mv
  /-- the links of the nodes that were freed; they have no values -/
  stale : ∀ x ∈ fr, ∀ n, t'.nodes[x]? = some n →
    (∀ b, n.child b = 0 ∨ n.child b ∈ s'.idxs) ∧ (n.left = n.right → n.left = 0) ∧ n.cnt = 0

theorem stale_free {t : Tree T} {k : Nat} {s' : Sh} {nk : Node} (hk : t.nodes[k]? = some nk) (hc : nk.cnt = 0) :
    ∀ x ∈ [k], ∀ n, (freeNode t k).nodes[x]? = some n →
      (∀ b, n.child b = 0 ∨ n.child b ∈ s'.idxs) ∧ (n.left = n.right → n.left = 0) ∧ n.cnt = 0 := by
  intro x hx n hn
  cases List.mem_singleton.1 hx
  rw [getElem?_freeNode, if_pos rfl] at hn
  rw [hk] at hn
  cases hn
  exact ⟨fun b => .inl (by cases b <;> rfl), fun _ => rfl, hc⟩

theorem deleteNode_spec {W : Nat} (hP : WidthOk W) {t : Tree T} (hlen : t.length = W) {s : Sh}
    {bits : List Bool} {pi k : Nat} (hpath : Sh.Path s bits pi k) : ∀ {r : Bool} {i d : Nat},
    Rep W t.nodes s i → s.idxs.Nodup → Sh.CntZero k s → d ≤ W →
    (r = true ∧ Sh.WfRootX k d s) ∨ (r = false ∧ 1 ∉ s.idxs ∧ Sh.WfX k d s) →
    ∃ s' fr mv t', t.deleteNode k pi = .ok t' ∧ DelOut t W r s bits i k s' fr mv t' := by
  induction hpath with
  | here i0 p c ch bits b bs k c2 ch2 h1 h2 =>
    intro r i d hrep hnd hk0 hd hwf
    obtain ⟨rfl, hi0, n, hn, hbn, hcn, hch⟩ := hrep
    have hc2 : c2 = 0 := by
      have := hk0.2 b
      rw [h2] at this
      exact this.1 rfl
    subst hc2
    obtain ⟨n1, n2, n3⟩ := Sh.nodup_children hnd b
    obtain ⟨m1, m2, m3⟩ := Sh.nodup_children hnd (!b)
    rw [Bool.not_not] at m3
    have hrk := hch b
    have hrk' := hrk
    rw [h2] at hrk'
    obtain ⟨hck, hk00, nk, hnk, hbnk, hcnk, hchk⟩ := hrk'
    rw [hck] at hk00 hnk
    have hkm : k ∈ (ch b).idxs := by rw [h2]; simp [Sh.idxs]
    have hki : k ≠ i := by rintro rfl; exact n1 hkm
    have hk1 : k ≠ 1 := by
      rintro rfl
      rcases hwf with ⟨_, hw⟩ | ⟨_, h1, _⟩
      · exact n1 (hw.1 ▸ hkm)
      · exact h1 (Sh.mem_idxs_node.2 (.inr ⟨b, hkm⟩))
    have hsib : n.child (!b) ≠ k := by
      intro h
      by_cases hz : ch (!b) = .nil
      · have := (hch (!b)).nil_iff.1 hz
        omega
      · exact n3 k hkm (h ▸ ((hch (!b)).mem hz).1)
    -- widths
    have hwch : ∀ b, ∃ d', d' + p.length ≤ d ∧ Sh.WfX k d' (ch b) := by
      intro b
      rcases hwf with ⟨_, hw⟩ | ⟨_, _, hw⟩
      · exact ⟨d, by rw [hw.2.1]; simp, (hw.2.2 b).2⟩
      · exact ⟨d - p.length, by have := hw.2.1; omega, (hw.2.2.2 b).2⟩
    obtain ⟨d2, hd2, hwk⟩ := hwch b
    rw [h2] at hwk n2
    have hkl : nk.len = (b :: bs).length := Rep.len hbnk
    have hnl : n.len = p.length := Rep.len hbn
    rw [deleteNode_eq hk1 hn hnk hck hsib]
    by_cases htwo : nk.left ≠ 0 ∧ nk.right ≠ 0
    · rw [if_pos htwo]
      refine ⟨_, _, _, t, rfl, ⟨.two r i p c ch bits b bs k ch2 h1 h2 ?_, ⟨rfl, hi0, n, hn, hbn, hcn, hch⟩,
        fun _ _ => rfl, rfl, by simp, rfl, rfl, rfl, rfl, by simp⟩⟩
      intro e he
      have := (hchk e).nil_iff.1 he
      cases e
      · exact htwo.1 this
      · exact htwo.2 this
    · rw [if_neg htwo]
      by_cases hone : nk.left ≠ 0 ∨ nk.right ≠ 0
      · rw [if_pos hone]
        -- the side of the only child
        have hside : ∃ e, nk.child e = (if nk.left ≠ 0 then nk.left else nk.right) ∧ nk.child e ≠ 0 ∧
            nk.child (!e) = 0 := by
          by_cases hl : nk.left = 0
          · refine ⟨true, by simp [hl, Node.child], ?_, hl⟩
            rcases hone with h | h
            · exact absurd hl h
            · exact h
          · refine ⟨false, by simp [hl, Node.child], hl, ?_⟩
            by_cases hr : nk.right = 0
            · exact hr
            · exact absurd ⟨hl, hr⟩ htwo
        obtain ⟨e, he1, he2, he3⟩ := hside
        rw [← he1]
        generalize hj : nk.child e = j at *
        have hrj := hchk e
        rw [hj] at hrj
        cases hs3 : ch2 e with
        | nil => exact absurd (hrj.nil_iff.1 hs3) he2
        | node j' q c3 ch3 =>
        rw [hs3] at hrj
        obtain ⟨rfl, _, nj, hnj, hbnj, hcnj, hchj⟩ := hrj
        have hnil : ch2 (!e) = .nil := (hchk (!e)).nil_iff.2 he3
        obtain ⟨o1, o2, o3⟩ := Sh.nodup_children n2 e
        have hjm2 : j ∈ (ch2 e).idxs := by rw [hs3]; simp [Sh.idxs]
        have hjm : j ∈ (ch b).idxs := by rw [h2]; exact Sh.mem_idxs_node.2 (.inr ⟨e, hjm2⟩)
        have hji : j ≠ i := by rintro rfl; exact n1 hjm
        have hjk : j ≠ k := by rintro rfl; exact o1 hjm2
        have hlq : nj.len = q.length := Rep.len hbnj
        have hw3 := (hwk.2.2.2 e).2
        rw [hs3] at hw3 o2
        have hsum : nk.len + nj.len ≤ W := by
          have := hw3.2.1
          have := hwk.2.1
          omega
        obtain ⟨z, hz1, hz2⟩ := replaceByChild_spec hP hlen hn hnk hnj hck hsib hki hji hsum
        simp only [hz1, Out.bind_ok]
        refine ⟨_, _, _, _, rfl, ⟨.one r i p c ch bits b bs k ch2 e j q c3 ch3 h1 h2 hs3 hnil, ?_, ?_, ?_, rfl,
          rfl, rfl, rfl, rfl, stale_free (nk := nk) ?_ hcnk⟩⟩
        rotate_right
        · rw [getElem?_upd, if_neg (fun h => hjk h.symm), getElem?_upd, if_neg hki, hnk]
        · refine ⟨rfl, hi0, n.setChild b j, ?_, by simp [hbn], by simp [hcn], ?_⟩
          · rw [getElem?_freeNode, if_neg (fun h => hki h.symm), getElem?_upd, if_neg (fun h => hji h.symm),
              getElem?_upd, if_pos rfl, hn]; rfl
          · intro b'
            rcases Sh.eq_or_not b b' with rfl | rfl
            · rw [Sh.upd_same, Node.child_setChild]
              refine ⟨rfl, he2, { nj with id := z, len := nk.len + nj.len }, ?_, ?_, hcnj, ?_⟩
              · rw [getElem?_freeNode, if_neg hjk, getElem?_upd, if_pos rfl, getElem?_upd, if_neg hji, hnj]; rfl
              · unfold bitsNode
                rw [hz2, hbnk, hbnj]
              · intro x
                refine (hchj x).frame ?_
                intro y hy
                have hy2 : y ∈ (ch2 e).idxs := by rw [hs3]; exact Sh.mem_idxs_node.2 (.inr ⟨x, hy⟩)
                have hyb : y ∈ (ch b').idxs := by rw [h2]; exact Sh.mem_idxs_node.2 (.inr ⟨e, hy2⟩)
                have hyk : y ≠ k := by rintro rfl; exact o1 hy2
                have hyi : y ≠ i := by rintro rfl; exact n1 hyb
                have hyj : y ≠ j := by rintro rfl; exact (Sh.nodup_children o2 x).1 hy
                rw [getElem?_freeNode, if_neg hyk, getElem?_upd, if_neg hyj, getElem?_upd, if_neg hyi]
            · rw [Sh.upd_not, Node.child_setChild_not]
              refine (hch _).frame ?_
              intro y hy
              have hyk : y ≠ k := by rintro rfl; exact n3 y hkm hy
              have hyi : y ≠ i := by rintro rfl; exact m1 hy
              have hyj : y ≠ j := by rintro rfl; exact n3 y hjm hy
              rw [getElem?_freeNode, if_neg hyk, getElem?_upd, if_neg hyj, getElem?_upd, if_neg hyi]
        · intro y hy
          rw [Sh.mem_idxs_node, not_or] at hy
          have hyk : y ≠ k := by rintro rfl; exact hy.2 ⟨b, hkm⟩
          have hyj : y ≠ j := by rintro rfl; exact hy.2 ⟨b, hjm⟩
          rw [getElem?_freeNode, if_neg hyk, getElem?_upd, if_neg hyj, getElem?_upd, if_neg hy.1]
        · simp [freeNode]
      · rw [if_neg hone]
        have hleaf : ∀ e, ch2 e = .nil := by
          intro e
          apply (hchk e).nil_iff.2
          simp only [ne_eq, not_or, Decidable.not_not] at hone
          cases e
          · exact hone.1
          · exact hone.2
        by_cases hmg : i > 1 ∧ n.cnt = 0 ∧ n.child (!b) ≠ 0
        · rw [if_pos hmg]
          obtain ⟨hi1, hc0, hsib0⟩ := hmg
          have hwf' : r = false ∧ 1 ∉ (Sh.node i p c ch).idxs ∧ Sh.WfX k d (Sh.node i p c ch) := by
            rcases hwf with ⟨_, hw⟩ | hw
            · have := hw.1
              omega
            · exact hw
          obtain ⟨rfl, _, hw⟩ := hwf'
          have hc00 : c = 0 := by omega
          subst hc00
          have hrj := hch (!b)
          generalize hj : n.child (!b) = j at *
          cases hs3 : ch (!b) with
          | nil => exact absurd (hrj.nil_iff.1 hs3) hsib0
          | node j' q c3 ch3 =>
          rw [hs3] at hrj
          obtain ⟨rfl, _, nj, hnj, hbnj, hcnj, hchj⟩ := hrj
          have hjm : j ∈ (ch (!b)).idxs := by rw [hs3]; simp [Sh.idxs]
          have hji : j ≠ i := by rintro rfl; exact m1 hjm
          have hjk : j ≠ k := by rintro rfl; exact n3 j hkm hjm
          have hlq : nj.len = q.length := Rep.len hbnj
          have hw3 := (hw.2.2.2 (!b)).2
          rw [hs3] at hw3 m2
          have hsum : (n.setChild b 0).len + nj.len ≤ W := by
            have := hw3.2.1
            have := hw.2.1
            rw [Node.setChild_len]
            omega
          have hn' : (t.upd i (fun n => n.setChild b 0)).nodes[i]? = some (n.setChild b 0) := by
            rw [getElem?_upd, if_pos rfl, hn]; rfl
          have hnj' : (t.upd i (fun n => n.setChild b 0)).nodes[j]? = some nj := by
            rw [getElem?_upd, if_neg hji, hnj]
          obtain ⟨z, t', z1, z2, z3, z4, z5, z6, z7, z8, z9, z10, z11⟩ :=
            mergeSibling_spec hP (t := t.upd i (fun n => n.setChild b 0)) hlen hn' hnj' hji (by simp [hc0]) hsum
          simp only [z1, Out.bind_ok]
          refine ⟨_, _, _, _, rfl, ⟨.merge i p ch bits b bs k ch2 j q c3 ch3 h1 h2 hleaf hs3, ?_, ?_, ?_, ?_,
            z6, z7, z8, ?_, ?_⟩⟩
          · refine ⟨rfl, hi0, ⟨nj.left, nj.right, z, (n.setChild b 0).len + nj.len, nj.cnt⟩, ?_, ?_, hcnj, ?_⟩
            · rw [getElem?_freeNode, if_neg (fun h => hki h.symm), z3]
            · unfold bitsNode
              rw [z2, bitsNode_setChild, hbn, hbnj]
            · intro x
              have : (⟨nj.left, nj.right, z, (n.setChild b 0).len + nj.len, nj.cnt⟩ : Node).child x = nj.child x := by
                cases x <;> rfl
              rw [this]
              refine (hchj x).frame ?_
              intro y hy
              have hyb : y ∈ (ch (!b)).idxs := by rw [hs3]; exact Sh.mem_idxs_node.2 (.inr ⟨x, hy⟩)
              have hyk : y ≠ k := by rintro rfl; exact n3 y hkm hyb
              have hyi : y ≠ i := by rintro rfl; exact m1 hyb
              have hyj : y ≠ j := by rintro rfl; exact (Sh.nodup_children m2 x).1 hy
              rw [getElem?_freeNode, if_neg hyk, z4 y hyi hyj, getElem?_upd, if_neg hyi]
          · intro y hy
            rw [Sh.mem_idxs_node, not_or] at hy
            have hyk : y ≠ k := by rintro rfl; exact hy.2 ⟨b, hkm⟩
            have hyj : y ≠ j := by rintro rfl; exact hy.2 ⟨!b, hjm⟩
            rw [getElem?_freeNode, if_neg hyk, z4 y hy.1 hyj, getElem?_upd, if_neg hy.1]
          · simp [freeNode, z5]
          · simp [freeNode, z9]
          · show t'.vals = _
            rw [z10]
            simp only [mvVals, hnj, Option.getD_some]
            rfl
          · intro x hx n' hn'
            rcases List.mem_cons.1 hx with rfl | hx
            · rw [getElem?_freeNode, if_neg hjk, z11] at hn'
              cases hn'
              have e : ∀ b, (⟨nj.left, nj.right, nj.id, nj.len, 0⟩ : Node).child b = nj.child b := by
                intro b; cases b <;> rfl
              refine ⟨fun b => ?_, fun h => ?_, rfl⟩
              · rw [e]
                by_cases hz : ch3 b = .nil
                · exact .inl ((hchj b).nil_iff.1 hz)
                · exact .inr (Sh.mem_idxs_node.2 (.inr ⟨b, ((hchj b).mem hz).1⟩))
              · by_cases hz : ch3 false = .nil
                · exact (hchj false).nil_iff.1 hz
                · exfalso
                  have h5 := ((hchj false).mem hz).1
                  have hz' : ch3 true ≠ .nil := by
                    intro hz'
                    have h6 := (hchj true).nil_iff.1 hz'
                    exact hz ((hchj false).nil_iff.2 (h.trans h6))
                  have h6 := ((hchj true).mem hz').1
                  have h7 : nj.child false = nj.child true := h
                  rw [h7] at h5
                  exact (Sh.nodup_children m2 false).2.2 _ h5 h6
            · have hk' : t'.nodes[k]? = some nk := by
                rw [z4 k hki (fun h => hjk h.symm), getElem?_upd, if_neg hki, hnk]
              exact stale_free (s' := Sh.nil) hk' hcnk x hx n' hn' |>.imp
                (fun h b => .inl ((h b).resolve_right (by simp [Sh.idxs]))) id
        · rw [if_neg hmg]
          refine ⟨_, _, _, _, rfl, ⟨.leaf r i p c ch bits b bs k ch2 h1 h2 hleaf ?_, ?_, ?_, ?_, rfl,
            rfl, rfl, rfl, rfl, stale_free (nk := nk) ?_ hcnk⟩⟩
          rotate_right
          · rw [getElem?_upd, if_neg hki, hnk]
          · rcases hwf with ⟨hr, _⟩ | ⟨_, h1i, hw⟩
            · exact .inl hr
            · right
              intro hc0
              apply hmg
              have hi1 : i ≠ 1 := by rintro rfl; exact h1i (by simp [Sh.idxs])
              refine ⟨by omega, by omega, ?_⟩
              intro hz
              exact hw.2.2.1 hc0 (fun h => hki h.symm) (!b) ((hch (!b)).nil_iff.2 hz)
          · refine ⟨rfl, hi0, n.setChild b 0, ?_, by simp [hbn], by simp [hcn], ?_⟩
            · rw [getElem?_freeNode, if_neg (fun h => hki h.symm), getElem?_upd, if_pos rfl, hn]; rfl
            · intro b'
              rcases Sh.eq_or_not b b' with rfl | rfl
              · rw [Sh.upd_same, Node.child_setChild]; rfl
              · rw [Sh.upd_not, Node.child_setChild_not]
                refine (hch _).frame ?_
                intro y hy
                have hyk : y ≠ k := by rintro rfl; exact n3 y hkm hy
                have hyi : y ≠ i := by rintro rfl; exact m1 hy
                rw [getElem?_freeNode, if_neg hyk, getElem?_upd, if_neg hyi]
          · intro y hy
            rw [Sh.mem_idxs_node, not_or] at hy
            have hyk : y ≠ k := by rintro rfl; exact hy.2 ⟨b, hkm⟩
            rw [getElem?_freeNode, if_neg hyk, getElem?_upd, if_neg hy.1]
          · simp [freeNode]
  | down i0 p c ch bits b bs pi k h1 hpath ih =>
    intro r i d hrep hnd hk0 hd hwf
    obtain ⟨rfl, hi0, n, hn, hbn, hcn, hch⟩ := hrep
    obtain ⟨n1, n2, n3⟩ := Sh.nodup_children hnd b
    obtain ⟨m1, m2, m3⟩ := Sh.nodup_children hnd (!b)
    have hwch : ∃ d', d' ≤ d ∧ 1 ∉ (ch b).idxs ∧ Sh.WfX k d' (ch b) := by
      rcases hwf with ⟨_, hw⟩ | ⟨_, h1, hw⟩
      · exact ⟨d, Nat.le_refl _, fun h => n1 (hw.1 ▸ h), (hw.2.2 b).2⟩
      · exact ⟨d - p.length, by omega, fun h => h1 (Sh.mem_idxs_node.2 (.inr ⟨b, h⟩)), (hw.2.2.2 b).2⟩
    obtain ⟨d', hd', h1b, hwb⟩ := hwch
    obtain ⟨s', fr, mv, t', g1, g2⟩ := ih (r := false) (hch b) n2
      (hk0.2 b) (by omega) (.inr ⟨rfl, h1b, hwb⟩)
    refine ⟨_, fr, mv, t', g1, ⟨.down r i p c ch bits b bs s' k fr mv h1 g2.delR, ?_, ?_, g2.len, g2.avail,
      g2.cap, g2.leftFn, g2.length, g2.vals, ?_⟩⟩
    · refine ⟨rfl, hi0, n, ?_, hbn, hcn, ?_⟩
      · rw [g2.frame i n1, hn]
      · intro b'
        rcases Sh.eq_or_not b b' with rfl | rfl
        · rw [Sh.upd_same]; exact g2.rep
        · rw [Sh.upd_not]
          exact (hch _).frame (fun y hy => g2.frame y (fun h => n3 y h hy))
    · intro y hy
      exact g2.frame y (fun h => hy (Sh.mem_idxs_node.2 (.inr ⟨b, h⟩)))
    · intro x hx n hn
      obtain ⟨f1, f2⟩ := g2.stale x hx n hn
      refine ⟨fun b' => (f1 b').imp id fun h => Sh.mem_idxs_node.2 (.inr ⟨b, ?_⟩), f2⟩
      rw [Sh.upd_same]; exact h

end Verif.Tree
