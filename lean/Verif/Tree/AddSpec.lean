import Verif.Tree.Rep

/-! `add` on the node array does what `AddR` says on the shape. -/

namespace Verif.Tree
open Verif.Id
variable {T : Type} [Inhabited T] {P : Pkg}

/-- how two prefixes with something in common can be related -/
theorem lcp_cases {p bits : List Bool} {b : Bool} (hp : ∃ q, p = b :: q) (hb : ∃ q, bits = b :: q) :
    0 < lcp p bits ∧
    ((lcp p bits = bits.length ∧ lcp p bits = p.length ∧ p = bits) ∨
     (lcp p bits = bits.length ∧ lcp p bits < p.length ∧ ∃ c d, p = bits ++ c :: d) ∨
     (lcp p bits < bits.length ∧ lcp p bits = p.length ∧ ∃ c d, bits = p ++ c :: d) ∨
     (lcp p bits < bits.length ∧ lcp p bits < p.length ∧
       ∃ m c d e, m ≠ [] ∧ lcp p bits = m.length ∧ p = m ++ c :: d ∧ bits = m ++ (!c) :: e)) := by
  have hpos : 0 < lcp p bits := by
    obtain ⟨q, rfl⟩ := hp
    obtain ⟨q', rfl⟩ := hb
    simp [lcp]
  refine ⟨hpos, ?_⟩
  have h1 := lcp_le_left p bits
  have h2 := lcp_le_right p bits
  have h3 := lcp_take p bits
  have h4 := mt (le_lcp p bits (lcp p bits + 1)).2 (by omega)
  generalize hn : lcp p bits = n at *
  by_cases ha : n = bits.length
  · by_cases hb : n = p.length
    · refine .inl ⟨ha, hb, ?_⟩
      rwa [List.take_of_length_le (by omega), List.take_of_length_le (by omega)] at h3
    · refine .inr (.inl ⟨ha, by omega, p[n]'(by omega), p.drop (n + 1), ?_⟩)
      rw [List.take_of_length_le (l := bits) (by omega)] at h3
      rw [List.getElem_cons_drop, ← h3, List.take_append_drop]
  · by_cases hb : n = p.length
    · refine .inr (.inr (.inl ⟨by omega, hb, bits[n]'(by omega), bits.drop (n + 1), ?_⟩))
      rw [List.take_of_length_le (l := p) (by omega)] at h3
      rw [List.getElem_cons_drop, h3, List.take_append_drop]
    · refine .inr (.inr (.inr ⟨by omega, by omega, p.take n, p[n]'(by omega), p.drop (n + 1),
        bits.drop (n + 1), ?_, ?_, ?_, ?_⟩))
      · intro h
        have := congrArg List.length h
        rw [List.length_take, List.length_nil] at this
        omega
      · simp; omega
      · rw [List.getElem_cons_drop, List.take_append_drop]
      · have hne : bits[n]'(by omega) ≠ p[n]'(by omega) := by
          intro he
          apply h4
          refine ⟨by omega, by omega, ?_⟩
          rw [List.take_succ_eq_append_getElem (by omega), List.take_succ_eq_append_getElem (by omega), h3, he]
        have : (!p[n]'(by omega)) = bits[n]'(by omega) := by
          cases h5 : bits[n]'(by omega) <;> cases h6 : p[n]'(by omega) <;> simp_all
        rw [this, List.getElem_cons_drop, h3, List.take_append_drop]

/-- the widths for which `MergeFromNodes` is defined -/
def WidthOk (W : Nat) : Prop := W = 16 ∨ W = 32 ∨ W = 64

theorem WidthOk.le {W : Nat} (h : WidthOk W) : 0 < W ∧ W ≤ 64 := by
  rcases h with rfl | rfl | rfl <;> decide

theorem upd_left_eq (t : Tree T) (i j : Nat) :
    t.upd i (fun n => { n with left := j }) = t.upd i (fun n => n.setChild false j) := rfl
theorem upd_right_eq (t : Tree T) (i j : Nat) :
    t.upd i (fun n => { n with right := j }) = t.upd i (fun n => n.setChild true j) := rfl

/-- one round of the loop, with the two sides in one -/
theorem addLoop_succ (val : T) (m : Option (T → T → Bool)) (u : Option (T → T)) (fuel : Nat)
    (t : Tree T) (parent i : Nat) (id : MyId P) (node : Node) (hi : i ≠ 0) (hn : t.nodes[i]? = some node)
    (h0 : node.len ≠ 0) (hm : matchCount node id ≠ 0) :
    addLoop val m u (fuel + 1) t parent i id =
      (if matchCount node id = id.len then
        if matchCount node id = node.len then do
          let (b, t) ← t.addVal val i m u
          t.count b i
        else do
          let (j, b, t) ← t.newLeaf id val m u
          let t := t.upd i (shiftLength (matchCount node id))
          let node ← t.node i
          let l ← t.isLeft node.id
          let t := t.upd j (fun n => n.setChild l i)
          let t ← t.relink parent i j "node isn't left or right parent - should be impossible! (1)"
          t.count b j
      else if matchCount node id = node.len then
        let id := shiftLeft id (matchCount node id)
        if node.child (leftBit id) = 0 then do
          let (j, b, t') ← t.newLeaf id val m u
          let t' := t'.upd i (fun n => n.setChild (leftBit id) j)
          t'.count b j
        else addLoop val m u fuel t i (node.child (leftBit id)) id
      else do
        let mc := matchCount node id
        let (c, t) ← t.newNode (MyId.val64 id) mc
        let id := shiftLeft id mc
        let (j, b, t) ← t.newLeaf id val m u
        let t := t.upd i (shiftLength mc)
        let node ← t.node i
        let l ← t.isLeft node.id
        let t := t.upd c (fun n => (n.setChild l i).setChild (!l) j)
        let t ← t.relink parent i c "node isn't left or right parent - should be impossible! (2)"
        t.count b j) := by
  have e1 : ∀ (t : Tree T) (j : Nat) (l : Bool),
      (if (!l) = true then t.upd j (fun n => { n with left := i }) else t.upd j (fun n => { n with right := i }))
        = t.upd j (fun n => n.setChild l i) := by
    intro t j l; cases l <;> rfl
  have e2 : ∀ (t : Tree T) (c j : Nat) (l : Bool),
      (if (!l) = true then t.upd c (fun n => { n with left := i, right := j })
        else t.upd c (fun n => { n with right := i, left := j }))
        = t.upd c (fun n => (n.setChild l i).setChild (!l) j) := by
    intro t c j l; cases l <;> rfl
  rw [addLoop]
  simp only [hi, if_false, node_eq hn, Out.bind_ok, h0, hm, e1, e2]
  split
  · rfl
  · split
    · cases leftBit (shiftLeft id (matchCount node id)) <;> rfl
    · rfl

/-- what `add` did: new shape `s'` at `j`, the value went to node `k`, which had `c0` values;
the nodes `used` were allocated; nodes satisfying `F` were left alone -/
structure AddOut (t : Tree T) (W : Nat) (s : Sh) (bits : List Bool) (val : T)
    (m : Option (T → T → Bool)) (u : Option (T → T)) (F : Nat → Prop)
    (bb : Bool) (c' : Nat) (t' : Tree T) (s' : Sh) (j k c0 : Nat) (used : List Nat) : Prop where
  addR : Sh.AddR c' s bits s' k c0 used
  rep : Rep W t'.nodes s' j
  vals : (bb, t'.vals) = valStep t.vals (t.key k) c0 val m u
  cnt : c' = c0 + bb.toNat
  alloc : Alloc t t' used
  frame : ∀ x, x ∉ s.idxs → x ∉ used → F x → t'.nodes[x]? = t.nodes[x]?

/-- a new leaf below an existing node -/
theorem leafChild_spec {t : Tree T} (ho : AllocOk t) (hr : 1 ≤ room t) {i : Nat} {n : Node} {b : Bool}
    (hn : t.nodes[i]? = some n) (hi : i ∉ t.avail) (id : MyId P) (val : T)
    (m : Option (T → T → Bool)) (u : Option (T → T)) :
    ∃ j t', (do
        let (j, bb, t') ← t.newLeaf id val m u
        let t' := t'.upd i (fun n => n.setChild b j)
        t'.count bb j) = .ok (true, 1, t') ∧ Alloc t t' [j] ∧
      (true, t'.vals) = valStep t.vals (t.key j) 0 val m u ∧
      t'.nodes[j]? = some ⟨0, 0, MyId.val64 id, id.len, 1⟩ ∧
      t'.nodes[i]? = some (n.setChild b j) ∧ j ≠ i ∧ j ≠ 0 ∧
      ∀ x, x ≠ j → x ≠ i → t'.nodes[x]? = t.nodes[x]? := by
  obtain ⟨j, t', h1, h2, h3, h4, h5⟩ := newLeaf_spec ho hr id val m u
  have hlt : i < t.nodes.length := (List.getElem?_eq_some_iff.1 hn).1
  have hj := h2.mem ho (x := j) (by simp)
  have hji : j ≠ i := by
    intro h
    exact (h2.not_mem ho hi hlt).1 (by simp [h])
  have hj' : (t'.upd i (fun n => n.setChild b j)).nodes[j]? = some ⟨0, 0, MyId.val64 id, id.len, 1⟩ := by
    rw [getElem?_upd]; simp [hji, h4]
  refine ⟨j, t'.upd i (fun n => n.setChild b j), ?_, ?_, h3, hj', ?_, hji, by omega, ?_⟩
  · simp only [h1, Out.bind_ok]
    rw [count_spec hj']
  · exact h2.same (by simp) rfl rfl rfl rfl
  · rw [getElem?_upd, h5 i (fun h => hji h.symm), hn]; simp
  · intro x hx hx'
    rw [getElem?_upd]
    simp only [hx', if_false]
    exact h5 x hx

theorem rep_leaf {W : Nat} {ns : List Node} {j : Nat} {n : Node} {p : List Bool} {c : Nat} (hj : j ≠ 0)
    (h : ns[j]? = some n) (hb : bitsNode W n = p) (hc : n.cnt = c) (hl : n.left = 0) (hr : n.right = 0) :
    Rep W ns (.node j p c (fun _ => .nil)) j :=
  ⟨rfl, hj, n, h, hb, hc, fun b => by cases b <;> assumption⟩

theorem addLoop_spec (hP : WidthOk P.W) (val : T) (m : Option (T → T → Bool)) (u : Option (T → T)) :
    ∀ (fuel : Nat) (t : Tree T) (pi i : Nat) (pn : Node) (pb : Bool) (s : Sh) (id : MyId P) (d : Nat)
      (b : Bool) (bs : List Bool),
      t.leftFn = some P.W → Rep P.W t.nodes s i → s ≠ .nil → Sh.Wf d s → d ≤ P.W → Sh.Starts b s →
      bitsId id = b :: bs → id.len ≤ d → id.len < fuel → AllocOk t → 2 ≤ room t →
      (∀ x ∈ s.idxs, x ∉ t.avail) → s.idxs.Nodup →
      t.nodes[pi]? = some pn → pi ∉ s.idxs → pi ∉ t.avail → pn.child pb = i → pn.child (!pb) ≠ i →
      ∃ bb c' t' s' j k c0 used,
        addLoop val m u fuel t pi i id = .ok (bb, c', t') ∧
        AddOut t P.W s (bitsId id) val m u (· ≠ pi) bb c' t' s' j k c0 used ∧
        t'.nodes[pi]? = some (pn.setChild pb j) := by
  have hW := hP.le
  intro fuel
  induction fuel with
  | zero => intro t pi i pn pb s id d b bs _ _ _ _ _ _ _ _ h; omega
  | succ fuel ih =>
    intro t pi i pn pb s id d b bs hL hrep hs hw hd hst hbits hlen hfuel ho hroom hav hnd hpn hpi hpia
      hc1 hc2
    cases s with
    | nil => exact absurd rfl hs
    | node j p c ch =>
    obtain ⟨rfl, hi0, n, hn, hbn, hcn, hch⟩ := hrep
    have hnl : n.len = p.length := Rep.len hbn
    have hpd : p.length ≤ d := hw.2.1
    have hil : (bitsId id).length = id.len := by simp [bitsId]
    have hmc : matchCount n id = lcp p (bitsId id) := by
      rw [matchCount_eq (by omega) n id (by omega) (by omega), hbn]
    obtain ⟨hpos, hcases⟩ := lcp_cases (b := b) hst ⟨bs, hbits⟩
    have hp0 : p.length ≠ 0 := by
      obtain ⟨q, rfl⟩ := hst
      simp
    have hia : i ∉ t.avail := hav i (by simp [Sh.idxs])
    have hilt : i < t.nodes.length := (List.getElem?_eq_some_iff.1 hn).1
    have hpilt : pi < t.nodes.length := (List.getElem?_eq_some_iff.1 hpn).1
    have hpii : pi ≠ i := by
      rintro rfl
      exact hpi (by simp [Sh.idxs])
    rw [addLoop_succ val m u fuel t pi i id n hi0 hn (by omega) (by omega), hmc, ← hil, hnl]
    have hsub : ∀ {b x}, x ∈ (ch b).idxs → x ∈ (Sh.node i p c ch).idxs :=
      fun {b x} h => Sh.mem_idxs_node.2 (.inr ⟨b, h⟩)
    have hnd' := hnd
    rw [Sh.idxs_node] at hnd'
    have hich : ∀ {b}, i ∉ (ch b).idxs := by
      intro b h
      have := (List.nodup_cons.1 hnd').1
      apply this
      cases b
      · exact List.mem_append_left _ h
      · exact List.mem_append_right _ h
    rcases hcases with ⟨h1, h2, h3⟩ | ⟨h1, h2, e, dd, h3⟩ | ⟨h1, h2, e, dd, h3⟩ |
      ⟨h1, h2, mm, e, dd, ee, hm0, hml, h3, h4⟩
    · -- the node exists
      rw [if_pos h1, if_pos h2]
      simp only [addVal_eq hn, Out.bind_ok]
      have hnode : (afterAdd t i (valStep t.vals (t.key i) n.cnt val m u)).nodes[i]? = some
          { n with cnt := n.cnt + (valStep t.vals (t.key i) n.cnt val m u).1.toNat } := by
        rw [getElem?_afterAdd]; simp [hn]
      rw [count_spec hnode]
      refine ⟨_, _, _, .node i p (n.cnt + (valStep t.vals (t.key i) n.cnt val m u).1.toNat) ch, i, i, n.cnt,
        [], rfl, ⟨?_, ?_, rfl, rfl, ?_, ?_⟩, ?_⟩
      · rw [← h3, ← hcn]; exact .here ..
      · refine ⟨rfl, hi0, _, hnode, hbn, rfl, ?_⟩
        intro b
        refine (hch b).frame ?_
        intro x hx
        rw [getElem?_afterAdd, if_neg]
        rintro rfl
        exact hich hx
      · exact (Alloc.refl ho).same (by simp [afterAdd]) rfl rfl rfl rfl
      · intro x hx _ _
        rw [getElem?_afterAdd, if_neg]
        rintro rfl
        exact hx (by simp [Sh.idxs])
      · rw [getElem?_afterAdd, if_neg hpii, hpn, ← hc1, Node.setChild_child]
    · -- above
      rw [if_pos h1, if_neg (by omega)]
      obtain ⟨j, t1, g1, g2, g3, g4, g5⟩ := newLeaf_spec ho (by omega) id val m u
      simp only [g1, Out.bind_ok]
      have hji : j ≠ i := fun h => (g2.not_mem ho hia hilt).1 (by simp [h])
      have hjpi : j ≠ pi := fun h => (g2.not_mem ho hpia hpilt).1 (by simp [h])
      have hj0 := (g2.mem ho (x := j) (by simp)).1
      have hsl := bitsNode_shiftLength (W := P.W) (by omega) n (m := lcp p (bitsId id)) (by omega) (by omega)
      have hn1 : (t1.upd i (shiftLength (lcp p (bitsId id)))).nodes[i]? =
          some (shiftLength (lcp p (bitsId id)) n) := by
        rw [getElem?_upd, g5 i (fun h => hji h.symm), hn]; simp
      have hbn1 : bitsNode P.W (shiftLength (lcp p (bitsId id)) n) = e :: dd := by
        rw [hsl.1, hbn, h1]
        conv => lhs; rw [h3]
        simp
      have hl : isLeftBitSet P.W (shiftLength (lcp p (bitsId id)) n).id = e := by
        have := isLeftBitSet_eq (W := P.W) (by omega) (shiftLength (lcp p (bitsId id)) n)
          (by rw [hsl.2]; omega) (by rw [hsl.2]; omega)
        rw [hbn1] at this
        simpa using this.symm
      have hlf : (t1.upd i (shiftLength (lcp p (bitsId id)))).isLeft
          (shiftLength (lcp p (bitsId id)) n).id = .ok e := by
        unfold Tree.isLeft
        rw [leftFn_upd, g2.leftFn, hL]
        simp [hl]
      simp only [node_eq hn1, Out.bind_ok, hlf]
      generalize hk : lcp p (bitsId id) = k at *
      have hpn2 : ((t1.upd i (shiftLength k)).upd j (fun n => n.setChild e i)).nodes[pi]? = some pn := by
        rw [getElem?_upd, if_neg (fun h => hjpi h.symm), getElem?_upd, if_neg hpii,
          g5 pi (fun h => hjpi h.symm), hpn]
      rw [relink_spec hpn2 hc1 hc2]
      simp only [Out.bind_ok]
      have hjn : ((((t1.upd i (shiftLength k)).upd j (fun n => n.setChild e i))).upd pi
          (fun n => n.setChild pb j)).nodes[j]? =
          some ((⟨0, 0, MyId.val64 id, id.len, 1⟩ : Node).setChild e i) := by
        rw [getElem?_upd, if_neg hjpi, getElem?_upd, if_pos rfl, getElem?_upd, if_neg hji, g4]; rfl
      rw [count_spec hjn]
      refine ⟨_, _, _, .node j (bitsId id) 1 (Sh.upd (fun _ => .nil) e (.node i (e :: dd) c ch)), j, j, 0, [j],
        rfl, ⟨?_, ?_, ?_, ?_, ?_, ?_⟩, ?_⟩
      · rw [Node.setChild_cnt]; exact .above _ _ _ _ _ _ _ _ h3
      · refine ⟨rfl, by omega, _, hjn, ?_, by simp, ?_⟩
        · rw [bitsNode_setChild, bitsNode_val64 (by omega) id (Nat.le_refl _), List.take_of_length_le (by omega)]
        · intro b'
          rcases Sh.eq_or_not e b' with rfl | rfl
          · rw [Sh.upd_same, Node.child_setChild]
            refine ⟨rfl, hi0, shiftLength k n, ?_, hbn1, hcn, ?_⟩
            · rw [getElem?_upd, if_neg (fun h => hpii h.symm), getElem?_upd, if_neg (fun h => hji h.symm), hn1]
            · intro b
              refine (hch b).frame ?_
              intro x hx
              have hx1 : x ≠ pi := by rintro rfl; exact hpi (hsub hx)
              have hx2 : x ≠ i := by rintro rfl; exact hich hx
              have hx3 : x ≠ j := by
                rintro rfl
                exact (g2.not_mem ho (hav x (hsub hx)) ((hch b).lt x hx).1).1 (by simp)
              rw [getElem?_upd, if_neg hx1, getElem?_upd, if_neg hx3, getElem?_upd, if_neg hx2, g5 x hx3]
          · rw [Sh.upd_not, Node.child_setChild_not]
            cases e <;> rfl
      · exact g3
      · simp
      · exact g2.same (by simp) rfl rfl rfl rfl
      · intro x hx hx' hx''
        have hx2 : x ≠ i := by rintro rfl; exact hx (by simp [Sh.idxs])
        have hx3 : x ≠ j := by simpa using hx'
        rw [getElem?_upd, if_neg hx'', getElem?_upd, if_neg hx3, getElem?_upd, if_neg hx2, g5 x hx3]
      · rw [getElem?_upd, if_pos rfl, hpn2]; rfl
    · -- below
      rw [if_neg (by omega), if_pos h2]
      obtain ⟨hsb, hsl⟩ := bitsId_shiftLeft (by omega) id (m := lcp p (bitsId id)) (by omega) (by omega)
      rw [h2] at hsb hsl ⊢
      have hsb' : bitsId (shiftLeft id p.length) = e :: dd := by
        rw [hsb, h3]; simp
      have hlb : leftBit (shiftLeft id p.length) = e := by
        have := leftBit_eq (by omega) (shiftLeft id p.length) (by rw [hsl]; omega)
        rw [hsb'] at this
        simpa using this.symm
      simp only [hlb]
      by_cases hc0 : n.child e = 0
      · rw [if_pos hc0]
        have hnil : ch e = .nil := (hch e).nil_iff.2 hc0
        obtain ⟨j, t', g1, g2, g3, g4, g5, g6, g7, g8⟩ :=
          leafChild_spec ho (by omega) (b := e) hn hia (shiftLeft id p.length) val m u
        have hjpi : j ≠ pi := fun h => (g2.not_mem ho hpia hpilt).1 (by simp [h])
        refine ⟨_, _, _, .node i p c (Sh.upd ch e (.node j (e :: dd) 1 (fun _ => .nil))), i, j, 0, [j],
          g1, ⟨?_, ?_, g3, by simp, g2, ?_⟩, ?_⟩
        · refine .down _ _ _ _ _ _ _ _ _ _ _ h3 ?_
          rw [hnil]
          exact .leaf ..
        · refine ⟨rfl, hi0, _, g5, by simp [hbn], by simp [hcn], ?_⟩
          intro b'
          rcases Sh.eq_or_not e b' with rfl | rfl
          · rw [Sh.upd_same, Node.child_setChild]
            refine rep_leaf g7 g4 ?_ rfl rfl rfl
            rw [bitsNode_val64 (by omega) _ (Nat.le_refl _), List.take_of_length_le (by simp [bitsId]), hsb']
          · rw [Sh.upd_not, Node.child_setChild_not]
            refine (hch _).frame ?_
            intro x hx
            refine g8 x ?_ ?_
            · rintro rfl
              exact (g2.not_mem ho (hav x (hsub hx)) ((hch _).lt x hx).1).1 (by simp)
            · rintro rfl; exact hich hx
        · intro x hx hx' _
          refine g8 x (by simpa using hx') ?_
          rintro rfl; exact hx (by simp [Sh.idxs])
        · rw [g8 pi (fun h => hjpi h.symm) hpii, hpn, ← hc1, Node.setChild_child]
      · rw [if_neg hc0]
        have hnn : ch e ≠ .nil := fun h => hc0 ((hch e).nil_iff.1 h)
        have hndp : (i :: ((ch e).idxs ++ (ch (!e)).idxs)).Nodup :=
          ((Sh.idxs_perm i p c ch e).nodup_iff).1 hnd
        have hnda := (List.nodup_append.1 (List.nodup_cons.1 hndp).2)
        have hsib : n.child (!e) ≠ n.child e := by
          intro h
          have h5 := ((hch e).mem hnn).1
          by_cases hz : ch (!e) = .nil
          · have := (hch (!e)).nil_iff.1 hz
            rw [this] at h
            exact hc0 h.symm
          · have h6 := ((hch (!e)).mem hz).1
            exact hnda.2.2 _ h5 _ h6 h.symm
        obtain ⟨bb, c', t', s', j, k, c0, used, g1, g2, g3⟩ := ih t i (n.child e) n e (ch e)
          (shiftLeft id p.length) (d - p.length) e dd hL (hch e) hnn (hw.2.2.2 e).2 (by omega)
          (hw.2.2.2 e).1 hsb' (by omega) (by omega) ho hroom (fun x hx => hav x (hsub hx)) hnda.1 hn hich
          hia rfl hsib
        rw [hsb'] at g2
        have hpiu := (g2.alloc.not_mem ho hpia hpilt).1
        refine ⟨bb, c', t', .node i p c (Sh.upd ch e s'), i, k, c0, used, g1,
          ⟨.down _ _ _ _ _ _ _ _ _ _ _ h3 g2.addR, ?_, g2.vals, g2.cnt, g2.alloc, ?_⟩, ?_⟩
        · refine ⟨rfl, hi0, _, g3, by simp [hbn], by simp [hcn], ?_⟩
          intro b'
          rcases Sh.eq_or_not e b' with rfl | rfl
          · rw [Sh.upd_same, Node.child_setChild]
            exact g2.rep
          · rw [Sh.upd_not, Node.child_setChild_not]
            refine (hch _).frame ?_
            intro x hx
            refine g2.frame x ?_ ?_ ?_
            · intro hx'
              exact hnda.2.2 _ hx' _ hx rfl
            · exact (g2.alloc.not_mem ho (hav x (hsub hx)) ((hch _).lt x hx).1).1
            · rintro rfl; exact hich hx
        · intro x hx hx' _
          refine g2.frame x (fun h => hx (hsub h)) hx' ?_
          rintro rfl; exact hx (by simp [Sh.idxs])
        · rw [g2.frame pi (fun h => hpi (hsub h)) hpiu hpii, hpn, ← hc1, Node.setChild_child]
    · -- split
      rw [if_neg (by omega), if_neg (by omega)]
      obtain ⟨q, t0, f1, f2, f3, f4, f5, f6⟩ := newNode_spec ho (by omega) (MyId.val64 id) (lcp p (bitsId id))
      simp only [f1, Out.bind_ok]
      obtain ⟨hsb, hsl⟩ := bitsId_shiftLeft (by omega) id (m := lcp p (bitsId id)) (by omega) (by omega)
      obtain ⟨j, t1, g1, g2, g3, g4, g5⟩ := newLeaf_spec f2.ok (by omega)
        (shiftLeft id (lcp p (bitsId id))) val m u
      simp only [g1, Out.bind_ok]
      have hall := f2.trans g2
      simp only [List.cons_append, List.nil_append] at hall
      have hqj : q ≠ j := fun h =>
        (g2.not_mem f2.ok (f2.mem ho (x := q) (by simp)).2.2.2 (f2.mem ho (x := q) (by simp)).2.1).1 (by simp [h])
      have hold : ∀ x, x ∉ t.avail → x < t.nodes.length → x ≠ q ∧ x ≠ j := by
        intro x h1 h2
        have := (hall.not_mem ho h1 h2).1
        simpa using this
      have hj0 := (hall.mem ho (x := j) (by simp)).1
      have hq0 := (hall.mem ho (x := q) (by simp)).1
      obtain ⟨hiq, hij⟩ := hold i hia hilt
      obtain ⟨hpiq, hpij⟩ := hold pi hpia hpilt
      have hsl' := bitsNode_shiftLength (W := P.W) (by omega) n (m := lcp p (bitsId id)) (by omega) (by omega)
      have hn1 : (t1.upd i (shiftLength (lcp p (bitsId id)))).nodes[i]? =
          some (shiftLength (lcp p (bitsId id)) n) := by
        rw [getElem?_upd, g5 i hij, f6 i hiq, hn]; simp
      have hbn1 : bitsNode P.W (shiftLength (lcp p (bitsId id)) n) = e :: dd := by
        rw [hsl'.1, hbn, hml]
        conv => lhs; rw [h3]
        simp
      have hl : isLeftBitSet P.W (shiftLength (lcp p (bitsId id)) n).id = e := by
        have := isLeftBitSet_eq (W := P.W) (by omega) (shiftLength (lcp p (bitsId id)) n)
          (by rw [hsl'.2]; omega) (by rw [hsl'.2]; omega)
        rw [hbn1] at this
        simpa using this.symm
      have hlf : (t1.upd i (shiftLength (lcp p (bitsId id)))).isLeft
          (shiftLength (lcp p (bitsId id)) n).id = .ok e := by
        unfold Tree.isLeft
        rw [leftFn_upd, g2.leftFn, f2.leftFn, hL]
        simp [hl]
      simp only [node_eq hn1, Out.bind_ok, hlf]
      have hbl : bitsId (shiftLeft id (lcp p (bitsId id))) = (!e) :: ee := by
        rw [hsb, hml]
        conv => lhs; rw [h4]
        simp
      generalize hk : lcp p (bitsId id) = k at *
      have hpn2 : ((t1.upd i (shiftLength k)).upd q (fun n => (n.setChild e i).setChild (!e) j)).nodes[pi]? =
          some pn := by
        rw [getElem?_upd, if_neg hpiq, getElem?_upd, if_neg hpii, g5 pi hpij, f6 pi hpiq, hpn]
      rw [relink_spec hpn2 hc1 hc2]
      simp only [Out.bind_ok]
      have hjn : (((t1.upd i (shiftLength k)).upd q (fun n => (n.setChild e i).setChild (!e) j)).upd pi
          (fun n => n.setChild pb q)).nodes[j]? =
          some (⟨0, 0, MyId.val64 (shiftLeft id k), (shiftLeft id k).len, 1⟩ : Node) := by
        rw [getElem?_upd, if_neg (fun h => hpij h.symm), getElem?_upd, if_neg (fun h => hqj h.symm),
          getElem?_upd, if_neg (fun h => hij h.symm), g4]
      have hqn : (((t1.upd i (shiftLength k)).upd q (fun n => (n.setChild e i).setChild (!e) j)).upd pi
          (fun n => n.setChild pb q)).nodes[q]? =
          some (((⟨0, 0, MyId.val64 id, k, 0⟩ : Node).setChild e i).setChild (!e) j) := by
        rw [getElem?_upd, if_neg (fun h => hpiq h.symm), getElem?_upd, if_pos rfl,
          getElem?_upd, if_neg (fun h => hiq h.symm), g5 q hqj, f5]
        rfl
      rw [count_spec hjn]
      refine ⟨_, _, _, .node q mm 0 (Sh.upd (Sh.upd (fun _ => .nil) (!e) (.node j ((!e) :: ee) 1 (fun _ => .nil)))
          e (.node i (e :: dd) c ch)), q, j, 0, [q, j], rfl, ⟨?_, ?_, ?_, ?_, ?_, ?_⟩, ?_⟩
      · exact .split _ _ _ _ _ _ _ _ _ _ _ h3 h4 hm0
      · refine ⟨rfl, by omega, _, hqn, ?_, by simp, ?_⟩
        · rw [bitsNode_setChild, bitsNode_setChild, bitsNode_val64 (by omega) id (by omega), hml, h4]
          simp
        · intro b'
          rcases Sh.eq_or_not e b' with rfl | rfl
          · rw [Sh.upd_same]
            have e3 := Node.child_setChild_not ((⟨0, 0, MyId.val64 id, k, 0⟩ : Node).setChild b' i) (!b') j
            rw [Bool.not_not, Node.child_setChild] at e3
            rw [e3]
            refine ⟨rfl, hi0, shiftLength k n, ?_, hbn1, hcn, ?_⟩
            · rw [getElem?_upd, if_neg (fun h => hpii h.symm), getElem?_upd, if_neg hiq, hn1]
            · intro b
              refine (hch b).frame ?_
              intro x hx
              have hx1 : x ≠ pi := by rintro rfl; exact hpi (hsub hx)
              have hx2 : x ≠ i := by rintro rfl; exact hich hx
              obtain ⟨hx3, hx4⟩ := hold x (hav x (hsub hx)) ((hch b).lt x hx).1
              rw [getElem?_upd, if_neg hx1, getElem?_upd, if_neg hx3, getElem?_upd, if_neg hx2, g5 x hx4,
                f6 x hx3]
          · rw [Sh.upd_not, Sh.upd_same, Node.child_setChild]
            refine rep_leaf (by omega) hjn ?_ rfl rfl rfl
            rw [bitsNode_val64 (by omega) _ (Nat.le_refl _), List.take_of_length_le (by simp [bitsId]), hbl]
      · rw [f4] at g3
        have : t0.key j = t.key j := by unfold Tree.key; rw [f2.length]
        rw [this] at g3
        exact g3
      · simp
      · exact hall.same (by simp) rfl rfl rfl rfl
      · intro x hx hx' hx''
        have hx2 : x ≠ i := by rintro rfl; exact hx (by simp [Sh.idxs])
        simp only [List.mem_cons, List.not_mem_nil, or_false, not_or] at hx'
        rw [getElem?_upd, if_neg hx'', getElem?_upd, if_neg hx'.1, getElem?_upd, if_neg hx2, g5 x hx'.2,
          f6 x hx'.1]
      · rw [getElem?_upd, if_pos rfl, hpn2]; rfl

/-! ### The whole tree -/

/-- the invariant of a tree of width `W` with shape `s` -/
structure Inv (W : Nat) (t : Tree T) (s : Sh) : Prop where
  leftFn : t.leftFn = some W
  length : t.length = W
  rep : Rep W t.nodes s 1
  wf : Sh.WfRoot W s
  perm : (s.idxs ++ t.avail).Perm (List.range' 1 (t.nodes.length - 1))
  cap : t.nodes.length ≤ t.cap
  stale : Stale t.nodes t.avail
  zero : t.nodes[0]? = some default

theorem Inv.new (P : Pkg) : Inv P.W (newTree P : Tree T) (.node 1 [] 0 (fun _ => .nil)) := by
  refine ⟨rfl, rfl, ⟨rfl, by decide, _, rfl, rfl, rfl, ?_⟩, ⟨rfl, rfl, fun _ => ⟨trivial, trivial⟩⟩, ?_, ?_, ?_, rfl⟩
  · intro b; cases b <;> rfl
  · exact .refl _
  · exact Nat.le_refl _
  · intro pre k suf h
    simp [newTree] at h

theorem Inv.nodup {W : Nat} {t : Tree T} {s : Sh} (h : Inv W t s) : (s.idxs ++ t.avail).Nodup := by
  rw [h.perm.nodup_iff]; exact List.nodup_range'

theorem Inv.pos {W : Nat} {t : Tree T} {s : Sh} (h : Inv W t s) : 1 < t.nodes.length := by
  have := h.wf
  cases s with
  | nil => exact this.elim
  | node i p c ch =>
    obtain ⟨h1, h2, n, h3, _⟩ := h.rep
    exact (List.getElem?_eq_some_iff.1 h3).1

theorem Inv.allocOk {W : Nat} {t : Tree T} {s : Sh} (h : Inv W t s) : AllocOk t := by
  have hp := h.pos
  refine ⟨h.cap, by omega, ?_, (List.nodup_append.1 h.nodup).2.1⟩
  intro x hx
  have : x ∈ List.range' 1 (t.nodes.length - 1) := h.perm.mem_iff.1 (by simp [hx])
  rw [List.mem_range'_1] at this
  omega

/-- the invariant after an allocation -/
theorem Inv.alloc {W : Nat} {t t' : Tree T} {s s' : Sh} {u : List Nat} (h : Inv W t s)
    (ha : Alloc t t' u) (hs : s'.idxs.Perm (s.idxs ++ u)) (hr : Rep W t'.nodes s' 1)
    (hw : Sh.WfRoot W s') (hf : ∀ x, x ∉ s.idxs → x ∉ u → t'.nodes[x]? = t.nodes[x]?) : Inv W t' s' := by
  have hp := h.pos
  have hle := ha.le
  refine ⟨ha.leftFn.trans h.leftFn, ha.length.trans h.length, hr, hw, ?_, ha.ok.cap, ?_, ?_⟩
  rotate_left
  · obtain ⟨d, hd⟩ := ha.pre
    refine h.stale.take hd ha.le fun x hx => hf x ?_ ?_
    · intro hx'
      exact (List.nodup_append.1 h.nodup).2.2 x hx' x (by rw [hd]; simp [hx]) rfl
    · intro hx'
      exact (ha.mem h.allocOk hx').2.2.2 hx
  · rw [hf 0 (fun hx => by have := (h.rep.lt 0 hx).2; omega) (fun hx => by have := (ha.mem h.allocOk hx).1; omega)]
    exact h.zero
  refine (hs.append_right _).trans ?_
  rw [List.append_assoc]
  refine (ha.perm.append_left _).trans ?_
  rw [← List.append_assoc]
  refine (h.perm.append_right _).trans ?_
  have := List.range'_append (s := 1) (m := t.nodes.length - 1)
    (n := t'.nodes.length - t.nodes.length) (step := 1)
  rw [show 1 + 1 * (t.nodes.length - 1) = t.nodes.length by omega,
    show t.nodes.length - 1 + (t'.nodes.length - t.nodes.length) = t'.nodes.length - 1 by omega] at this
  rw [this]

theorem room_grow (t : Tree T) (h : t.nodes.length ≤ t.cap) : 2 ≤ room t.grow := by
  unfold Tree.grow room
  split
  · simp only; omega
  · omega

theorem Inv.grow {W : Nat} {t : Tree T} {s : Sh} (h : Inv W t s) : Inv W t.grow s := by
  have : t.grow.nodes = t.nodes ∧ t.grow.leftFn = t.leftFn ∧ t.grow.length = t.length ∧
      t.grow.avail = t.avail ∧ t.cap ≤ t.grow.cap := by
    unfold Tree.grow
    split
    · refine ⟨rfl, rfl, rfl, rfl, ?_⟩
      simp only; omega
    · exact ⟨rfl, rfl, rfl, rfl, Nat.le_refl _⟩
  obtain ⟨h1, h2, h3, h4, h5⟩ := this
  exact ⟨by rw [h2]; exact h.leftFn, by rw [h3]; exact h.length, by rw [h1]; exact h.rep, h.wf,
    by rw [h1, h4]; exact h.perm, by rw [h1]; exact Nat.le_trans h.cap h5, by rw [h1, h4]; exact h.stale,
    by rw [h1]; exact h.zero⟩

/-- `add`, with the two sides in one -/
theorem add_eq (t : Tree T) (id : MyId P) (val : T) (m : Option (T → T → Bool)) (u : Option (T → T))
    (root : Node) (h : t.grow.nodes[1]? = some root) :
    t.add id val m u =
      (if id.len = 0 then do
        let (b, t) ← t.grow.addVal val 1 m u
        t.count b 1
      else if root.child (leftBit id) = 0 then do
        let (j, b, t') ← t.grow.newLeaf id val m u
        let t' := t'.upd 1 (fun n => n.setChild (leftBit id) j)
        t'.count b j
      else addLoop val m u (id.len + 1) t.grow 1 (root.child (leftBit id)) id) := by
  unfold Tree.add
  simp only [node_eq h, Out.bind_ok]
  split
  · rfl
  · cases leftBit id <;> rfl

theorem valStep_pos {vals vals' : GoMap (BitVec 64) T} {key : BitVec 64} {c : Nat} {val : T}
    {m : Option (T → T → Bool)} {u : Option (T → T)} {b : Bool}
    (h : (b, vals') = valStep vals key c val m u) : c + b.toNat ≠ 0 := by
  cases c with
  | zero =>
    rw [valStep_zero] at h
    cases h
    simp
  | succ c => omega

theorem add_spec_order (hP : WidthOk P.W) {t : Tree T} {s : Sh} (h : Inv P.W t s) (id : MyId P)
    (hid : id.len ≤ P.W) (val : T) (m : Option (T → T → Bool)) (u : Option (T → T)) :
    ∃ bb c' t' s' k c0 used, t.add id val m u = .ok (bb, c', t') ∧ c' ≠ 0 ∧
      Sh.AddR c' s (bitsId id) s' k c0 used ∧ Inv P.W t' s' ∧
      (bb, t'.vals) = valStep t.vals (t.key k) c0 val m u ∧ c' = c0 + bb.toNat ∧
      (t'.nodes.length = t.nodes.length ∨ t'.avail = []) ∧ t.nodes.length ≤ t'.nodes.length ∧
      t'.cap = t.grow.cap ∧ (∀ x, x ∉ s.idxs → x ∉ used → t'.nodes[x]? = t.nodes[x]?) ∧
      (t.avail = [] → t'.avail = [] ∧ used = List.range' t.nodes.length (t'.nodes.length - t.nodes.length)) := by
  have hW := hP.le
  have hg := h.grow
  have hgn : t.grow.nodes = t.nodes := by unfold Tree.grow; split <;> rfl
  have hgv : t.grow.vals = t.vals := by unfold Tree.grow; split <;> rfl
  have hgk : ∀ i, t.grow.key i = t.key i := by intro i; unfold Tree.key Tree.grow; split <;> rfl
  have hga : t.grow.avail = t.avail := by unfold Tree.grow; split <;> rfl
  have hroom := room_grow t h.cap
  generalize hgt : t.grow = tg at *
  have ho := hg.allocOk
  have hil : (bitsId id).length = id.len := by simp [bitsId]
  have hnd := hg.nodup
  obtain ⟨hnd1, hnd2, hnd3⟩ := List.nodup_append.1 hnd
  -- the general wrap up
  suffices hmain : ∃ bb c' t' s' k c0 used, t.add id val m u = .ok (bb, c', t') ∧
      AddOut tg P.W s (bitsId id) val m u (fun _ => True) bb c' t' s' 1 k c0 used by
    obtain ⟨bb, c', t', s', k, c0, used, h1, h2⟩ := hmain
    have hv := h2.vals
    rw [hgv, hgk] at hv
    have hc' : c' ≠ 0 := by rw [h2.cnt]; exact valStep_pos hv
    refine ⟨bb, c', t', s', k, c0, used, h1, hc', h2.addR, ?_, hv, h2.cnt, ?_, ?_, h2.alloc.cap, ?_, ?_⟩
    · exact hg.alloc h2.alloc h2.addR.idxs_perm h2.rep (h2.addR.wfRoot hc' (by omega) hg.wf)
        fun x hx hx' => h2.frame x hx hx' trivial
    · rw [← hgn]; exact h2.alloc.grow
    · rw [← hgn]; exact h2.alloc.le
    · intro x hx hx'; rw [← hgn]; exact h2.frame x hx hx' trivial
    · intro ha
      rw [← hga] at ha
      obtain ⟨d, hd⟩ := h2.alloc.pre
      rw [ha] at hd
      exact ⟨(List.append_eq_nil_iff.1 hd.symm).1, by rw [← hgn]; exact h2.alloc.order ha⟩
  cases s with
  | nil => exact hg.wf.elim
  | node i p c ch =>
  obtain ⟨rfl, hi0, root, hn, hbn, hcn, hch⟩ := hg.rep
  obtain ⟨_, rfl, hwf⟩ := hg.wf
  have h1a : 1 ∉ tg.avail := fun h => hnd3 1 (by simp [Sh.idxs]) 1 h rfl
  have hnd' := hnd1
  rw [Sh.idxs_node] at hnd'
  have hich : ∀ {b}, 1 ∉ (ch b).idxs := by
    intro b h
    have := (List.nodup_cons.1 hnd').1
    apply this
    cases b
    · exact List.mem_append_left _ h
    · exact List.mem_append_right _ h
  have hsub : ∀ {b x}, x ∈ (ch b).idxs → x ∈ (Sh.node 1 [] c ch).idxs :=
    fun {b x} h => Sh.mem_idxs_node.2 (.inr ⟨b, h⟩)
  have hav : ∀ {b x}, x ∈ (ch b).idxs → x ∉ tg.avail := fun hx h => hnd3 _ (hsub hx) _ h rfl
  rw [add_eq t id val m u root (by rw [hgt]; exact hn), hgt]
  by_cases hz : id.len = 0
  · rw [if_pos hz]
    simp only [addVal_eq hn, Out.bind_ok]
    have hnode : (afterAdd tg 1 (valStep tg.vals (tg.key 1) root.cnt val m u)).nodes[1]? = some
        { root with cnt := root.cnt + (valStep tg.vals (tg.key 1) root.cnt val m u).1.toNat } := by
      rw [getElem?_afterAdd]; simp [hn]
    rw [count_spec hnode]
    refine ⟨_, _, _, .node 1 [] (root.cnt + (valStep tg.vals (tg.key 1) root.cnt val m u).1.toNat) ch, 1,
      root.cnt, [], rfl, ⟨?_, ?_, rfl, rfl, ?_, ?_⟩⟩
    · have : bitsId id = [] := List.length_eq_zero_iff.1 (by omega)
      rw [this, ← hcn]
      exact .here ..
    · refine ⟨rfl, hi0, _, hnode, hbn, rfl, ?_⟩
      intro b
      refine (hch b).frame ?_
      intro x hx
      rw [getElem?_afterAdd, if_neg]
      rintro rfl
      exact hich hx
    · exact (Alloc.refl ho).same (by simp [afterAdd]) rfl rfl rfl rfl
    · intro x hx _ _
      rw [getElem?_afterAdd, if_neg]
      rintro rfl
      exact hx (by simp [Sh.idxs])
  · rw [if_neg hz]
    have hhd := leftBit_eq (by omega) id (by omega)
    cases hbi : bitsId id with
    | nil => rw [hbi] at hil; simp at hil; omega
    | cons e dd =>
    rw [hbi] at hhd
    have hlb : leftBit id = e := by simpa using hhd.symm
    rw [hlb]
    by_cases hc0 : root.child e = 0
    · rw [if_pos hc0]
      have hnil : ch e = .nil := (hch e).nil_iff.2 hc0
      obtain ⟨j, t', g1, g2, g3, g4, g5, g6, g7, g8⟩ :=
        leafChild_spec ho (by omega) (b := e) hn h1a id val m u
      refine ⟨_, _, _, .node 1 [] c (Sh.upd ch e (.node j (e :: dd) 1 (fun _ => .nil))), j, 0, [j],
        g1, ⟨?_, ?_, g3, by simp, g2, ?_⟩⟩
      · refine .down _ _ _ _ _ _ _ _ _ _ _ rfl ?_
        rw [hnil]
        exact .leaf ..
      · refine ⟨rfl, hi0, _, g5, by simp [hbn], by simp [hcn], ?_⟩
        intro b'
        rcases Sh.eq_or_not e b' with rfl | rfl
        · rw [Sh.upd_same, Node.child_setChild]
          refine rep_leaf g7 g4 ?_ rfl rfl rfl
          rw [bitsNode_val64 (by omega) _ (Nat.le_refl _), List.take_of_length_le (by omega), hbi]
        · rw [Sh.upd_not, Node.child_setChild_not]
          refine (hch _).frame ?_
          intro x hx
          refine g8 x ?_ ?_
          · rintro rfl
            exact (g2.not_mem ho (hav hx) ((hch _).lt x hx).1).1 (by simp)
          · rintro rfl; exact hich hx
      · intro x hx hx' _
        refine g8 x (by simpa using hx') ?_
        rintro rfl; exact hx (by simp [Sh.idxs])
    · rw [if_neg hc0]
      have hnn : ch e ≠ .nil := fun h => hc0 ((hch e).nil_iff.1 h)
      have hndp : (1 :: ((ch e).idxs ++ (ch (!e)).idxs)).Nodup :=
        ((Sh.idxs_perm 1 [] c ch e).nodup_iff).1 hnd1
      have hnda := (List.nodup_append.1 (List.nodup_cons.1 hndp).2)
      have hsib : root.child (!e) ≠ root.child e := by
        intro h
        have h5 := ((hch e).mem hnn).1
        by_cases hz : ch (!e) = .nil
        · have := (hch (!e)).nil_iff.1 hz
          rw [this] at h
          exact hc0 h.symm
        · have h6 := ((hch (!e)).mem hz).1
          exact hnda.2.2 _ h5 _ h6 h.symm
      obtain ⟨bb, c', t', s', j, k, c0, used, g1, g2, g3⟩ := addLoop_spec hP val m u (id.len + 1) tg 1
        (root.child e) root e (ch e) id P.W e dd hg.leftFn (hch e) hnn (hwf e).2 (Nat.le_refl _)
        (hwf e).1 hbi (by omega) (by omega) ho hroom (fun x hx => hav hx) hnda.1 hn hich
        h1a rfl hsib
      rw [hbi] at g2
      refine ⟨bb, c', t', .node 1 [] c (Sh.upd ch e s'), k, c0, used, g1,
        ⟨.down _ _ _ _ _ _ _ _ _ _ _ rfl g2.addR, ?_, g2.vals, g2.cnt, g2.alloc, ?_⟩⟩
      · refine ⟨rfl, hi0, _, g3, by simp [hbn], by simp [hcn], ?_⟩
        intro b'
        rcases Sh.eq_or_not e b' with rfl | rfl
        · rw [Sh.upd_same, Node.child_setChild]
          exact g2.rep
        · rw [Sh.upd_not, Node.child_setChild_not]
          refine (hch _).frame ?_
          intro x hx
          refine g2.frame x ?_ ?_ ?_
          · intro hx'
            exact hnda.2.2 _ hx' _ hx rfl
          · exact (g2.alloc.not_mem ho (hav hx) ((hch _).lt x hx).1).1
          · rintro rfl; exact hich hx
      · intro x hx hx' _
        refine g2.frame x (fun h => hx (hsub h)) hx' ?_
        rintro rfl; exact hx (by simp [Sh.idxs])

theorem add_spec_frame (hP : WidthOk P.W) {t : Tree T} {s : Sh} (h : Inv P.W t s) (id : MyId P)
    (hid : id.len ≤ P.W) (val : T) (m : Option (T → T → Bool)) (u : Option (T → T)) :
    ∃ bb c' t' s' k c0 used, t.add id val m u = .ok (bb, c', t') ∧ c' ≠ 0 ∧
      Sh.AddR c' s (bitsId id) s' k c0 used ∧ Inv P.W t' s' ∧
      (bb, t'.vals) = valStep t.vals (t.key k) c0 val m u ∧ c' = c0 + bb.toNat ∧
      (t'.nodes.length = t.nodes.length ∨ t'.avail = []) ∧ t.nodes.length ≤ t'.nodes.length ∧
      t'.cap = t.grow.cap ∧ ∀ x, x ∉ s.idxs → x ∉ used → t'.nodes[x]? = t.nodes[x]? := by
  obtain ⟨bb, c', t', s', k, c0, used, h1, h2, h3, h4, h5, h6, h7, h8, h9, h10, _⟩ :=
    add_spec_order hP h id hid val m u
  exact ⟨bb, c', t', s', k, c0, used, h1, h2, h3, h4, h5, h6, h7, h8, h9, h10⟩

theorem add_spec_cap (hP : WidthOk P.W) {t : Tree T} {s : Sh} (h : Inv P.W t s) (id : MyId P)
    (hid : id.len ≤ P.W) (val : T) (m : Option (T → T → Bool)) (u : Option (T → T)) :
    ∃ bb c' t' s' k c0 used, t.add id val m u = .ok (bb, c', t') ∧ c' ≠ 0 ∧
      Sh.AddR c' s (bitsId id) s' k c0 used ∧ Inv P.W t' s' ∧
      (bb, t'.vals) = valStep t.vals (t.key k) c0 val m u ∧ c' = c0 + bb.toNat ∧
      (t'.nodes.length = t.nodes.length ∨ t'.avail = []) ∧ t.nodes.length ≤ t'.nodes.length ∧
      t'.cap = t.grow.cap := by
  obtain ⟨bb, c', t', s', k, c0, used, h1, h2, h3, h4, h5, h6, h7, h8, h9, _⟩ := add_spec_frame hP h id hid val m u
  exact ⟨bb, c', t', s', k, c0, used, h1, h2, h3, h4, h5, h6, h7, h8, h9⟩

theorem add_spec (hP : WidthOk P.W) {t : Tree T} {s : Sh} (h : Inv P.W t s) (id : MyId P)
    (hid : id.len ≤ P.W) (val : T) (m : Option (T → T → Bool)) (u : Option (T → T)) :
    ∃ bb c' t' s' k c0 used, t.add id val m u = .ok (bb, c', t') ∧ c' ≠ 0 ∧
      Sh.AddR c' s (bitsId id) s' k c0 used ∧ Inv P.W t' s' ∧
      (bb, t'.vals) = valStep t.vals (t.key k) c0 val m u ∧ c' = c0 + bb.toNat ∧
      (t'.nodes.length = t.nodes.length ∨ t'.avail = []) ∧ t.nodes.length ≤ t'.nodes.length := by
  obtain ⟨bb, c', t', s', k, c0, used, h1, h2, h3, h4, h5, h6, h7, h8, _⟩ := add_spec_cap hP h id hid val m u
  exact ⟨bb, c', t', s', k, c0, used, h1, h2, h3, h4, h5, h6, h7, h8⟩

end Verif.Tree
