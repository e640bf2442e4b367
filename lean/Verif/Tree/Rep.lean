import Verif.Tree.Bits
import Verif.Tree.Shape

/-! The node array represents a shape; allocation and the primitive steps of `add`. -/

namespace Verif.Tree
open Verif.Id
variable {T : Type} [Inhabited T] {P : Pkg}

@[simp] theorem Out.bind_ok {α β : Type} (a : α) (f : α → Out β) : (Out.ok a >>= f) = f a := rfl
@[simp] theorem Out.pure_eq {α : Type} (a : α) : (pure a : Out α) = .ok a := rfl

/-- the child on side `b` -/
def Node.child (n : Node) (b : Bool) : Nat := if b then n.right else n.left

/-- set the child on side `b` -/
def Node.setChild (n : Node) (b : Bool) (j : Nat) : Node :=
  if b then { n with right := j } else { n with left := j }

@[simp] theorem Node.child_setChild (n : Node) (b : Bool) (j : Nat) : (n.setChild b j).child b = j := by
  cases b <;> rfl
@[simp] theorem Node.child_setChild_not (n : Node) (b : Bool) (j : Nat) :
    (n.setChild b j).child (!b) = n.child (!b) := by
  cases b <;> rfl
theorem Node.setChild_child (n : Node) (b : Bool) : n.setChild b (n.child b) = n := by
  cases b <;> rfl
@[simp] theorem Node.setChild_len (n : Node) (b : Bool) (j : Nat) : (n.setChild b j).len = n.len := by
  cases b <;> rfl
@[simp] theorem Node.setChild_id (n : Node) (b : Bool) (j : Nat) : (n.setChild b j).id = n.id := by
  cases b <;> rfl
@[simp] theorem Node.setChild_cnt (n : Node) (b : Bool) (j : Nat) : (n.setChild b j).cnt = n.cnt := by
  cases b <;> rfl
@[simp] theorem bitsNode_setChild (W : Nat) (n : Node) (b : Bool) (j : Nat) :
    bitsNode W (n.setChild b j) = bitsNode W n := by cases b <;> rfl

/-- `ns` holds the subtree `s` at index `i` -/
def Rep (W : Nat) (ns : List Node) : Sh → Nat → Prop
  | .nil, i => i = 0
  | .node j p c ch, i => i = j ∧ i ≠ 0 ∧ ∃ n, ns[i]? = some n ∧ bitsNode W n = p ∧ n.cnt = c ∧
      ∀ b, Rep W ns (ch b) (n.child b)

theorem Rep.mem {W : Nat} {ns : List Node} {s : Sh} {i : Nat} (h : Rep W ns s i) (hs : s ≠ .nil) :
    i ∈ s.idxs ∧ i ≠ 0 := by
  cases s with
  | nil => exact absurd rfl hs
  | node j p c ch => exact ⟨by rw [h.1]; simp [Sh.idxs], h.2.1⟩

theorem Rep.nil_iff {W : Nat} {ns : List Node} {s : Sh} {i : Nat} (h : Rep W ns s i) :
    s = .nil ↔ i = 0 := by
  cases s with
  | nil => simp only [true_iff]; exact h
  | node j p c ch => simp only [reduceCtorEq, false_iff]; exact h.2.1

/-- only the nodes of the subtree matter -/
theorem Rep.frame {W : Nat} {ns ns' : List Node} : ∀ {s : Sh} {i : Nat}, Rep W ns s i →
    (∀ x ∈ s.idxs, ns'[x]? = ns[x]?) → Rep W ns' s i := by
  intro s
  induction s with
  | nil => intro i h _; exact h
  | node j p c ch ih =>
    intro i h hf
    obtain ⟨h1, h2, n, h3, h4, h5, h6⟩ := h
    refine ⟨h1, h2, n, ?_, h4, h5, fun b => ih b (h6 b) ?_⟩
    · rw [← h3]; exact hf i (by rw [h1]; simp [Sh.idxs])
    · intro x hx
      exact hf x (Sh.mem_idxs_node.2 (.inr ⟨b, hx⟩))

theorem Rep.lt {W : Nat} {ns : List Node} : ∀ {s : Sh} {i : Nat}, Rep W ns s i →
    ∀ x ∈ s.idxs, x < ns.length ∧ x ≠ 0 := by
  intro s
  induction s with
  | nil => intro i _ x hx; simp [Sh.idxs] at hx
  | node j p c ch ih =>
    intro i h x hx
    obtain ⟨h1, h2, n, h3, h4, h5, h6⟩ := h
    rcases Sh.mem_idxs_node.1 hx with rfl | ⟨b, hx⟩
    · rw [← h1]
      exact ⟨(List.getElem?_eq_some_iff.1 h3).1, h2⟩
    · exact ih b (h6 b) x hx

theorem Rep.len {W : Nat} {n : Node} {p : List Bool} (h : bitsNode W n = p) : n.len = p.length := by
  rw [← h, bitsNode, length_bitsOf]

/-! ### Array updates -/

theorem getElem?_upd (t : Tree T) (i x : Nat) (f : Node → Node) :
    (t.upd i f).nodes[x]? = if x = i then (t.nodes[i]?).map f else t.nodes[x]? := by
  unfold Tree.upd
  simp only [List.getElem?_modify]
  by_cases h : x = i
  · subst h; simp
  · have : ¬ i = x := fun e => h e.symm
    simp [h, this]

@[simp] theorem length_upd (t : Tree T) (i : Nat) (f : Node → Node) :
    (t.upd i f).nodes.length = t.nodes.length := by simp [Tree.upd]
@[simp] theorem avail_upd (t : Tree T) (i : Nat) (f : Node → Node) : (t.upd i f).avail = t.avail := rfl
@[simp] theorem cap_upd (t : Tree T) (i : Nat) (f : Node → Node) : (t.upd i f).cap = t.cap := rfl
@[simp] theorem vals_upd (t : Tree T) (i : Nat) (f : Node → Node) : (t.upd i f).vals = t.vals := rfl
@[simp] theorem leftFn_upd (t : Tree T) (i : Nat) (f : Node → Node) : (t.upd i f).leftFn = t.leftFn := rfl
@[simp] theorem tlength_upd (t : Tree T) (i : Nat) (f : Node → Node) : (t.upd i f).length = t.length := rfl

theorem node_eq {t : Tree T} {i : Nat} {n : Node} (h : t.nodes[i]? = some n) : t.node i = .ok n := by
  unfold Tree.node; rw [h]

/-! ### Values -/

/-- the effect of `addVal` on the values of a node with `c` values: whether the number of values
increases, and the new map -/
def valStep (vals : GoMap (BitVec 64) T) (key : BitVec 64) (c : Nat) (val : T)
    (m : Option (T → T → Bool)) (u : Option (T → T)) : Bool × GoMap (BitVec 64) T :=
  let found := match m with
    | none => none
    | some m => findMatch vals key m val c 0
  match found with
  | some j =>
    match u with
    | some u => (false, vals.set (key + BitVec.ofNat 64 j) (u (getV vals (key + BitVec.ofNat 64 j))))
    | none => (false, vals)
  | none => (true, vals.set (key + BitVec.ofNat 64 c) val)

theorem valStep_zero (vals : GoMap (BitVec 64) T) (key : BitVec 64) (val : T)
    (m : Option (T → T → Bool)) (u : Option (T → T)) :
    valStep vals key 0 val m u = (true, vals.set (key + BitVec.ofNat 64 0) val) := by
  unfold valStep
  cases m <;> rfl

/-- the tree after `addVal` -/
def afterAdd (t : Tree T) (i : Nat) (r : Bool × GoMap (BitVec 64) T) : Tree T :=
  { t with vals := r.2, nodes := t.nodes.modify i (fun n => { n with cnt := n.cnt + r.1.toNat }) }

theorem addVal_eq {t : Tree T} {i : Nat} {n : Node} (h : t.nodes[i]? = some n) (val : T)
    (m : Option (T → T → Bool)) (u : Option (T → T)) :
    t.addVal val i m u = .ok ((valStep t.vals (t.key i) n.cnt val m u).1,
      afterAdd t i (valStep t.vals (t.key i) n.cnt val m u)) := by
  have hid : t.nodes.modify i (fun n => { n with cnt := n.cnt + 0 }) = t.nodes := by
    apply List.ext_getElem?
    intro x
    rw [List.getElem?_modify]
    by_cases hx : i = x
    · subst hx; rw [h]; simp
    · simp [hx]
  unfold Tree.addVal valStep afterAdd
  simp only [node_eq h, Out.bind_ok]
  cases m with
  | none => rfl
  | some m =>
    simp only
    cases hf : findMatch t.vals (t.key i) m val n.cnt 0 with
    | none => rfl
    | some j =>
      cases u with
      | none => simp only [Out.pure_eq, Bool.toNat_false, hid]
      | some u => simp only [Out.pure_eq, Bool.toNat_false, hid]

theorem getElem?_afterAdd (t : Tree T) (i x : Nat) (r : Bool × GoMap (BitVec 64) T) :
    (afterAdd t i r).nodes[x]? =
      if x = i then (t.nodes[i]?).map (fun n => { n with cnt := n.cnt + r.1.toNat }) else t.nodes[x]? :=
  getElem?_upd t i x _

/-! ### Allocation -/

/-- the free list and the capacity are sane -/
structure AllocOk (t : Tree T) : Prop where
  cap : t.nodes.length ≤ t.cap
  pos : 0 < t.nodes.length
  avail : ∀ x ∈ t.avail, 0 < x ∧ x < t.nodes.length
  nodup : t.avail.Nodup

/-- The nodes of the free list have no values and keep their old links. `deleteNode` appends to the list and `newNode` takes from its end, so
that these links lead to later nodes of the list or out of it. -/
def Stale (ns : List Node) (av : List Nat) : Prop :=
  ∀ pre k suf, av = pre ++ k :: suf → ∀ n, ns[k]? = some n →
    (∀ b, n.child b = 0 ∨ n.child b ∉ pre ++ [k]) ∧ (∀ b, n.child b < ns.length) ∧ (n.left = n.right → n.left = 0) ∧
    n.cnt = 0

theorem Stale.take {ns ns' : List Node} {av av' d : List Nat} (h : Stale ns av) (hd : av = av' ++ d)
    (hl : ns.length ≤ ns'.length) (hf : ∀ x ∈ av', ns'[x]? = ns[x]?) : Stale ns' av' := by
  rintro pre k suf rfl n hn
  rw [hf k (by simp)] at hn
  obtain ⟨h1, h2, h3⟩ := h pre k (suf ++ d) (by rw [hd]; simp) n hn
  exact ⟨h1, fun b => Nat.lt_of_lt_of_le (h2 b) hl, h3⟩

theorem Stale.give {ns ns' : List Node} {av fr : List Nat} (h : Stale ns av) (hl : ns'.length = ns.length)
    (hf : ∀ x ∈ av, ns'[x]? = ns[x]?) (hfr : ∀ x ∈ fr, ∀ n, ns'[x]? = some n →
      (∀ b, n.child b = 0 ∨ n.child b ∉ av ++ fr) ∧ (∀ b, n.child b < ns'.length) ∧
        (n.left = n.right → n.left = 0) ∧ n.cnt = 0) :
    Stale ns' (av ++ fr) := by
  intro pre k suf he n hn
  rcases List.append_eq_append_iff.1 he with ⟨as, h1, h2⟩ | ⟨bs, h1, h2⟩
  · obtain ⟨g1, g2, g3⟩ := hfr k (by rw [h2]; simp) n hn
    refine ⟨fun b => (g1 b).imp id fun hm hm' => hm ?_, g2, g3⟩
    rw [he]
    rcases List.mem_append.1 hm' with hm' | hm'
    · simp [hm']
    · simp [List.mem_singleton.1 hm']
  · cases bs with
    | nil =>
      simp only [List.append_nil, List.nil_append] at h1 h2
      obtain ⟨g1, g2, g3⟩ := hfr k (by rw [← h2]; simp) n hn
      refine ⟨fun b => (g1 b).imp id fun hm hm' => hm ?_, g2, g3⟩
      rw [he]
      rcases List.mem_append.1 hm' with hm' | hm'
      · simp [hm']
      · simp [List.mem_singleton.1 hm']
    | cons x bs =>
      injection h2 with h2 h3
      subst h2
      rw [hf k (by rw [h1]; simp)] at hn
      rw [hl]
      exact h pre k bs h1 n hn

/-- how many nodes can be allocated without moving the array -/
def room (t : Tree T) : Nat := t.avail.length + (t.cap - t.nodes.length)

/-- from `t` to `t'` the nodes `u` were allocated -/
structure Alloc (t t' : Tree T) (u : List Nat) : Prop where
  perm : (u ++ t'.avail).Perm (t.avail ++ List.range' t.nodes.length (t'.nodes.length - t.nodes.length))
  le : t.nodes.length ≤ t'.nodes.length
  ok : AllocOk t'
  cap : t'.cap = t.cap
  leftFn : t'.leftFn = t.leftFn
  length : t'.length = t.length
  /-- the array only grows when the free list is used up -/
  grow : t'.nodes.length = t.nodes.length ∨ t'.avail = []
  /-- nodes are taken from the end of the free list -/
  pre : ∃ d, t.avail = t'.avail ++ d
  /-- with an empty free list the new nodes are at the end of the array, in order -/
  order : t.avail = [] → u = List.range' t.nodes.length (t'.nodes.length - t.nodes.length)

theorem Alloc.mem {t t' : Tree T} {u : List Nat} (h : Alloc t t' u) (ho : AllocOk t) {x : Nat}
    (hx : x ∈ u) : 0 < x ∧ x < t'.nodes.length ∧ (x ∈ t.avail ∨ t.nodes.length ≤ x) ∧
      x ∉ t'.avail := by
  have h1 : x ∈ t.avail ++ List.range' t.nodes.length (t'.nodes.length - t.nodes.length) :=
    h.perm.mem_iff.1 (by simp [hx])
  have hnd : (u ++ t'.avail).Nodup := by
    rw [h.perm.nodup_iff, List.nodup_append]
    refine ⟨ho.nodup, List.nodup_range', ?_⟩
    intro a ha b hb hab
    have h1 := (ho.avail a ha).2
    rw [List.mem_range'_1] at hb
    omega
  have h4 : x ∉ t'.avail := by
    rw [List.nodup_append] at hnd
    intro hx'
    exact hnd.2.2 x hx x hx' rfl
  have hle := h.le
  rcases List.mem_append.1 h1 with h2 | h2
  · have := ho.avail x h2
    exact ⟨this.1, by omega, .inl h2, h4⟩
  · rw [List.mem_range'_1] at h2
    have := ho.pos
    exact ⟨by omega, by omega, .inr h2.1, h4⟩

/-- allocating leaves alone what was neither free nor new -/
theorem Alloc.not_mem {t t' : Tree T} {u : List Nat} (h : Alloc t t' u) (ho : AllocOk t) {x : Nat}
    (h1 : x ∉ t.avail) (h2 : x < t.nodes.length) : x ∉ u ∧ x ∉ t'.avail := by
  have : x ∉ u ++ t'.avail := by
    intro hx
    have := h.perm.mem_iff.1 hx
    rcases List.mem_append.1 this with h3 | h3
    · exact h1 h3
    · rw [List.mem_range'_1] at h3; omega
  simp only [List.mem_append, not_or] at this
  exact this

theorem Alloc.refl {t : Tree T} (h : AllocOk t) : Alloc t t [] :=
  ⟨by simp, Nat.le_refl _, h, rfl, rfl, rfl, .inl rfl, ⟨[], by simp⟩, by simp⟩

/-- steps that do not touch the allocation -/
theorem Alloc.same {t t' t'' : Tree T} {u : List Nat} (h : Alloc t t' u)
    (h1 : t''.nodes.length = t'.nodes.length) (h2 : t''.avail = t'.avail) (h3 : t''.cap = t'.cap)
    (h4 : t''.leftFn = t'.leftFn) (h5 : t''.length = t'.length) : Alloc t t'' u := by
  refine ⟨by rw [h1, h2]; exact h.perm, by rw [h1]; exact h.le, ?_, by rw [h3]; exact h.cap,
    by rw [h4]; exact h.leftFn, by rw [h5]; exact h.length, by rw [h1, h2]; exact h.grow, by rw [h2]; exact h.pre,
    by rw [h1]; exact h.order⟩
  exact ⟨by rw [h1, h3]; exact h.ok.cap, by rw [h1]; exact h.ok.pos,
    by rw [h1, h2]; exact h.ok.avail, by rw [h2]; exact h.ok.nodup⟩

theorem Alloc.trans {t t' t'' : Tree T} {u u' : List Nat} (h : Alloc t t' u) (h' : Alloc t' t'' u') :
    Alloc t t'' (u ++ u') := by
  have e : List.range' t.nodes.length (t''.nodes.length - t.nodes.length) =
      List.range' t.nodes.length (t'.nodes.length - t.nodes.length) ++
      List.range' t'.nodes.length (t''.nodes.length - t'.nodes.length) := by
    have h1 := h.le
    have h2 := h'.le
    have := List.range'_append (s := t.nodes.length) (m := t'.nodes.length - t.nodes.length)
      (n := t''.nodes.length - t'.nodes.length) (step := 1)
    rw [show t.nodes.length + 1 * (t'.nodes.length - t.nodes.length) = t'.nodes.length by omega,
      show t'.nodes.length - t.nodes.length + (t''.nodes.length - t'.nodes.length) =
        t''.nodes.length - t.nodes.length by omega] at this
    exact this.symm
  refine ⟨?_, Nat.le_trans h.le h'.le, h'.ok, h'.cap.trans h.cap, h'.leftFn.trans h.leftFn,
    h'.length.trans h.length, ?_, ?_, ?_⟩
  · rw [e, List.append_assoc, ← List.append_assoc t.avail]
    refine (h'.perm.append_left u).trans ?_
    rw [← List.append_assoc]
    exact h.perm.append_right _
  · rcases h'.grow with g | g
    · rcases h.grow with f | f
      · exact .inl (g.trans f)
      · right
        have := h'.perm
        rw [f, g] at this
        simp only [Nat.sub_self, List.range'_zero, List.append_nil, List.perm_nil,
          List.append_eq_nil_iff] at this
        exact this.2
    · exact .inr g
  · obtain ⟨d, h1⟩ := h.pre
    obtain ⟨d', h2⟩ := h'.pre
    exact ⟨d' ++ d, by rw [h1, h2, List.append_assoc]⟩
  · intro ha
    obtain ⟨d, h1⟩ := h.pre
    rw [ha] at h1
    have ha' : t'.avail = [] := (List.append_eq_nil_iff.1 h1.symm).1
    rw [e, h.order ha, h'.order ha']

theorem newNode_spec {t : Tree T} (ho : AllocOk t) (hr : 1 ≤ room t) (id : BitVec 64) (len : Nat) :
    ∃ j t', t.newNode id len = .ok (j, t') ∧ Alloc t t' [j] ∧ room t' = room t - 1 ∧
      t'.vals = t.vals ∧ t'.nodes[j]? = some ⟨0, 0, id, len, 0⟩ ∧
      ∀ x, x ≠ j → t'.nodes[x]? = t.nodes[x]? := by
  unfold Tree.newNode
  rcases List.eq_nil_or_concat t.avail with h | ⟨l, j, h⟩
  · simp only [h, List.getLast?_nil]
    unfold room at hr ⊢
    rw [h] at hr
    have hlt : t.nodes.length < t.cap := by simp at hr; omega
    simp only [hlt, if_true, Out.pure_eq]
    refine ⟨_, _, rfl, ⟨?_, ?_, ⟨?_, ?_, ?_, ?_⟩, rfl, rfl, rfl, .inr rfl, ⟨[], by simp [h]⟩, by simp⟩, ?_, rfl, ?_, ?_⟩
    · simp [h]
    · simp
    · simp; omega
    · simp
    · intro x hx
      simp at hx
    · exact List.nodup_nil
    · simp [h]; omega
    · simp
    · intro x hx
      simp only
      by_cases hlt' : x < t.nodes.length
      · rw [List.getElem?_append_left hlt']
      · rw [List.getElem?_eq_none (by simp; omega), List.getElem?_eq_none (by omega)]
  · rw [h]
    have hj : j ∈ t.avail := by rw [h]; simp
    have hj' := ho.avail j hj
    simp only [List.dropLast_concat, List.getLast?_concat, List.concat_eq_append]
    simp only [hj'.2, if_true, Out.pure_eq]
    rw [List.concat_eq_append] at h
    refine ⟨_, _, rfl, ⟨?_, ?_, ⟨?_, ?_, ?_, ?_⟩, rfl, rfl, rfl, .inl ?_, ⟨[j], by simp [h]⟩,
      fun ha => by rw [ha] at h; simp at h⟩, ?_, rfl, ?_, ?_⟩
    · simp only [length_upd, Nat.sub_self, List.range'_zero, List.append_nil, avail_upd, h]
      exact (List.perm_append_singleton j l).symm
    · simp
    · simp only [length_upd, cap_upd]; exact ho.cap
    · simp only [length_upd]; exact ho.pos
    · intro x hx
      simp only [length_upd]
      exact ho.avail x (by rw [h]; simp only [avail_upd] at hx; simp [hx])
    · have := ho.nodup
      rw [h, List.nodup_append] at this
      exact this.1
    · simp
    · unfold room
      simp only [avail_upd, length_upd, cap_upd, h, List.length_append, List.length_singleton]
      omega
    · rw [getElem?_upd]
      simp [List.getElem?_eq_getElem hj'.2]
    · intro x hx
      rw [getElem?_upd]
      simp [hx]

theorem newLeaf_spec {t : Tree T} (ho : AllocOk t) (hr : 1 ≤ room t) (id : MyId P) (val : T)
    (m : Option (T → T → Bool)) (u : Option (T → T)) :
    ∃ j t', t.newLeaf id val m u = .ok (j, true, t') ∧ Alloc t t' [j] ∧
      (true, t'.vals) = valStep t.vals (t.key j) 0 val m u ∧
      t'.nodes[j]? = some ⟨0, 0, MyId.val64 id, id.len, 1⟩ ∧
      ∀ x, x ≠ j → t'.nodes[x]? = t.nodes[x]? := by
  obtain ⟨j, t', h1, h2, h3, h4, h5, h6⟩ := newNode_spec ho hr (MyId.val64 id) id.len
  have hk : t'.key j = t.key j := by unfold Tree.key; rw [h2.length]
  have ha := addVal_eq h5 val m u
  simp only [h4, hk, valStep_zero] at ha
  refine ⟨j, afterAdd t' j (true, t.vals.set (t.key j + BitVec.ofNat 64 0) val), ?_, ?_, ?_, ?_, ?_⟩
  · unfold Tree.newLeaf
    simp only [h1, Out.bind_ok, ha, Out.pure_eq]
  · exact h2.same (by simp [afterAdd]) rfl rfl rfl rfl
  · rw [valStep_zero]; rfl
  · rw [getElem?_afterAdd]; simp [h5]
  · intro x hx
    rw [getElem?_afterAdd]
    simp only [hx, if_false]
    exact h6 x hx

theorem relink_spec {t : Tree T} {pi i : Nat} {pn : Node} {pb : Bool} (h : t.nodes[pi]? = some pn)
    (h1 : pn.child pb = i) (h2 : pn.child (!pb) ≠ i) (j : Nat) (msg : String) :
    t.relink pi i j msg = .ok (t.upd pi (fun n => n.setChild pb j)) := by
  unfold Tree.relink
  simp only [node_eq h, Out.bind_ok]
  cases pb with
  | false =>
    have h1' : pn.left = i := h1
    simp only [h1', if_true, Out.pure_eq]
    rfl
  | true =>
    have h1' : pn.right = i := h1
    have h2' : ¬ pn.left = i := h2
    simp only [h1', h2', if_false, ne_eq, not_true, Out.pure_eq]
    rfl

theorem count_spec {t : Tree T} {i : Nat} {n : Node} (h : t.nodes[i]? = some n) (b : Bool) :
    t.count b i = .ok (b, n.cnt, t) := by
  unfold Tree.count
  simp only [node_eq h, Out.bind_ok, Out.pure_eq]

end Verif.Tree
