import Verif.Tree.AddSpec

/-! `Delete` on the node array does what `DelR` says on the shape. -/

namespace Verif.Tree
open Verif.Id
variable {T : Type} [Inhabited T] {P : Pkg}

/-! ### Values -/

/-- set the values and the number of values of a node -/
def setN (t : Tree T) (i C : Nat) (V : GoMap (BitVec 64) T) : Tree T :=
  { t with vals := V, nodes := t.nodes.modify i (fun n => { n with cnt := C }) }

theorem getElem?_setN (t : Tree T) (i C x : Nat) (V : GoMap (BitVec 64) T) :
    (setN t i C V).nodes[x]? =
      if x = i then (t.nodes[i]?).map (fun n => { n with cnt := C }) else t.nodes[x]? :=
  getElem?_upd t i x _

/-- the effect of putting values back: the new map, number of values, how many were removed and
kept -/
def putBackV (key : BitVec 64) (m : T → T → Bool) (v : T) :
    List T → GoMap (BitVec 64) T → Nat → Nat → Nat → GoMap (BitVec 64) T × Nat × Nat × Nat
  | [], vals, c, d, k => (vals, c, d, k)
  | tag :: buf, vals, c, d, k =>
    if m tag v then putBackV key m v buf vals c (d + 1) k
    else
      let r := valStep vals key c tag (some m) none
      putBackV key m v buf r.2 (c + r.1.toNat) d (k + 1)

theorem modify_modify (l : List Node) (i : Nat) (f g : Node → Node) :
    (l.modify i f).modify i g = l.modify i (fun n => g (f n)) := by
  apply List.ext_getElem?
  intro x
  simp only [List.getElem?_modify]
  by_cases h : i = x
  · subst h; cases l[i]? <;> simp
  · simp [h]

theorem modify_congr {l : List Node} {i : Nat} {n : Node} (h : l[i]? = some n) {f g : Node → Node}
    (hfg : f n = g n) : l.modify i f = l.modify i g := by
  apply List.ext_getElem?
  intro x
  simp only [List.getElem?_modify]
  by_cases hx : i = x
  · subst hx; rw [h]; simp [hfg]
  · simp [hx]

theorem modify_id {l : List Node} {i : Nat} {n : Node} (h : l[i]? = some n) {f : Node → Node}
    (hf : f n = n) : l.modify i f = l := by
  apply List.ext_getElem?
  intro x
  simp only [List.getElem?_modify]
  by_cases hx : i = x
  · subst hx; rw [h]; simp [hf]
  · simp [hx]

theorem putBack_eq (i : Nat) (m : T → T → Bool) (v : T) : ∀ (buf : List T) (t : Tree T) (n : Node) (d k : Nat),
    t.nodes[i]? = some n →
    putBack i m v buf t d k =
      let r := putBackV (t.key i) m v buf t.vals n.cnt d k
      .ok (setN t i r.2.1 r.1, r.2.2.1, r.2.2.2) := by
  intro buf
  induction buf with
  | nil =>
    intro t n d k h
    simp only [putBack, putBackV, setN, Out.pure_eq]
    rw [modify_id h rfl]
  | cons tag buf ih =>
    intro t n d k h
    unfold putBack putBackV
    by_cases hm : m tag v
    · simp only [hm, if_true]
      exact ih t n (d + 1) k h
    · simp only [hm]
      simp only [addVal_eq h, Out.bind_ok]
      have h' : (afterAdd t i (valStep t.vals (t.key i) n.cnt tag (some m) none)).nodes[i]? = some
          { n with cnt := n.cnt + (valStep t.vals (t.key i) n.cnt tag (some m) none).1.toNat } := by
        rw [getElem?_afterAdd]; simp [h]
      simp only [Bool.false_eq_true, if_false]
      rw [ih _ _ d (k + 1) h']
      simp only [setN, afterAdd, Tree.key, modify_modify]

theorem putBackV_none {key : BitVec 64} {m : T → T → Bool} {v : T} : ∀ {buf : List T}
    {vals : GoMap (BitVec 64) T} {c d k : Nat},
    k ≤ (putBackV key m v buf vals c d k).2.2.2 ∧ c ≤ (putBackV key m v buf vals c d k).2.1 ∧
    ((putBackV key m v buf vals c d k).2.2.2 = k →
      (putBackV key m v buf vals c d k).2.1 = c ∧ (putBackV key m v buf vals c d k).1 = vals) ∧
    (k < (putBackV key m v buf vals c d k).2.2.2 → (putBackV key m v buf vals c d k).2.1 ≠ 0) := by
  intro buf
  induction buf with
  | nil => intro vals c d k; simp [putBackV]
  | cons tag buf ih =>
    intro vals c d k
    unfold putBackV
    by_cases hm : m tag v
    · simp only [hm, if_true]
      exact ih
    · simp only [hm, Bool.false_eq_true, if_false]
      obtain ⟨h1, h2, h3, h4⟩ := ih (vals := (valStep vals key c tag (some m) none).2)
        (c := c + (valStep vals key c tag (some m) none).1.toNat) (d := d) (k := k + 1)
      have hpos := valStep_pos (vals := vals) (key := key) (c := c) (val := tag) (m := some m) (u := none)
        (b := (valStep vals key c tag (some m) none).1) (vals' := (valStep vals key c tag (some m) none).2) rfl
      refine ⟨by omega, by omega, fun h => by omega, fun _ => by omega⟩

/-- the effect of `deleteVal` on the values of a node -/
def delVals (vals : GoMap (BitVec 64) T) (key : BitVec 64) (c : Nat) (v : T) (m : T → T → Bool) :
    GoMap (BitVec 64) T × Nat × Nat × Nat :=
  putBackV key m v ((List.range c).map (fun j => getV vals (key + BitVec.ofNat 64 j)))
    (delLoop key c 0 vals) 0 0 0

theorem deleteVal_eq {t : Tree T} {i : Nat} {n : Node} (hi : i ≠ 0) (h : t.nodes[i]? = some n)
    (hc : n.cnt ≠ 0) (v : T) (m : T → T → Bool) :
    t.deleteVal i v m =
      let r := delVals t.vals (t.key i) n.cnt v m
      .ok (setN t i r.2.1 r.1, r.2.2.1, r.2.2.2) := by
  unfold Tree.deleteVal Tree.valsForNode
  simp only [hi, if_false, node_eq h, Out.bind_ok, Out.pure_eq, List.length_map, List.length_range, hc]
  rw [putBack_eq i m v _ _ { n with cnt := 0 } 0 0 (by rw [getElem?_upd]; simp [h])]
  simp only [setN, Tree.upd, Tree.key, modify_modify, delVals]

/-! ### Searching -/

theorem lcp_take_eq {p bits : List Bool} : lcp p bits = p.length ↔ ∃ x, bits = p ++ x := by
  constructor
  · intro h
    have h2 := lcp_take p bits
    rw [h, List.take_length] at h2
    exact ⟨bits.drop p.length, by conv => lhs; rw [← List.take_append_drop p.length bits, ← h2]⟩
  · rintro ⟨x, rfl⟩
    apply Nat.le_antisymm (lcp_le_left _ _)
    rw [le_lcp]
    simp

theorem Sh.not_mem_other {s : Sh} {b : Bool} {pre bs : List Bool} (h : Sh.Starts (!b) s) {x c : Nat} :
    (pre ++ b :: bs, x, c) ∉ s.nodes pre := by
  intro hm
  obtain ⟨y, hy⟩ := Sh.path_child h hm
  exact Sh.append_cons_inj hy

theorem Sh.not_mem_self {i : Nat} {p : List Bool} {c : Nat} {ch : Bool → Sh} {b : Bool} {pre bs : List Bool}
    (hst : ∀ b, Sh.Starts b (ch b))
    (h : ∀ x c, (pre ++ p ++ b :: bs, x, c) ∉ (ch b).nodes (pre ++ p)) (x c' : Nat) :
    (pre ++ p ++ b :: bs, x, c') ∉ (Sh.node i p c ch).nodes pre := by
  rw [Sh.mem_nodes_node]
  rintro (h1 | ⟨b', h1⟩)
  · have := congrArg (fun e => e.1.length) h1
    simp at this
  · rcases Sh.eq_or_not b b' with rfl | rfl
    · exact h _ _ h1
    · exact Sh.not_mem_other (hst _) h1

/-- the search either shows that there is no node for the prefix, or finds it -/
theorem findLoop_spec (hP : WidthOk P.W) {t : Tree T} :
    ∀ (fuel pi i : Nat) (p : List Bool) (c : Nat) (ch : Bool → Sh) (n : Node) (id : MyId P) (d : Nat)
      (b : Bool) (bs : List Bool),
      (∀ b, Rep P.W t.nodes (ch b) (n.child b)) → (∀ b, Sh.Starts b (ch b) ∧ Sh.Wf d (ch b)) → d ≤ P.W →
      bitsId id = b :: bs → id.len ≤ d → id.len < fuel → n.child b = i →
      (findLoop t fuel pi i id = .ok none ∧
        ∀ pre x c', (pre ++ p ++ b :: bs, x, c') ∉ (Sh.node pi p c ch).nodes pre) ∨
      (∃ pi' k, findLoop t fuel pi i id = .ok (some (pi', k)) ∧
        Sh.Path (Sh.node pi p c ch) (p ++ b :: bs) pi' k) := by
  have hW := hP.le
  intro fuel
  induction fuel with
  | zero => intro pi i p c ch n id d b bs _ _ _ _ _ h; omega
  | succ fuel ih =>
    intro pi i p c ch n id d b bs hrep hwf hd hb hlen hfuel hci
    have hil : (bitsId id).length = id.len := by simp [bitsId]
    rw [findLoop]
    by_cases hi : i = 0
    · left
      rw [if_pos hi]
      refine ⟨rfl, ?_⟩
      intro pre x c'
      refine Sh.not_mem_self (fun b => (hwf b).1) ?_ x c'
      have hnil : ch b = .nil := (hrep b).nil_iff.2 (hci.trans hi)
      rw [hnil]
      intro x c h
      simp [Sh.nodes] at h
    · rw [if_neg hi]
      have hr := hrep b
      rw [hci] at hr
      have hw := (hwf b).2
      have hst := (hwf b).1
      cases hs : ch b with
      | nil => exact absurd (hr.nil_iff.1 hs) hi
      | node j q c2 ch2 =>
      rw [hs] at hr hw hst
      obtain ⟨rfl, hi0, n2, hn2, hbn, hcn, hch⟩ := hr
      have hnl : n2.len = q.length := Rep.len hbn
      have hqd : q.length ≤ d := hw.2.1
      have hmc : matchCount n2 id = lcp q (bitsId id) := by
        rw [matchCount_eq (by omega) n2 id (by omega) (by omega), hbn]
      simp only [node_eq hn2, Out.bind_ok, hmc, hnl]
      by_cases hlt : lcp q (bitsId id) < q.length
      · left
        rw [if_pos hlt]
        refine ⟨rfl, ?_⟩
        intro pre x c'
        refine Sh.not_mem_self (fun b => (hwf b).1) ?_ x c'
        rw [hs]
        intro x c h
        obtain ⟨y, hy⟩ := Sh.path_prefix h
        simp only at hy
        rw [List.append_assoc (pre ++ p)] at hy
        have := List.append_cancel_left hy
        rw [← hb] at this
        have := lcp_take_eq.2 ⟨y, this⟩
        omega
      · rw [if_neg hlt]
        have heq : lcp q (bitsId id) = q.length := by
          have := lcp_le_left q (bitsId id)
          omega
        obtain ⟨y, hy⟩ := lcp_take_eq.1 heq
        rw [heq]
        by_cases hfull : q.length = id.len
        · right
          rw [if_pos hfull]
          refine ⟨pi, i, rfl, .here _ _ _ _ _ b bs i c2 ch2 rfl ?_⟩
          have hy0 : y = [] := by
            rw [← hil, hy, List.length_append] at hfull
            exact List.length_eq_zero_iff.1 (by omega)
          rw [hy0, List.append_nil, hb] at hy
          rw [hs, hy]
        · rw [if_neg hfull]
          obtain ⟨hsb, hsl⟩ := bitsId_shiftLeft (by omega) id (m := q.length)
            (by rw [← hil, hy]; simp) (by omega)
          have hqi : q.length < id.len := by
            have : q.length ≤ id.len := by rw [← hil, hy]; simp
            omega
          rw [hy] at hsb
          rw [List.drop_left] at hsb
          cases y with
          | nil =>
            rw [List.append_nil] at hy
            rw [hy] at hil
            omega
          | cons e dd =>
          have hlb : leftBit (shiftLeft id q.length) = e := by
            have := leftBit_eq (by omega) (shiftLeft id q.length) (by omega)
            rw [hsb] at this
            simpa using this.symm
          have hq0 : q.length ≠ 0 := by
            obtain ⟨z, rfl⟩ := hst
            simp
          have key := ih i (n2.child e) q c2 ch2 n2 (shiftLeft id q.length) (d - q.length) e dd hch
            (fun b => ⟨(hw.2.2.2 b).1, (hw.2.2.2 b).2⟩) (by omega) hsb (by omega) (by omega) rfl
          have hbr : (if (!leftBit (shiftLeft id q.length)) = true then
              findLoop t fuel i n2.left (shiftLeft id q.length)
              else findLoop t fuel i n2.right (shiftLeft id q.length)) =
              findLoop t fuel i (n2.child e) (shiftLeft id q.length) := by
            rw [hlb]
            cases e <;> rfl
          simp only [hbr]
          rcases key with ⟨g1, g2⟩ | ⟨pi', k, g1, g2⟩
          · left
            refine ⟨g1, ?_⟩
            intro pre x c'
            refine Sh.not_mem_self (fun b => (hwf b).1) ?_ x c'
            rw [hs]
            intro x c h
            apply g2 (pre ++ p) x c
            rw [← hb, hy, ← List.append_assoc] at h
            exact h
          · right
            refine ⟨pi', k, g1, .down _ _ _ _ _ b bs _ _ rfl ?_⟩
            rw [hs, ← hb, hy]
            exact g2

end Verif.Tree
