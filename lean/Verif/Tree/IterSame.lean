import Verif.Tree.Runs

/-! An iterator over a tree whose values are replaced meanwhile: it only looks at the links and the numbers of values. -/

namespace Verif.Tree
open Verif.Id
variable {T : Type} [Inhabited T] {P : Pkg}

theorem Rep.unique {W : Nat} {ns : List Node} : ∀ {s s' : Sh} {i : Nat}, Rep W ns s i → Rep W ns s' i → s = s' := by
  intro s
  induction s with
  | nil =>
    intro s' i h h'
    exact (h'.nil_iff.2 h).symm
  | node j p c ch ih =>
    intro s' i h h'
    cases s' with
    | nil => exact absurd h' h.2.1
    | node j' p' c' ch' =>
      obtain ⟨rfl, _, n, hn, rfl, rfl, hc⟩ := h
      obtain ⟨rfl, _, n', hn', rfl, rfl, hc'⟩ := h'
      rw [hn] at hn'
      cases hn'
      have : ch = ch' := funext fun b => ih b (hc b) (hc' b)
      rw [this]

theorem Sh.AddR.same {c' : Nat} {s bits s' k c0 u} (h : Sh.AddR c' s bits s' k c0 u) (h0 : c0 = c') (h1 : c' ≠ 0) : s' = s := by
  induction h with
  | leaf => exact absurd h0.symm h1
  | here => rw [h0]
  | above => exact absurd h0.symm h1
  | down i p c ch bits b bs s' k c0 u _ _ ih =>
    rw [ih h0]
    congr 1
    funext b'
    unfold Sh.upd
    split
    · next h => rw [h]
    · rfl
  | split => exact absurd h0.symm h1

/-- `Set` of a prefix that is there does not change the shape -/
theorem set_shape (hP : WidthOk P.W) {t t' : Tree T} {s s' : Sh} (h : Inv P.W t s) (h' : Inv P.W t' s') {id : MyId P}
    (hid : id.len ≤ P.W) {val : T} {b : Bool} {c : Nat} (he : t.set id val = .ok (b, c, t'))
    (hin : ∃ x c, (bitsId id, x, c) ∈ s.entries []) : s' = s := by
  obtain ⟨bb, c', t1, s1, k, c0, used, h1, h2, h3, h4, h5, h6, _, _⟩ :=
    add_spec hP h id hid val (some (fun _ _ => true)) (some (fun _ => val))
  have he' : t.add id val (some (fun _ _ => true)) (some (fun _ => val)) = .ok (b, c, t') := he
  rw [h1] at he'
  cases he'
  have hs : s1 = s' := h4.rep.unique h'.rep
  subst hs
  obtain ⟨x, cx, hx⟩ := hin
  have hent := h3.entries h2 (d := P.W) (pre := []) (.inr h.wf)
  simp only [List.nil_append] at hent
  obtain ⟨_, rfl, hc0⟩ := (hent.2 x cx).1 hx
  refine h3.same ?_ h2
  rw [h6]
  have hb : b = false := by
    have := congrArg Prod.fst h5
    rw [show b = _ from this]
    unfold valStep
    cases cx with
    | zero => exact absurd rfl hc0
    | succ n => simp [findMatch]
  rw [hb]; rfl

/-- the same links and numbers of values -/
theorem Rep.links {W : Nat} {ns ns' : List Node} : ∀ {s : Sh} {i : Nat}, Rep W ns s i → Rep W ns' s i → ∀ x ∈ s.idxs,
    ∃ n n', ns[x]? = some n ∧ ns'[x]? = some n' ∧ n.left = n'.left ∧ n.right = n'.right ∧ n.cnt = n'.cnt ∧
      (n.left = 0 ∨ n.left ∈ s.idxs) ∧ (n.right = 0 ∨ n.right ∈ s.idxs) := by
  intro s
  induction s with
  | nil => intro i _ _ x hx; simp [Sh.idxs] at hx
  | node j p c ch ih =>
    intro i h h' x hx
    obtain ⟨rfl, _, n, hn, _, hc, hch⟩ := h
    obtain ⟨_, _, n', hn', _, hc', hch'⟩ := h'
    have root : ∀ {ns : List Node} {b : Bool} {i : Nat}, Rep W ns (ch b) i → i = 0 ∨ i ∈ (ch b).idxs := by
      intro ns b i h
      by_cases hz : ch b = .nil
      · exact .inl (h.nil_iff.1 hz)
      · exact .inr (h.mem hz).1
    have uniq : ∀ b {i i'}, Rep W ns (ch b) i → Rep W ns' (ch b) i' → i = i' := by
      intro b i i' h h'
      cases hb : ch b with
      | nil => rw [hb] at h h'; exact (show i = 0 from h).trans (show i' = 0 from h').symm
      | node _ _ _ _ => rw [hb] at h h'; exact h.1.trans h'.1.symm
    have hsub : ∀ {b x}, x ∈ (ch b).idxs → x ∈ (Sh.node i p c ch).idxs :=
      fun {b x} h => Sh.mem_idxs_node.2 (.inr ⟨b, h⟩)
    rcases Sh.mem_idxs_node.1 hx with rfl | ⟨b, hb⟩
    · refine ⟨n, n', hn, hn', uniq false (hch false) (hch' false), uniq true (hch true) (hch' true), hc.trans hc'.symm, ?_, ?_⟩
      · rcases root (hch false) with h | h
        · exact .inl h
        · exact .inr (hsub h)
      · rcases root (hch true) with h | h
        · exact .inl h
        · exact .inr (hsub h)
    · have e := uniq b (hch b) (hch' b)
      obtain ⟨m, m', a1, a2, a3, a4, a5, a6, a7⟩ := ih b (hch b) (e ▸ hch' b) x hb
      exact ⟨m, m', a1, a2, a3, a4, a5, a6.imp_right hsub, a7.imp_right hsub⟩

/-- the iterator stands at nodes of the shape -/
def Iter.At (s : Sh) (it : Iter) : Prop := it.index ∈ s.idxs ∧ ∀ x ∈ it.hist, x ∈ s.idxs

/-- where a round leads -/
def Round.At (s : Sh) : Round → Prop
  | .cont it => it.At s
  | .found it => it.At s
  | .finished _ => True

variable {W : Nat} {t t' : Tree T} {s : Sh}

theorem roundUp_same (h : Inv W t s) (h' : Inv W t' s) {it : Iter} (hi : it.At s) :
    roundUp t' it = roundUp t it ∧ ∀ r, roundUp t it = .ok r → r.At s := by
  unfold roundUp
  split
  · split
    · refine ⟨rfl, fun r hr => ?_⟩
      cases hr; trivial
    · next prev hist hh =>
      have hp := hi.2 prev (by rw [hh]; simp)
      have hhist : ∀ x ∈ hist, x ∈ s.idxs := fun x hx => hi.2 x (by rw [hh]; simp [hx])
      obtain ⟨n, n', a1, a2, a3, a4, _⟩ := h.rep.links h'.rep prev hp
      rw [node_eq a1, node_eq a2]
      simp only [Out.bind_ok, ← a3, ← a4]
      refine ⟨trivial, fun r hr => ?_⟩
      split at hr
      · cases hr; exact ⟨hp, hhist⟩
      · split at hr
        · cases hr; exact ⟨hp, hhist⟩
        · cases hr
  · refine ⟨rfl, fun r hr => ?_⟩
    cases hr; exact hi

theorem cons_at {it : Iter} (hi : it.At s) : ∀ x ∈ it.index :: it.hist, x ∈ s.idxs := by
  intro x hx
  rcases List.mem_cons.1 hx with rfl | hx
  · exact hi.1
  · exact hi.2 x hx

theorem roundRight_same (h : Inv W t s) (h' : Inv W t' s) {it : Iter} (hi : it.At s) {n n' : Node} (hr : n.right = n'.right)
    (hm : n.right = 0 ∨ n.right ∈ s.idxs) :
    roundRight t' n' it = roundRight t n it ∧ ∀ r, roundRight t n it = .ok r → r.At s := by
  unfold roundRight
  rw [← hr]
  split
  · split
    · next hne => exact roundUp_same h h' ⟨hm.resolve_left hne, cons_at hi⟩
    · exact roundUp_same h h' (it := { it with next := .up }) hi
  · exact roundUp_same h h' hi

theorem roundLeft_same (h : Inv W t s) (h' : Inv W t' s) {it : Iter} (hi : it.At s) {n n' : Node} (hl : n.left = n'.left)
    (hr : n.right = n'.right) (hml : n.left = 0 ∨ n.left ∈ s.idxs) (hm : n.right = 0 ∨ n.right ∈ s.idxs) :
    roundLeft t' n' it = roundLeft t n it ∧ ∀ r, roundLeft t n it = .ok r → r.At s := by
  unfold roundLeft
  rw [← hl]
  split
  · split
    · next hne => exact roundRight_same h h' ⟨hml.resolve_left hne, cons_at hi⟩ hr hm
    · exact roundRight_same h h' (it := { it with next := .right }) hi hr hm
  · exact roundRight_same h h' hi hr hm

theorem round_same (h : Inv W t s) (h' : Inv W t' s) {it : Iter} (hi : it.At s) :
    round t' it = round t it ∧ ∀ r, round t it = .ok r → r.At s := by
  obtain ⟨n, n', a1, a2, a3, a4, a5, a6, a7⟩ := h.rep.links h'.rep it.index hi.1
  unfold round
  rw [node_eq a1, node_eq a2]
  simp only [Out.bind_ok, ← a5]
  split
  · split
    · refine ⟨rfl, fun r hr => ?_⟩
      cases hr; exact hi
    · exact roundLeft_same h h' (it := { it with next := .left }) hi a3 a4 a6 a7
  · exact roundLeft_same h h' hi a3 a4 a6 a7

theorem nextLoop_same (h : Inv W t s) (h' : Inv W t' s) : ∀ (fuel : Nat) {it : Iter}, it.At s →
    nextLoop t' fuel it = nextLoop t fuel it ∧ ∀ it', nextLoop t fuel it = .ok (true, it') → it'.At s := by
  intro fuel
  induction fuel with
  | zero => intro it _; exact ⟨rfl, fun it' h => by cases h⟩
  | succ fuel ih =>
    intro it hi
    obtain ⟨e1, e2⟩ := round_same h h' hi
    unfold nextLoop
    rw [e1]
    cases hr : round t it with
    | ok r =>
      have ha := e2 r hr
      cases r with
      | cont it1 => exact ih ha
      | found it1 => exact ⟨rfl, fun it' h => by cases h; exact ha⟩
      | finished it1 => exact ⟨rfl, fun it' h => by cases h⟩
    | panic m => exact ⟨rfl, fun it' h => by cases h⟩
    | realloc => exact ⟨rfl, fun it' h => by cases h⟩
    | diverge => exact ⟨rfl, fun it' h => by cases h⟩

omit [Inhabited T] in
theorem Inv.idxs_le (h : Inv W t s) : s.idxs.length ≤ t.nodes.length := by
  have := h.perm.length_eq
  rw [List.length_append, List.length_range'] at this
  omega

/-- `Next` in a later tree of the same shape, seen from the tree at the start -/
theorem next_same (h : Inv W t s) (h' : Inv W t' s) {n : Nat} {it it' : Iter} {out : List Nat} (hr : Run t n it out it')
    (hend : round t it' = .ok (.finished it')) (hn : n ≤ 3 * s.idxs.length) (hi : it.At s) :
    (out = [] ∧ next t' it = .ok (false, it')) ∨
    (∃ x out' it1 n', out = x :: out' ∧ next t' it = .ok (true, it1) ∧ it1.index = x ∧ n' ≤ n ∧ it1.At s ∧
      Run t n' it1 out' it') := by
  have hl := h'.idxs_le
  obtain ⟨e1, e2⟩ := nextLoop_same h h' (3 * t'.nodes.length + 1) hi
  unfold next
  rw [e1]
  rcases nextLoop_run hr hend (fuel := 3 * t'.nodes.length + 1) (by omega) with h | ⟨x, o, i1, n', a1, a2, a3, a4, a5⟩
  · exact .inl h
  · exact .inr ⟨x, o, i1, n', a1, a2, a3, by omega, e2 _ a2, a5⟩

/-- the iteration over the tree at the start -/
theorem iter_start (h : Inv W t s) : ∃ n it', n ≤ 3 * s.idxs.length ∧ Run t n Tree.iterate s.live it' ∧
    round t it' = .ok (.finished it') ∧ Tree.iterate.At s := by
  have hne : s ≠ .nil := by
    intro e
    have := h.wf
    rw [e] at this
    exact this
  obtain ⟨n, h1, h2⟩ := run_sub [] h.rep hne h.idxs_nodup
  have hm := h.rep.mem hne
  obtain ⟨q, c, hq⟩ := Sh.mem_idxs_nodes [] hm.1
  obtain ⟨rn, hrn, _⟩ := h.rep.cnt hq
  exact ⟨n, _, by omega, h2, round_end hrn, hm.1, by simp [Tree.iterate]⟩

/-- the values at a node with values -/
theorem vals_at (h : Inv W t s) {q : List Bool} {x c : Nat} (hx : (q, x, c) ∈ s.entries []) :
    t.valsForNode x = .ok (valsAt t.vals (t.key x) c) := by
  obtain ⟨nx, hnx, hcx⟩ := h.rep.cnt (Sh.mem_entries.1 hx).1
  have h0 := (h.rep.lt _ (Sh.mem_entries_idx hx)).2
  unfold Tree.valsForNode
  rw [if_neg h0, node_eq hnx, ← hcx]
  rfl

end Verif.Tree
