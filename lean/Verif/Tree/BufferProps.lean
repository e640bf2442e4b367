import Verif.Tree.Props

/-! The buffers of `DeleteWithBuffer` and `ValsWithBuffer` (C100). -/

namespace Verif.Tree
open Verif.Id
variable {T : Type} [Inhabited T] {P : Pkg}

/-! ### Model -/

/-- `ret = append(ret, tag)` for each of the values, from a slice with the first `n` elements of the array
`arr` of the caller (its length is the capacity of the slice): the array of the caller afterwards, and the elements of
the result. As long as there is room the array is written; when there is none left, `append` makes another. -/
def appendAll : List T → Nat → List T → List T × List T
  | arr, n, [] => (arr, arr.take n)
  | arr, n, v :: vs => if n < arr.length then appendAll (arr.set n v) (n + 1) vs else (arr, arr.take n ++ v :: vs)

/-- tree.go:118-134 `valsForNode(ret, i, nil)` -/
def Tree.valsForNodeB (t : Tree T) (arr : List T) (n : Nat) (i : Nat) : Out (List T × List T) :=
  if i = 0 then return (arr, arr.take n)
  else do
    let nd ← t.node i
    return appendAll arr n ((List.range nd.cnt).map (fun j => getV t.vals (t.key i + BitVec.ofNat 64 j)))

/-- tree.go:585-589 `ValsWithBuffer(ret)` -/
def Tree.valsWithBuffer (t : Tree T) (it : Iter) (arr : List T) (n : Nat) : Out (List T × List T) :=
  t.valsForNodeB arr n it.index

/-- tree.go:138-166 `deleteVal`, with the array of the buffer before and after; line 140 is `buf[:0]` -/
def Tree.deleteValB (t : Tree T) (arr : List T) (i : Nat) (v : T) (m : T → T → Bool) :
    Out (List T × Tree T × Nat × Nat) := do
  let (arr, buf) ← t.valsForNodeB arr 0 i
  if buf.length = 0 then return (arr, t, 0, 0)
  else
    let n ← t.node i
    let t : Tree T := { t with vals := delLoop (t.key i) n.cnt 0 t.vals }
    let t := t.upd i (fun n => { n with cnt := 0 })
    let r ← putBack i m v buf t 0 0
    return (arr, r)

/-- tree.go:353-421 `DeleteWithBuffer`, with the array of the buffer before and after -/
def Tree.deleteWithBuffer (t : Tree T) (arr : List T) (id : MyId P) (m : T → T → Bool) (v : T) :
    Out (List T × Nat × Tree T) := do
  match ← t.findTarget id with
  | none => return (arr, 0, t)
  | some (parent, i) =>
    let n ← t.node i
    if n.cnt = 0 then return (arr, 0, t)
    else
      let (arr, t, d, keep) ← t.deleteValB arr i v m
      if keep > 0 then return (arr, d, t)
      else
        let t ← t.deleteNode i parent
        return (arr, d, t)

/-! ### Specification -/

/-- the array `arr` after `vs` were written to it from position `n` on, as far as they fit -/
def written (arr : List T) (n : Nat) (vs : List T) : List T := (arr.take n ++ vs ++ arr.drop (n + vs.length)).take arr.length

/-! ### C100 -/

omit [Inhabited T] in
theorem appendAll_eq : ∀ (vs : List T) (arr : List T) (n : Nat), n ≤ arr.length →
    appendAll arr n vs = (written arr n vs, arr.take n ++ vs) := by
  intro vs
  induction vs with
  | nil =>
    intro arr n hn
    unfold appendAll written
    simp
  | cons v vs ih =>
    intro arr n hn
    unfold appendAll
    by_cases h : n < arr.length
    · rw [if_pos h, ih _ _ (by rw [List.length_set]; omega)]
      have h1 : (arr.set n v).take (n + 1) = arr.take n ++ [v] := by
        rw [List.take_add_one, List.take_set_of_le (Nat.le_refl n)]
        simp [h]
      unfold written
      rw [h1, List.length_set, List.drop_set_of_lt (by omega)]
      simp only [List.append_assoc, List.singleton_append, List.length_cons]
      rw [show n + 1 + vs.length = n + (vs.length + 1) by omega]
    · rw [if_neg h]
      have h1 : n = arr.length := by omega
      subst h1
      unfold written
      simp

theorem valsForNodeB_eq (t : Tree T) (arr : List T) (n i : Nat) (hn : n ≤ arr.length) :
    t.valsForNodeB arr n i = (do let vs ← t.valsForNode i; return (written arr n vs, arr.take n ++ vs)) := by
  unfold Tree.valsForNodeB Tree.valsForNode
  by_cases hi : i = 0
  · rw [if_pos hi, if_pos hi]
    show Out.ok (arr, arr.take n) = Out.ok (written arr n [], arr.take n ++ [])
    unfold written
    simp
  · rw [if_neg hi, if_neg hi]
    cases t.node i with
    | ok nd =>
      show Out.ok (appendAll _ _ _) = Out.ok _
      rw [appendAll_eq _ _ _ hn]
    | _ => rfl

/-- **C100** (`ValsWithBuffer`) In every state of tree and iterator (and whether or not the call panics) the result
is the buffer followed by the values `Vals` returns. Only the array of the buffer beyond its length is written, with
as many of these values as fit. -/
theorem C100_vals_buffer (t : Tree T) (it : Iter) (arr : List T) (n : Nat) (hn : n ≤ arr.length) :
    t.valsWithBuffer it arr n = (do let vs ← t.valsForNode it.index; return (written arr n vs, arr.take n ++ vs)) ∧
    ∀ vs, (written arr n vs).take n = arr.take n ∧ (written arr n vs).length = arr.length := by
  refine ⟨valsForNodeB_eq t arr n it.index hn, fun vs => ?_⟩
  unfold written
  constructor
  · rw [List.take_take, Nat.min_eq_left hn, List.append_assoc, List.take_append_of_le_length (by simp; omega),
      List.take_take, Nat.min_self]
  · simp only [List.length_take, List.length_append, List.length_drop]
    omega

theorem Out.bind_pure {α β : Type} (a : α) (f : α → Out β) : ((pure a : Out α) >>= f) = f a := rfl

theorem bind_assoc_out {α β γ : Type} (o : Out α) (f : α → Out β) (g : β → Out γ) :
    (o >>= f) >>= g = o >>= fun a => f a >>= g := by cases o <;> rfl

theorem bind_congr_out {α β : Type} (o : Out α) {f g : α → Out β} (h : ∀ a, o = .ok a → f a = g a) :
    o >>= f = o >>= g := by
  cases o with
  | ok a => exact h a rfl
  | _ => rfl

theorem deleteValB_eq (t : Tree T) (arr : List T) (i : Nat) (v : T) (m : T → T → Bool) {vs : List T}
    (hvs : t.valsForNode i = .ok vs) :
    t.deleteValB arr i v m = (do let r ← t.deleteVal i v m; return (written arr 0 vs, r)) := by
  unfold Tree.deleteValB Tree.deleteVal
  rw [valsForNodeB_eq t arr 0 i (by omega), hvs]
  simp only [Out.bind_ok, Out.bind_pure, List.take_zero, List.nil_append]
  by_cases h : vs.length = 0
  · simp only [if_pos h]; rfl
  · simp only [if_neg h, bind_assoc_out]

/-- **C100** (`DeleteWithBuffer`) In every state of the tree, for every buffer: the result, the tree afterwards and
whether the call panics are those of `Delete`. -/
theorem C100_delete_buffer (t : Tree T) (arr : List T) (id : MyId P) (m : T → T → Bool) (v : T) :
    (t.deleteWithBuffer arr id m v >>= fun r => Out.ok r.2) = t.delete id m v := by
  unfold Tree.deleteWithBuffer Tree.delete
  rw [bind_assoc_out]
  apply bind_congr_out
  intro tgt _
  cases tgt with
  | none => rfl
  | some p =>
    obtain ⟨parent, i⟩ := p
    simp only
    rw [bind_assoc_out]
    apply bind_congr_out
    intro nd hnd
    by_cases hc : nd.cnt = 0
    · rw [if_pos hc, if_pos hc]; rfl
    · rw [if_neg hc, if_neg hc]
      obtain ⟨vs, hvs⟩ : ∃ vs, t.valsForNode i = .ok vs := by
        unfold Tree.valsForNode
        rw [hnd]
        by_cases hi : i = 0
        · rw [if_pos hi]; exact ⟨_, rfl⟩
        · rw [if_neg hi]; exact ⟨_, rfl⟩
      rw [deleteValB_eq t arr i v m hvs]
      simp only [bind_assoc_out]
      apply bind_congr_out
      rintro ⟨t', d, k⟩ _
      by_cases hk : k > 0
      · simp only [Out.bind_pure, if_pos hk]
        rfl
      · simp only [Out.bind_pure, if_neg hk]
        rw [bind_assoc_out]
        rfl

/-- **C100** (`DeleteWithBuffer`) In a reachable tree, the first elements of the buffer are overwritten with the
values that were stored under the prefix, also beyond the length of the buffer, as many as its array has room for;
nothing else is written. All three widths. -/
theorem C100_delete_buffer_written (hP : P = id16 ∨ P = id32 ∨ P = id64) {t : Tree T} (h : Reach P t) (arr : List T)
    (id : MyId P) (hid : id.len ≤ P.W) (m : T → T → Bool) (v : T) {l : List T}
    (hl : Holds P.W t (pfx id.id id.len) l) :
    ∃ d t', t.delete id m v = .ok (d, t') ∧ t.deleteWithBuffer arr id m v = .ok (written arr 0 l, d, t') := by
  have hP' := widthOk_of hP
  obtain ⟨s, hi⟩ := h.inv hP'
  rw [pfx_id id hid] at *
  have hdel : ∃ d t', t.delete id m v = .ok (d, t') := by
    rcases delete_spec hP' hi id hid v m with ⟨h1, _⟩ | ⟨k, c0, d, t', s', _, h1, _⟩
    · exact ⟨_, _, h1⟩
    · exact ⟨_, _, h1⟩
  obtain ⟨d, t', hd⟩ := hdel
  have hb := C100_delete_buffer t arr id m v
  rw [hd] at hb
  -- the array
  have harr : ∀ r, t.deleteWithBuffer arr id m v = .ok r → r.1 = written arr 0 l := by
    intro r hr
    have hw0 : written arr 0 ([] : List T) = arr := by simp [written]
    unfold Tree.deleteWithBuffer at hr
    obtain ⟨tgt, hs1, hs2⟩ := findTarget_spec hP' hi id hid
    rw [hs1] at hr
    rcases hs2 with ⟨rfl, hno⟩ | ⟨pi, k, rfl, hpath⟩
    · cases hr
      have hl0 : l = [] := by
        rcases hl with ⟨i, h1, _⟩ | ⟨_, h1⟩
        · obtain ⟨c, hc⟩ := hi.at_iff.1 h1
          exact absurd hc (hno _ _)
        · exact h1
      rw [hl0, hw0]
    · have hmem : ∃ c0, (bitsId id, k, c0) ∈ s.nodes [] := by
        rcases hpath with ⟨h1, rfl⟩ | hp
        · have hwf := hi.wf
          cases s with
          | nil => exact hwf.elim
          | node i p c ch =>
            obtain ⟨rfl, rfl, _⟩ := hwf
            rw [h1]; exact ⟨c, Sh.mem_nodes_node.2 (.inl rfl)⟩
        · obtain ⟨c0, h1⟩ := hp.mem (pre := [])
          exact ⟨c0, h1⟩
      obtain ⟨c0, hmem⟩ := hmem
      obtain ⟨nk, hnk, hck⟩ := hi.rep.cnt hmem
      have hvals := hi.vals_at hmem
      have hl0 : l = valsAt t.vals (t.key k) c0 := by
        rcases hl with ⟨i, h1, h2⟩ | ⟨h1, _⟩
        · obtain ⟨c, hc⟩ := hi.at_iff.1 h1
          obtain ⟨rfl, rfl⟩ := Sh.nodes_unique (.inr hi.wf) hc hmem
          rw [hvals] at h2
          cases h2
          rfl
        · exact absurd (hi.at_iff.2 ⟨c0, hmem⟩) (h1 k)
      rw [← hl0] at hvals
      simp only [Out.bind_ok, node_eq hnk] at hr
      by_cases hc : nk.cnt = 0
      · rw [if_pos hc] at hr
        cases hr
        have : l = [] := by
          rw [hl0, ← hck, hc]; rfl
        rw [this, hw0]
      · rw [if_neg hc, deleteValB_eq t arr k v m hvals] at hr
        cases hdv : t.deleteVal k v m with
        | ok r2 =>
          obtain ⟨t2, d2, k2⟩ := r2
          rw [hdv] at hr
          simp only [Out.bind_ok, Out.bind_pure] at hr
          by_cases hk : k2 > 0
          · rw [if_pos hk] at hr
            cases hr
            rfl
          · rw [if_neg hk] at hr
            cases hdn : t2.deleteNode k pi with
            | ok t3 => rw [hdn] at hr; cases hr; rfl
            | _ => rw [hdn] at hr; cases hr
        | _ => rw [hdv] at hr; cases hr
  refine ⟨d, t', hd, ?_⟩
  cases hr : t.deleteWithBuffer arr id m v with
  | ok r =>
    rw [hr] at hb
    have := harr r hr
    obtain ⟨a, r⟩ := r
    cases hb
    simp only at this
    rw [this]
  | _ => rw [hr] at hb; cases hb

-- a buffer of length 1 and capacity 2, three values
example : written [10, 11] 0 [1, 2, 3] = [1, 2] ∧ written [10, 11] 1 [1, 2, 3] = [10, 1] ∧
    written [10, 11, 12, 13] 1 [1, 2] = [10, 1, 2, 13] := by decide

-- a tree with three values under a prefix, a buffer of capacity 2
example : ∃ t : Tree Nat, Reach id16 t ∧ Holds 16 t (pfx (7 : BitVec 16) 16) [1, 3, 2] ∧
    ∃ t', t.deleteWithBuffer [10, 11] (⟨7, 16⟩ : MyId id16) (fun a b => a == b) 3 = .ok ([1, 3], 1, t') := by
  refine ⟨_, reach_of ([.add ⟨7, 16⟩ 1 none, .add ⟨7, 16⟩ 3 none, .add ⟨7, 16⟩ 2 none] : List (Op id16 Nat)) (by decide) rfl,
    .inl ⟨2, ?_, rfl⟩, _, rfl⟩
  exact at_left rfl (by decide) rfl (by decide) rfl

end Verif.Tree
