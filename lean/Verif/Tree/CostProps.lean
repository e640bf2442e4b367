import Verif.Tree.IterSame
import Verif.Tree.Needs
import Verif.Tree.Props

/-!
Property C123: what a loop over the tree costs. A round of the loop of `Next` takes constant time; an iteration takes a number
of rounds proportional to the number of prefixes stored at that time, however many there were before.
-/

namespace Verif.Tree
open Verif.Id

variable {T : Type} [Inhabited T] {P : Pkg}

/-! ### Specification -/

/-- the rounds of the loop of `Next` until the iteration is over, counted; not more than the first argument -/
def roundsLeft (t : Tree T) : Nat → Iter → Out Nat
  | 0, _ => .diverge
  | fuel + 1, it => do
    match ← round t it with
    | .cont it => return (← roundsLeft t fuel it) + 1
    | .found it => return (← roundsLeft t fuel it) + 1
    | .finished _ => return 1

/-- tree.go:354-406 the search of `DeleteWithBuffer`, of which the loop may do `n` rounds -/
def Tree.findWithin (n : Nat) (t : Tree T) (id : MyId P) : Out (Option (Nat × Nat)) := do
  let root ← t.node 1
  if id.len = 0 then return some (0, 1)
  else if !leftBit id then findLoop t n 1 root.left id
  else findLoop t n 1 root.right id

/-- tree.go:186-343 `add`, of which the loop may do `n` rounds -/
def Tree.addWithin (n : Nat) (t : Tree T) (id : MyId P) (val : T) (m : Option (T → T → Bool)) (u : Option (T → T)) :
    Out (Bool × Nat × Tree T) := do
  let t := t.grow
  let root ← t.node 1
  if id.len = 0 then
    let (b, t) ← t.addVal val 1 m u
    t.count b 1
  else if !leftBit id then
    if root.left = 0 then
      let (j, b, t) ← t.newLeaf id val m u
      let t := t.upd 1 (fun n => { n with left := j })
      t.count b j
    else addLoop val m u n t 1 root.left id
  else if root.right = 0 then
    let (j, b, t) ← t.newLeaf id val m u
    let t := t.upd 1 (fun n => { n with right := j })
    t.count b j
  else addLoop val m u n t 1 root.right id

/-! ### Rounds of a run -/

theorem roundsLeft_run {t : Tree T} {n : Nat} {it it' : Iter} {out : List Nat} (h : Run t n it out it')
    (hend : round t it' = .ok (.finished it')) : ∀ {fuel : Nat}, n < fuel → roundsLeft t fuel it = .ok (n + 1) := by
  have unf : ∀ fuel it, roundsLeft t (fuel + 1) it = (round t it >>= fun r => match r with
    | .cont it => do return (← roundsLeft t fuel it) + 1
    | .found it => do return (← roundsLeft t fuel it) + 1
    | .finished _ => return 1) := fun _ _ => rfl
  induction h with
  | refl it =>
    intro fuel hf
    obtain ⟨f, rfl⟩ : ∃ f, fuel = f + 1 := ⟨fuel - 1, by omega⟩
    rw [unf, hend]
    rfl
  | cont h1 _ ih =>
    intro fuel hf
    obtain ⟨f, rfl⟩ : ∃ f, fuel = f + 1 := ⟨fuel - 1, by omega⟩
    rw [unf, h1]
    have := ih hend (fuel := f) (by omega)
    show (roundsLeft t f _ >>= fun x => (.ok (x + 1) : Out Nat)) = _
    rw [this]
    rfl
  | found h1 _ ih =>
    intro fuel hf
    obtain ⟨f, rfl⟩ : ∃ f, fuel = f + 1 := ⟨fuel - 1, by omega⟩
    rw [unf, h1]
    have := ih hend (fuel := f) (by omega)
    show (roundsLeft t f _ >>= fun x => (.ok (x + 1) : Out Nat)) = _
    rw [this]
    rfl
  | same h1 _ ih =>
    intro fuel hf
    have := ih hend hf
    obtain ⟨f, rfl⟩ : ∃ f, fuel = f + 1 := ⟨fuel - 1, by omega⟩
    rw [unf] at this ⊢
    rw [h1]
    exact this

/-- walking through a subtree takes one round for each node with values and two for each other than the top -/
theorem run_count {t : Tree T} {W : Nat} {s : Sh} : ∀ {i : Nat} (h : List Nat), Rep W t.nodes s i → s ≠ .nil →
    s.idxs.Nodup → ∃ n, n + 2 = s.live.length + 2 * s.idxs.length ∧ Run t n ⟨i, h, .self⟩ s.live ⟨i, h, .up⟩ := by
  induction s with
  | nil => intro i h _ hne; exact absurd rfl hne
  | node j p c ch ih =>
    intro i h hr _ hnd
    obtain ⟨rfl, h0, n, hn, _, hc, hch⟩ := hr
    obtain ⟨l1, l2, l3⟩ := Sh.nodup_children hnd false
    obtain ⟨r1, r2, r3⟩ := Sh.nodup_children hnd true
    -- self
    have step1 : ∃ n, n = (if c = 0 then [] else [i]).length ∧ Run t n ⟨i, h, .self⟩ (if c = 0 then [] else [i]) ⟨i, h, .left⟩ := by
      by_cases hc0 : c = 0
      · refine ⟨0, by rw [if_pos hc0]; rfl, ?_⟩
        rw [if_pos hc0]
        exact .same ((round_self hn).2 (by omega)) (.refl _)
      · refine ⟨1, by rw [if_neg hc0]; rfl, ?_⟩
        rw [if_neg hc0]
        exact .found ((round_self hn).1 (by omega)) (.refl _)
    -- left
    have step2 : ∃ n, n = (ch false).live.length + 2 * (ch false).idxs.length ∧
        Run t n ⟨i, h, .left⟩ (ch false).live ⟨i, h, .right⟩ := by
      by_cases hl : n.left = 0
      · have : ch false = .nil := (hch false).nil_iff.2 hl
        rw [this]
        exact ⟨0, rfl, .same ((round_left hn).2 hl) (.refl _)⟩
      · have hne : ch false ≠ .nil := fun e => hl ((hch false).nil_iff.1 e)
        obtain ⟨k, hk1, hk2⟩ := ih false (i :: h) (hch false) hne l2
        have hcm := (hch false).mem hne
        obtain ⟨q, c', hq⟩ := Sh.mem_idxs_nodes [] hcm.1
        obtain ⟨nl, hnl, _⟩ := (hch false).cnt hq
        refine ⟨1 + k + 1, by omega, ?_⟩
        have e1 : Run t 1 ⟨i, h, .left⟩ [] ⟨n.left, i :: h, .self⟩ :=
          .cont ((round_left hn).1 hl) (.refl _)
        have e3 : Run t 1 ⟨n.left, i :: h, .up⟩ [] ⟨i, h, .right⟩ :=
          .cont ((round_up hnl hn).1 rfl) (.refl _)
        have := (e1.trans hk2).trans e3
        rwa [List.append_nil] at this
    -- right
    have step3 : ∃ n, n = (ch true).live.length + 2 * (ch true).idxs.length ∧
        Run t n ⟨i, h, .right⟩ (ch true).live ⟨i, h, .up⟩ := by
      by_cases hl : n.right = 0
      · have : ch true = .nil := (hch true).nil_iff.2 hl
        rw [this]
        exact ⟨0, rfl, .same ((round_right hn).2 hl) (.refl _)⟩
      · have hne : ch true ≠ .nil := fun e => hl ((hch true).nil_iff.1 e)
        obtain ⟨k, hk1, hk2⟩ := ih true (i :: h) (hch true) hne r2
        have hcm := (hch true).mem hne
        obtain ⟨q, c', hq⟩ := Sh.mem_idxs_nodes [] hcm.1
        obtain ⟨nl, hnl, _⟩ := (hch true).cnt hq
        have hlr : n.left ≠ n.right := by
          intro e
          by_cases hz : ch false = .nil
          · have := (hch false).nil_iff.1 hz
            have : n.left = 0 := this
            omega
          · exact l3 _ ((hch false).mem hz).1 (by
              have : n.child false = n.child true := e
              rw [this]; exact hcm.1)
        refine ⟨1 + k + 1, by omega, ?_⟩
        have e1 : Run t 1 ⟨i, h, .right⟩ [] ⟨n.right, i :: h, .self⟩ :=
          .cont ((round_right hn).1 hl) (.refl _)
        have e3 : Run t 1 ⟨n.right, i :: h, .up⟩ [] ⟨i, h, .up⟩ :=
          .cont ((round_up hnl hn).2 hlr rfl) (.refl _)
        have := (e1.trans hk2).trans e3
        rwa [List.append_nil] at this
    obtain ⟨n1, a1, b1⟩ := step1
    obtain ⟨n2, a2, b2⟩ := step2
    obtain ⟨n3, a3, b3⟩ := step3
    refine ⟨n1 + (n2 + n3), ?_, ?_⟩
    · rw [Sh.idxs_node]
      show _ = ((if c = 0 then [] else [i]) ++ ((ch false).live ++ (ch true).live)).length + _
      simp only [List.length_cons, List.length_append]
      omega
    · have := b1.trans (b2.trans b3)
      exact this

/-- more rounds than needed make no difference to the search -/
theorem findLoop_mono {t : Tree T} : ∀ {fuel parent i : Nat} {id : MyId P}, findLoop t fuel parent i id ≠ .diverge →
    ∀ m, findLoop t (fuel + m) parent i id = findLoop t fuel parent i id := by
  intro fuel
  induction fuel with
  | zero => intro parent i id h; exact absurd rfl h
  | succ fuel ih =>
    intro parent i id h m
    rw [Nat.add_right_comm]
    unfold findLoop at h ⊢
    by_cases h0 : i = 0
    · rw [if_pos h0, if_pos h0]
    rw [if_neg h0] at h ⊢
    rw [if_neg h0]
    cases hn : t.node i with
    | ok node =>
      rw [hn] at h
      simp only [Out.bind_ok] at h ⊢
      by_cases h1 : matchCount node id < node.len
      · rw [if_pos h1, if_pos h1]
      rw [if_neg h1] at h ⊢
      rw [if_neg h1]
      by_cases h2 : matchCount node id = id.len
      · rw [if_pos h2, if_pos h2]
      rw [if_neg h2] at h ⊢
      rw [if_neg h2]
      by_cases h3 : (!leftBit (shiftLeft id (matchCount node id))) = true
      · rw [if_pos h3] at h ⊢
        rw [if_pos h3]
        exact ih h m
      · rw [if_neg h3] at h ⊢
        rw [if_neg h3]
        exact ih h m
    | panic e => rfl
    | diverge => rfl
    | realloc => rfl

/-- more rounds than needed make no difference to `Set` and `Add` -/
theorem addLoop_mono {val : T} {mf : Option (T → T → Bool)} {u : Option (T → T)} : ∀ {fuel parent i : Nat} {t : Tree T}
    {id : MyId P}, addLoop val mf u fuel t parent i id ≠ .diverge →
    ∀ m, addLoop val mf u (fuel + m) t parent i id = addLoop val mf u fuel t parent i id := by
  intro fuel
  induction fuel with
  | zero => intro parent i t id h; exact absurd rfl h
  | succ fuel ih =>
    intro parent i t id h m
    rw [Nat.add_right_comm]
    unfold addLoop at h ⊢
    by_cases h0 : i = 0
    · rw [if_pos h0, if_pos h0]
    rw [if_neg h0] at h ⊢
    rw [if_neg h0]
    cases hn : t.node i with
    | ok node =>
      rw [hn] at h
      simp only [Out.bind_ok] at h ⊢
      by_cases h1 : node.len = 0
      · rw [if_pos h1, if_pos h1]
      rw [if_neg h1] at h ⊢
      rw [if_neg h1]
      by_cases h2 : matchCount node id = 0
      · rw [if_pos h2, if_pos h2]
      rw [if_neg h2] at h ⊢
      rw [if_neg h2]
      by_cases h3 : matchCount node id = id.len
      · rw [if_pos h3, if_pos h3]
      rw [if_neg h3] at h ⊢
      rw [if_neg h3]
      by_cases h4 : matchCount node id = node.len
      · rw [if_pos h4] at h ⊢
        rw [if_pos h4]
        by_cases h5 : (!leftBit (shiftLeft id (matchCount node id))) = true
        · rw [if_pos h5] at h ⊢
          rw [if_pos h5]
          by_cases h6 : node.left = 0
          · rw [if_pos h6, if_pos h6]
          · rw [if_neg h6] at h ⊢
            rw [if_neg h6]
            exact ih h m
        · rw [if_neg h5] at h ⊢
          rw [if_neg h5]
          by_cases h6 : node.right = 0
          · rw [if_pos h6, if_pos h6]
          · rw [if_neg h6] at h ⊢
            rw [if_neg h6]
            exact ih h m
      · rw [if_neg h4, if_neg h4]
    | panic e => rfl
    | diverge => rfl
    | realloc => rfl

theorem iteration_cost {W : Nat} {t : Tree T} {s : Sh} (hi : Inv W t s) : ∃ vis k, t.visit = .ok vis ∧
    k ≤ 5 * vis.length + 1 ∧ ∀ fuel, k ≤ fuel → roundsLeft t fuel Tree.iterate = .ok k := by
  have hne : s ≠ .nil := by
    intro e
    have := hi.wf
    rw [e] at this
    exact this
  obtain ⟨n, h1, h2⟩ := run_count [] hi.rep hne hi.idxs_nodup
  have hm := hi.rep.mem hne
  obtain ⟨q, c, hq⟩ := Sh.mem_idxs_nodes [] hm.1
  obtain ⟨rn, hrn, _⟩ := hi.rep.cnt hq
  refine ⟨_, n + 1, visit_spec hi, ?_, fun fuel hf => roundsLeft_run h2 (round_end hrn) hf⟩
  have hl : s.live.length = (s.entries []).length := by
    rw [Sh.live_eq s [], List.length_map]
  have hk := Sh.idxs_needs hi.wf (n := max 1 (2 * (s.entries []).length))
    (by
      have := (needs_of_keys ((s.entries []).map (·.1))).mono (S' := fun q => ∃ x c, (q, x, c) ∈ s.entries [])
        (fun q ⟨x, c, hx⟩ => List.mem_map.2 ⟨_, hx, rfl⟩)
      rwa [List.length_map] at this)
  rw [List.length_map]
  omega

/-! ### Theorems -/

/-- **C123** (all widths, every history) An iteration takes at most five rounds per prefix stored, and one, however large
the tree has been before: `vis` is what it visits. -/
theorem C123_iteration (hP : P = id16 ∨ P = id32 ∨ P = id64) {t : Tree T} (h : Reach P t) :
    ∃ vis k, t.visit = .ok vis ∧ k ≤ 5 * vis.length + 1 ∧ ∀ fuel, k ≤ fuel → roundsLeft t fuel Tree.iterate = .ok k := by
  obtain ⟨s, hi⟩ := h.inv (widthOk_of hP)
  exact iteration_cost hi

/-- a tree with 8 nodes in its array after a history of which one prefix is left: the iteration takes four rounds -/
example : ∃ t : Tree Nat, Reach id16 t ∧ t.nodes.length = 8 ∧ roundsLeft t 4 Tree.iterate = .ok 4 := by
  refine ⟨_, ⟨[.set ⟨0x8000, 16⟩ 1, .set ⟨0x8001, 16⟩ 2, .set ⟨0, 16⟩ 3, .set ⟨1, 16⟩ 3, .delete ⟨0x8000, 16⟩ (fun _ _ => true) 0,
    .delete ⟨0x8001, 16⟩ (fun _ _ => true) 0, .delete ⟨0, 16⟩ (fun _ _ => true) 0], _, ?_, rfl⟩, rfl, rfl⟩
  intro o ho
  simp only [List.mem_cons, List.not_mem_nil, or_false] at ho
  rcases ho with rfl | rfl | rfl | rfl | rfl | rfl | rfl <;> decide

/-- **C123** (all widths, every history) The search of `Delete` ends, after at most one round more than the prefix has bits: it
makes no difference how many more it may do. -/
theorem C123_delete (hP : P = id16 ∨ P = id32 ∨ P = id64) {t : Tree T} (h : Reach P t) {id : MyId P} (hid : id.len ≤ P.W) :
    ∃ tgt, ∀ n, id.len < n → t.findWithin n id = .ok tgt := by
  obtain ⟨s, hi⟩ := h.inv (widthOk_of hP)
  obtain ⟨tgt, h1, _⟩ := findTarget_spec (widthOk_of hP) hi id hid
  refine ⟨tgt, fun n hn => ?_⟩
  obtain ⟨m, rfl⟩ : ∃ m, n = id.len + 1 + m := ⟨n - (id.len + 1), by omega⟩
  rw [← h1]
  unfold Tree.findTarget at h1
  unfold Tree.findWithin Tree.findTarget
  cases hr : t.node 1 with
  | ok root =>
    rw [hr] at h1
    simp only [Out.bind_ok] at h1 ⊢
    by_cases h2 : id.len = 0
    · rw [if_pos h2, if_pos h2]
    rw [if_neg h2] at h1 ⊢
    rw [if_neg h2]
    by_cases h3 : (!leftBit id) = true
    · rw [if_pos h3] at h1 ⊢
      rw [if_pos h3]
      exact findLoop_mono (by rw [h1]; simp) m
    · rw [if_neg h3] at h1 ⊢
      rw [if_neg h3]
      exact findLoop_mono (by rw [h1]; simp) m
  | panic e => rfl
  | diverge => rfl
  | realloc => rfl

/-- **C123** (all widths, every history) `Set` and `Add` end, after at most one round more than the prefix has bits. -/
theorem C123_add (hP : P = id16 ∨ P = id32 ∨ P = id64) {t : Tree T} (h : Reach P t) {id : MyId P} (hid : id.len ≤ P.W) (val : T)
    (m : Option (T → T → Bool)) (u : Option (T → T)) :
    ∃ r, ∀ n, id.len < n → t.addWithin n id val m u = .ok r := by
  obtain ⟨s, hi⟩ := h.inv (widthOk_of hP)
  obtain ⟨bb, c', t', s', k, c0, used, h1, _⟩ := add_spec (widthOk_of hP) hi id hid val m u
  refine ⟨(bb, c', t'), fun n hn => ?_⟩
  obtain ⟨n, rfl⟩ : ∃ m, n = id.len + 1 + m := ⟨n - (id.len + 1), by omega⟩
  rw [← h1]
  unfold Tree.add at h1
  unfold Tree.addWithin Tree.add
  simp only at h1 ⊢
  cases hr : t.grow.node 1 with
  | ok root =>
    rw [hr] at h1
    simp only [Out.bind_ok] at h1 ⊢
    by_cases h2 : id.len = 0
    · rw [if_pos h2, if_pos h2]
    rw [if_neg h2] at h1 ⊢
    rw [if_neg h2]
    by_cases h3 : (!leftBit id) = true
    · rw [if_pos h3] at h1 ⊢
      rw [if_pos h3]
      by_cases h4 : root.left = 0
      · rw [if_pos h4, if_pos h4]
      · rw [if_neg h4] at h1 ⊢
        rw [if_neg h4]
        exact addLoop_mono (by rw [h1]; simp) n
    · rw [if_neg h3] at h1 ⊢
      rw [if_neg h3]
      by_cases h4 : root.right = 0
      · rw [if_pos h4, if_pos h4]
      · rw [if_neg h4] at h1 ⊢
        rw [if_neg h4]
        exact addLoop_mono (by rw [h1]; simp) n
  | panic e => rfl
  | diverge => rfl
  | realloc => rfl

/-- the search for a prefix of 16 bits in a tree in which it is three nodes deep -/
example : ∃ t : Tree Nat, Reach id16 t ∧ t.findWithin 3 (⟨0x8003, 16⟩ : MyId id16) = .ok (some (4, 5)) ∧
    t.findWithin 1 (⟨0x8003, 16⟩ : MyId id16) = .diverge := by
  refine ⟨_, ⟨[.set ⟨0x8000, 1⟩ 1, .set ⟨0x8000, 16⟩ 2, .set ⟨0x8003, 16⟩ 3], _, ?_, rfl⟩, rfl, rfl⟩
  intro o ho
  simp only [List.mem_cons, List.not_mem_nil, or_false] at ho
  rcases ho with rfl | rfl | rfl <;> decide

end Verif.Tree
