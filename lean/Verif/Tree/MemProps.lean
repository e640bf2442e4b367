import Verif.Tree.Props

/-!
How much memory a tree takes: the array of nodes and its capacity are bounded by the largest number
of prefixes that were stored at the same time, however many calls there were.
-/

namespace Verif.Tree
open Verif.Id
variable {T : Type} [Inhabited T] {P : Pkg}

/-! ### Spec -/

/-- an iteration goes through at most `N` prefixes -/
def StoresAtMost (N : Nat) (t : Tree T) : Prop := ∀ vis, t.visit = .ok vis → vis.length ≤ N

/-- the trees reached by calls with ids that are not too long, when no tree on the way stores more
than `N` prefixes -/
inductive ReachAtMost (P : Pkg) (N : Nat) : Tree T → Prop
  | new : ReachAtMost P N (newTree P)
  | step {t t' : Tree T} {o : Op P T} {r : Res} : ReachAtMost P N t → o.id.len ≤ P.W →
      o.exec t = .ok (r, t') → StoresAtMost N t' → ReachAtMost P N t'

/-! ### The capacity is changed by `grow` only -/

theorem Out.of_bind {α β : Type} {o : Out α} {f : α → Out β} {b : β} (h : (o >>= f) = .ok b) :
    ∃ a, o = .ok a ∧ f a = .ok b := by
  cases o with
  | ok a => exact ⟨a, rfl, h⟩
  | panic s => cases h
  | diverge => cases h
  | realloc => cases h

theorem cap_addVal {t t' : Tree T} {val : T} {i : Nat} {m u} {b : Bool} (h : t.addVal val i m u = .ok (b, t')) :
    t'.cap = t.cap := by
  unfold Tree.addVal at h
  obtain ⟨n, _, h⟩ := Out.of_bind h
  dsimp only at h
  split at h
  · split at h <;> (cases h; rfl)
  · cases h; rfl

theorem cap_putBack {i : Nat} {m : T → T → Bool} {v : T} : ∀ {buf : List T} {t t' : Tree T} {d k d' k' : Nat},
    putBack i m v buf t d k = .ok (t', d', k') → t'.cap = t.cap := by
  intro buf
  induction buf with
  | nil => intro t t' d k d' k' h; cases h; rfl
  | cons tag buf ih =>
    intro t t' d k d' k' h
    unfold putBack at h
    split at h
    · exact ih h
    · obtain ⟨⟨b, t1⟩, h1, h⟩ := Out.of_bind h
      rw [ih h, cap_addVal h1]

theorem cap_deleteVal {t t' : Tree T} {i : Nat} {v : T} {m : T → T → Bool} {d k : Nat}
    (h : t.deleteVal i v m = .ok (t', d, k)) : t'.cap = t.cap := by
  unfold Tree.deleteVal at h
  obtain ⟨buf, _, h⟩ := Out.of_bind h
  split at h
  · cases h; rfl
  · obtain ⟨n, _, h⟩ := Out.of_bind h
    exact (cap_putBack h).trans rfl

theorem cap_moveTags {t t' : Tree T} {i j : Nat} (h : t.moveTags i j = .ok t') : t'.cap = t.cap := by
  unfold Tree.moveTags at h
  obtain ⟨f, _, h⟩ := Out.of_bind h
  cases h; rfl

theorem cap_mergeSibling {t t' : Tree T} {i j : Nat} (h : t.mergeSibling i j = .ok t') : t'.cap = t.cap := by
  unfold Tree.mergeSibling at h
  obtain ⟨p, _, h⟩ := Out.of_bind h
  obtain ⟨s, _, h⟩ := Out.of_bind h
  obtain ⟨⟨id, l⟩, _, h⟩ := Out.of_bind h
  obtain ⟨t1, h1, h⟩ := Out.of_bind h
  obtain ⟨s', _, h⟩ := Out.of_bind h
  cases h
  exact (cap_moveTags h1).trans rfl

theorem cap_replaceByChild {t t' : Tree T} {i j k : Nat} (h : t.replaceByChild i j k = .ok t') :
    t'.cap = t.cap := by
  unfold Tree.replaceByChild at h
  obtain ⟨p, _, h⟩ := Out.of_bind h
  obtain ⟨n, _, h⟩ := Out.of_bind h
  obtain ⟨c, _, h⟩ := Out.of_bind h
  obtain ⟨⟨id, l⟩, _, h⟩ := Out.of_bind h
  cases h
  by_cases hp : p.left = i <;> simp [hp, Tree.upd]

theorem cap_deleteNode {t t' : Tree T} {i j : Nat} (h : t.deleteNode i j = .ok t') : t'.cap = t.cap := by
  unfold Tree.deleteNode at h
  split at h
  · cases h; rfl
  · obtain ⟨n, _, h⟩ := Out.of_bind h
    split at h
    · cases h; rfl
    · dsimp only at h
      split at h
      · obtain ⟨t1, h1, h⟩ := Out.of_bind h
        cases h
        exact (cap_replaceByChild h1 :)
      · split at h
        · obtain ⟨t1, h1, h⟩ := Out.of_bind h
          cases h
          exact (cap_replaceByChild h1 :)
        · obtain ⟨p, _, h⟩ := Out.of_bind h
          split at h <;> split at h
          · obtain ⟨t1, h1, h⟩ := Out.of_bind h
            cases h
            exact (cap_mergeSibling h1 :)
          · cases h; rfl
          · obtain ⟨t1, h1, h⟩ := Out.of_bind h
            cases h
            exact (cap_mergeSibling h1 :)
          · cases h; rfl

theorem cap_delete {t t' : Tree T} {id : MyId P} {m : T → T → Bool} {v : T} {d : Nat}
    (h : t.delete id m v = .ok (d, t')) : t'.cap = t.cap := by
  unfold Tree.delete at h
  obtain ⟨o, _, h⟩ := Out.of_bind h
  split at h
  · cases h; rfl
  · obtain ⟨n, _, h⟩ := Out.of_bind h
    split at h
    · cases h; rfl
    · obtain ⟨⟨t1, d1, k1⟩, h1, h⟩ := Out.of_bind h
      dsimp only at h
      split at h
      · cases h; exact cap_deleteVal h1
      · obtain ⟨t2, h2, h⟩ := Out.of_bind h
        cases h
        rw [cap_deleteNode h2, cap_deleteVal h1]

/-! ### The bounds -/

theorem StoresAtMost.entries {N W : Nat} {t : Tree T} {s : Sh} (h : StoresAtMost N t) (hi : Inv W t s) :
    (s.entries []).length ≤ N := by
  have := h _ (visit_spec hi)
  simpa using this

/-- nodes in use -/
theorem Inv.used {N W : Nat} {t : Tree T} {s : Sh} (hi : Inv W t s) (h : (s.entries []).length ≤ N) :
    t.nodes.length ≤ t.avail.length + 2 * N + 2 := by
  have h1 := hi.perm.length_eq
  have h2 := hi.pos
  rw [List.length_append, List.length_range'] at h1
  rcases Sh.root_idxs_entries hi.wf with h3 | h3 <;> omega

theorem grow_cap_le {t : Tree T} : t.grow.cap ≤ max t.cap (2 * (t.nodes.length - t.avail.length) + 20) := by
  unfold Tree.grow
  split
  · dsimp only; omega
  · omega

theorem grow_cap_ge {t : Tree T} : t.cap ≤ t.grow.cap := by
  unfold Tree.grow
  split
  · dsimp only; omega
  · omega

/-- one call -/
theorem exec_mem (hP : WidthOk P.W) {t t' : Tree T} {s : Sh} (h : Inv P.W t s) {o : Op P T} {r : Res}
    (ho : o.id.len ≤ P.W) (he : o.exec t = .ok (r, t')) :
    ∃ s', Inv P.W t' s' ∧ (t'.nodes.length = t.nodes.length ∨ t'.avail = []) ∧
      t.nodes.length ≤ t'.nodes.length ∧ (t'.cap = t.cap ∨ t'.cap = t.grow.cap) := by
  cases o with
  | set id v =>
    obtain ⟨bb, c', t1, s1, k, c0, used, h1, h2, h3, h4, h5, h6, h7, h8, h9⟩ := add_spec_cap hP h id ho v
      (some (fun _ _ => true)) (some (fun _ => v))
    rw [exec_set (id := id) h1] at he
    cases he
    exact ⟨s1, h4, h7, h8, .inr h9⟩
  | add id v m =>
    obtain ⟨bb, c', t1, s1, k, c0, used, h1, h2, h3, h4, h5, h6, h7, h8, h9⟩ := add_spec_cap hP h id ho v m none
    rw [exec_add (id := id) h1] at he
    cases he
    exact ⟨s1, h4, h7, h8, .inr h9⟩
  | delete id m v =>
    rcases delete_spec hP h id ho v m with ⟨h1, h2⟩ | ⟨k, c0, d, t1, s1, hk, h1, h2⟩
    · rw [exec_delete (id := id) h1] at he
      cases he
      exact ⟨s, h, .inl rfl, Nat.le_refl _, .inl rfl⟩
    · rw [exec_delete (id := id) h1] at he
      cases he
      exact ⟨s1, h2.inv, .inl h2.len, Nat.le_of_eq h2.len.symm, .inl (cap_delete h1)⟩

theorem ReachAtMost.inv (hP : WidthOk P.W) {N : Nat} {t : Tree T} (h : ReachAtMost P N t) :
    ∃ s, Inv P.W t s ∧ (s.entries []).length ≤ N ∧ t.nodes.length ≤ 2 * N + 2 ∧ t.cap ≤ 4 * N + 24 := by
  induction h with
  | new =>
    have hi := Inv.new (T := T) P
    refine ⟨_, hi, ?_, by simp [newTree], by simp [newTree]⟩
    simp [Sh.entries, Sh.nodes]
  | step ht ho he hN ih =>
    obtain ⟨s, hi, h0, h1, h2⟩ := ih
    obtain ⟨s', hi', h3, h4, h5⟩ := exec_mem hP hi ho he
    have h0' := hN.entries hi'
    refine ⟨s', hi', h0', ?_, ?_⟩
    · have h6 := hi'.used h0'
      rcases h3 with h3 | h3
      · omega
      · rw [h3] at h6
        simp only [List.length_nil] at h6
        omega
    · have h6 := hi.used h0
      rcases h5 with h5 | h5
      · omega
      · rw [h5]
        refine Nat.le_trans grow_cap_le ?_
        omega

/-- **C101** If no more than `N` prefixes are stored at any time, the array of nodes never has more than
`2 * N + 2` elements and its capacity never exceeds `4 * N + 24`, however many calls there were. All
three widths. -/
theorem C101_memory (hP : P = id16 ∨ P = id32 ∨ P = id64) {N : Nat} {t : Tree T} (h : ReachAtMost P N t) :
    t.nodes.length ≤ 2 * N + 2 ∧ t.nodes.length ≤ t.cap ∧ t.cap ≤ 4 * N + 24 := by
  obtain ⟨s, hi, _, h1, h2⟩ := h.inv (widthOk_of hP)
  exact ⟨h1, hi.cap, h2⟩

/-- the hypotheses are met: three calls, never more than two prefixes -/
example : ∃ t : Tree Nat, ReachAtMost id32 2 t ∧ t.nodes.length = 3 + 1 ∧ t.cap = 14 := by
  have h1 : ReachAtMost id32 2 (newTree id32 : Tree Nat) := .new
  have h2 := ReachAtMost.step h1 (o := .set ⟨0x80000000, 32⟩ 1) (by decide) rfl (by intro vis hv; cases hv; decide)
  have h3 := ReachAtMost.step h2 (o := .set ⟨0, 32⟩ 2) (by decide) rfl (by intro vis hv; cases hv; decide)
  have h4 := ReachAtMost.step h3 (o := .set ⟨0, 32⟩ 3) (by decide) rfl (by intro vis hv; cases hv; decide)
  exact ⟨_, h4, rfl, rfl⟩

/-- **C101** Memory is not given back: no call makes the array or its capacity smaller, and deleting does
not change either. -/
theorem C101_kept (hP : P = id16 ∨ P = id32 ∨ P = id64) {t t' : Tree T} (h : Reach P t) {o : Op P T} {r : Res}
    (ho : o.id.len ≤ P.W) (he : o.exec t = .ok (r, t')) :
    t.nodes.length ≤ t'.nodes.length ∧ t.cap ≤ t'.cap ∧
      (∀ id m v, o = .delete id m v → t'.nodes.length = t.nodes.length ∧ t'.cap = t.cap) := by
  have hP' := widthOk_of hP
  obtain ⟨s, hi⟩ := h.inv hP'
  obtain ⟨s', hi', h3, h4, h5⟩ := exec_mem hP' hi ho he
  refine ⟨h4, ?_, ?_⟩
  · rcases h5 with h5 | h5
    · omega
    · rw [h5]; exact grow_cap_ge
  · rintro id m v rfl
    rcases delete_spec hP' hi id ho v m with ⟨h1, h2⟩ | ⟨k, c0, d, t1, s1, hk, h1, h2⟩
    · rw [exec_delete (id := id) h1] at he
      cases he
      exact ⟨rfl, rfl⟩
    · rw [exec_delete (id := id) h1] at he
      cases he
      exact ⟨h2.len, cap_delete h1⟩

end Verif.Tree
