import Verif.GTree.Props
import Verif.GTree.Cell64Props
import Verif.Tree.CloneProps

/-! What a clone of a tree of claimed prefixes does (C71), and the size of the value map (C69). -/

set_option linter.unusedSectionVars false
namespace Verif.GTree
open Verif.Id
open Verif.Tree (Tree Out newTree)
variable {I : Impl} {L : Type} [Labels L]

/-- the call panics -/
def Panics {α : Type} (o : Out α) : Prop := ∃ m, o = .panic m

/-- what the calls on a tree with `n` entries return if all entries are nil -/
structure Hollow (g : GTree I L) (n : Nat) : Prop where
  size : g.count = .ok n
  all : g.getAll = .ok (List.replicate n none)
  get : ∀ id, if n = 0 then g.get id = .ok none else Panics (g.get id)
  children : ∀ id, if n = 0 then g.children id = .ok [] else Panics (g.children id)
  parents : ∀ id, if n = 0 then g.parents id = .ok [] else Panics (g.parents id)
  byLabel : ∀ sel, if n = 0 then g.getByLabel sel = .ok [] else Panics (g.getByLabel sel)
  release : ∀ id, if !g.valid id then g.releaseID id = .ok (.err, g)
    else if n = 0 then g.releaseID id = .ok (.ok (), g) else Panics (g.releaseID id)
  releaseByLabel : ∀ sel, if n = 0 then g.releaseByLabel sel = .ok g else Panics (g.releaseByLabel sel)
  claimFree : ∀ l, n ≠ 0 → Panics (g.claimFree l)

theorem Panics.bind {α β : Type} {o : Out α} (h : Panics o) (f : α → Out β) : Panics (o >>= f) := by
  obtain ⟨m, rfl⟩ := h
  exact ⟨m, rfl⟩

theorem hollow_of {g : GTree I L} {n : Nat} (h1 : g.count = .ok n) (h2 : g.entries = .ok (List.replicate n none)) :
    Hollow g n := by
  have hget : ∀ id, if n = 0 then g.get id = .ok none else Panics (g.get id) := by
    intro id
    unfold GTree.get
    rw [h2]
    cases n with
    | zero => rfl
    | succ n => exact ⟨_, rfl⟩
  have hov : ∀ (id : MyId I.P) c, if n = 0 then (g.entries >>= overlapLoop id c) = .ok [] else
      Panics (g.entries >>= overlapLoop id c) := by
    intro id c
    rw [h2]
    cases n with
    | zero => rfl
    | succ n => exact ⟨_, rfl⟩
  have hlab : ∀ sel, if n = 0 then g.getByLabel sel = .ok [] else Panics (g.getByLabel sel) := by
    intro sel
    unfold GTree.getByLabel
    rw [h2]
    cases n with
    | zero => rfl
    | succ n => exact ⟨_, rfl⟩
  refine ⟨h1, h2, hget, fun id => hov id _, fun id => hov id _, hlab, ?_, ?_, ?_⟩
  · intro id
    unfold GTree.releaseID
    cases hv : g.valid id with
    | false => simp
    | true =>
      simp only [Bool.not_true, Bool.false_eq_true, if_false]
      have := hget id
      by_cases hn : n = 0
      · rw [if_pos hn] at this ⊢
        rw [this]
        rfl
      · rw [if_neg hn] at this ⊢
        exact this.bind _
  · intro sel
    unfold GTree.releaseByLabel
    have := hlab sel
    by_cases hn : n = 0
    · rw [if_pos hn] at this ⊢
      rw [this]
      rfl
    · rw [if_neg hn] at this ⊢
      exact this.bind _
  · intro l hn
    have hch : ∀ id, Panics (g.children id) := by
      intro id
      have := hov id (fun l => decide (l > id.len))
      rw [if_neg hn] at this
      exact this
    have hff : Panics g.findFree := by
      unfold GTree.findFree
      simp only []
      cases hb : (ofRes (Builder.empty.addId (⟨0, I.rootLen g.length⟩ : MyId I.P))) with
      | ok b => exact (hch ⟨0, I.rootLen g.length⟩).bind _
      | panic m => exact Panics.bind ⟨m, rfl⟩ _
      | realloc => cases hx : (Builder.empty.addId (⟨0, I.rootLen g.length⟩ : MyId I.P)) <;> rw [hx] at hb <;> cases hb
      | diverge => cases hx : (Builder.empty.addId (⟨0, I.rootLen g.length⟩ : MyId I.P)) <;> rw [hx] at hb <;> cases hb
    exact hff.bind _

theorem firsts_default {V : Type} [Inhabited V] : ∀ (xs : List Nat),
    firsts (xs.map (fun x => (x, [(default : V)]))) = .ok (List.replicate xs.length default)
  | [] => rfl
  | x :: xs => by
    show (firsts (xs.map _) >>= _) = _
    rw [firsts_default xs]
    rfl

/-- **C71, partial** (tree16, tree32) What a clone of a tree with `n` entries does, if fewer than `2^W` nodes
are in use: `Size` is `n`, `GetAll` returns `n` nil entries, and every call that looks at an entry panics unless
there is none. Missing: the entries (violated above), and `ClaimID`, `Update` and `ClaimRange` on clones. -/
theorem C71_clone_hollow_partial (hI : I = tree16 ∨ I = tree32) {length : Nat} {g : GTree I L} {M : Map I.P L}
    (h : Reach I length g M) (hn : g.tree.nodes.length ≤ 2 ^ I.P.W) :
    ∃ n, g.count = .ok n ∧ Hollow g.clone n := by
  have hg := h.ginv hI
  have hP : I.P = id16 ∨ I.P = id32 := by rcases hI with rfl | rfl <;> simp [tree16, tree32]
  obtain ⟨s, h1, h2, h3⟩ := hg.tree
  obtain ⟨K, k1, vis, k2, k3⟩ := Verif.Tree.visit_map h1 h2
  have hone : ∀ e ∈ vis, e.2.length = 1 := by
    intro e he
    have : e.2 ∈ vis.map (·.2) := List.mem_map.2 ⟨e, he, rfl⟩
    rw [k3] at this
    obtain ⟨x, _, hx⟩ := List.mem_map.1 this
    rw [← hx]
    rfl
  obtain ⟨vis', v1, v2⟩ := Verif.Tree.C49_clone_visit_partial hP hg.reach
  rw [k2] at v1
  cases v1
  have hlt : ∀ e ∈ vis, e.1 < g.tree.nodes.length := by
    have hv := Verif.Tree.visit_spec h1
    rw [k2] at hv
    cases hv
    intro e he
    obtain ⟨⟨q, x, c⟩, hx, rfl⟩ := List.mem_map.1 he
    exact h1.entry_lt (Verif.Tree.Sh.mem_entries_idx hx)
  have hc := v2 (fun e he => by rw [hone e he]; have := hlt e he; omega)
  have hc' : g.clone.tree.visit = .ok ((vis.map (·.1)).map (fun x => (x, [(default : Option (Entry I.P L))]))) := by
    show g.tree.clone.visit = _
    rw [hc, List.map_map]
    congr 1
    apply List.map_congr_left
    intro e he
    rw [hone e he]
    rfl
  refine ⟨vis.length, by unfold GTree.count; rw [k2]; rfl, hollow_of ?_ ?_⟩
  · unfold GTree.count
    rw [hc']
    show Out.ok _ = _
    simp
  · unfold GTree.entries
    rw [hc']
    show firsts _ = _
    rw [firsts_default, List.length_map]
    rfl

/-- a tree within the bound -/
example : ∃ (g : GTree tree16 Bool) (M : Map tree16.P Bool), Reach tree16 4 g M ∧ g.tree.nodes.length ≤ 2 ^ 16 :=
  ⟨⟨newTree id16, 15, 4⟩, _, .new rfl, by decide⟩

/-- **C71, partial** (tree64) The same. -/
theorem C71_clone_hollow64_partial {length : Nat} {g : GTree tree64 L} {st : Shared L} (h : Reach64 length g st)
    (hn : g.tree.nodes.length ≤ 2 ^ 64) : ∃ n, g.count = .ok n ∧ Hollow g.clone n := by
  obtain ⟨s, hs⟩ := h.inv.tree
  have hv := Verif.Tree.visit_spec hs.inv
  have hc := Verif.Tree.clone_visit hv
  have hc' : g.clone.tree.visit = .ok (((s.entries []).map (·.2.1)).map
      (fun x => (x, [(default : Option (Entry tree64.P L))]))) := by
    show g.tree.clone.visit = _
    rw [hc, List.map_map, List.map_map]
    congr 1
    apply List.map_congr_left
    rintro ⟨q, x, n⟩ he
    have := hs.one _ _ _ he
    subst this
    show (x, Verif.Tree.copyVals g.tree x _) = (x, _)
    rw [Verif.Tree.length_valsAt, Verif.Tree.copyVals_default]
    · rfl
    · intro j hj
      have hlt := hs.inv.entry_lt (Verif.Tree.Sh.mem_entries_idx he)
      have hpos := (hs.inv.rep.lt x (Verif.Tree.Sh.mem_entries_idx he)).2
      have hj0 : j = 0 := by simp only at hj; omega
      subst hj0
      apply hs.only
      intro h0
      have := congrArg BitVec.toNat h0
      simp only [BitVec.ofNat_eq_ofNat, BitVec.add_zero, BitVec.toNat_ofNat] at this
      rw [Nat.mod_eq_of_lt (by omega)] at this
      simp at this
      omega
  refine ⟨(s.entries []).length, by unfold GTree.count; rw [hv]; simp, hollow_of ?_ ?_⟩
  · unfold GTree.count
    rw [hc']
    show Out.ok _ = _
    simp
  · unfold GTree.entries
    rw [hc']
    show firsts _ = _
    rw [firsts_default, List.length_map]
    rfl

example : ∃ (g : GTree tree64 Bool), new tree64 Bool 4 = some g ∧ g.tree.nodes.length ≤ 2 ^ 64 := ⟨_, rfl, by decide⟩

/-- **C69** (tree16; tree32 with room) The value map has exactly one entry per claimed prefix: no call leaves
values behind. -/
theorem C69_gtree_partial (hI : I = tree16 ∨ I = tree32) {length : Nat} {g : GTree I L} {M : Map I.P L}
    (h : Reach I length g M) : g.count = .ok g.tree.vals.len := by
  have hg := h.ginv hI
  have hP : I.P = id16 ∨ I.P = id32 := by rcases hI with rfl | rfl <;> simp [tree16, tree32]
  obtain ⟨s, h1, h2, h3⟩ := hg.tree
  obtain ⟨K, k1, vis, k2, k3⟩ := Verif.Tree.visit_map h1 h2
  obtain ⟨vis', v1, v2⟩ := Verif.Tree.C69_vals_no_leak_partial hP hg.reach
  rw [k2] at v1
  cases v1
  have hone : ∀ e ∈ vis, e.2.length = 1 := by
    intro e he
    have : e.2 ∈ vis.map (·.2) := List.mem_map.2 ⟨e, he, rfl⟩
    rw [k3] at this
    obtain ⟨x, _, hx⟩ := List.mem_map.1 this
    rw [← hx]
    rfl
  have hsum : (vis.map (fun e => e.2.length)).sum = vis.length := by
    clear k2 k3 v2 h1 h2 h3
    induction vis with
    | nil => rfl
    | cons e vis ih =>
      rw [List.map_cons, List.sum_cons, ih (fun e' h' => hone e' (by simp [h'])), hone e (by simp)]
      simp
      omega
  rw [v2, hsum]
  unfold GTree.count
  rw [k2]
  rfl

-- two claims: the original works, the clone has two nil entries
example : (match ((fresh tree16 16).after [.claim ⟨0, 16⟩ true, .claim ⟨1, 16⟩ false]).clone.getAll with
    | .ok l => some (l.map Option.isSome)
    | _ => none) = some [false, false] ∧
    ((fresh tree16 16).after [.claim ⟨0, 16⟩ true, .claim ⟨1, 16⟩ false]).tree.nodes.length ≤ 2 ^ 16 ∧
    ((fresh tree16 16).after [.claim ⟨0, 16⟩ true, .claim ⟨1, 16⟩ false]).tree.vals.len = 2 := by decide

end Verif.GTree
