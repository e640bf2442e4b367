import Verif.Tree.MemProps

/-! What holds for all stored values still does after a call, if it holds for the value of the call. -/

namespace Verif.Tree
open Verif.Id
variable {T : Type} [Inhabited T] {P : Pkg} {φ : T → Prop}

/-- all values, and the zero value, satisfy `φ` -/
def VAll (φ : T → Prop) (vals : GoMap (BitVec 64) T) : Prop := φ default ∧ ∀ k, φ (getV vals k)

theorem VAll.set {vals : GoMap (BitVec 64) T} (h : VAll φ vals) (k : BitVec 64) {v : T} (hv : φ v) : VAll φ (vals.set k v) := by
  refine ⟨h.1, fun k' => ?_⟩
  rw [getV_set]
  split
  · exact hv
  · exact h.2 k'

theorem VAll.del {vals : GoMap (BitVec 64) T} (h : VAll φ vals) (k : BitVec 64) : VAll φ (vals.del k) := by
  refine ⟨h.1, fun k' => ?_⟩
  rw [getV_del]
  split
  · exact h.1
  · exact h.2 k'

theorem VAll.valStep {vals : GoMap (BitVec 64) T} (h : VAll φ vals) (key : BitVec 64) (c : Nat) {val : T} (hv : φ val)
    (m : Option (T → T → Bool)) {u : Option (T → T)} (hu : ∀ f, u = some f → ∀ v, φ v → φ (f v)) :
    VAll φ (valStep vals key c val m u).2 := by
  unfold Tree.valStep
  dsimp only
  split
  · cases u with
    | some f => exact h.set _ (hu _ rfl _ (h.2 _))
    | none => exact h
  · exact h.set _ hv

theorem VAll.moveLoop {f t : BitVec 64} : ∀ {n i : Nat} {vals : GoMap (BitVec 64) T}, VAll φ vals →
    VAll φ (moveLoop f t n i vals) := by
  intro n
  induction n with
  | zero => intro i vals h; exact h
  | succ n ih => intro i vals h; exact ih ((h.set _ (h.2 _)).del _)

theorem VAll.delLoop {key : BitVec 64} : ∀ {n i : Nat} {vals : GoMap (BitVec 64) T}, VAll φ vals →
    VAll φ (delLoop key n i vals) := by
  intro n
  induction n with
  | zero => intro i vals h; exact h
  | succ n ih => intro i vals h; exact ih (h.del _)

theorem VAll.addVal {t t' : Tree T} {val : T} {i : Nat} {m} {b : Bool} (h : VAll φ t.vals) (hv : φ val)
    (he : t.addVal val i m none = .ok (b, t')) : VAll φ t'.vals := by
  unfold Tree.addVal at he
  obtain ⟨n, _, he⟩ := Out.of_bind he
  dsimp only at he
  split at he
  · cases he; exact h
  · cases he; exact h.set _ hv

theorem VAll.putBack {i : Nat} {m : T → T → Bool} {v : T} : ∀ {buf : List T} {t t' : Tree T} {d k d' k' : Nat},
    VAll φ t.vals → (∀ x ∈ buf, φ x) → putBack i m v buf t d k = .ok (t', d', k') → VAll φ t'.vals := by
  intro buf
  induction buf with
  | nil => intro t t' d k d' k' h _ he; cases he; exact h
  | cons tag buf ih =>
    intro t t' d k d' k' h hb he
    unfold Tree.putBack at he
    split at he
    · exact ih h (fun x hx => hb x (by simp [hx])) he
    · obtain ⟨⟨b, t1⟩, h1, he⟩ := Out.of_bind he
      exact ih (h.addVal (hb tag (by simp)) h1) (fun x hx => hb x (by simp [hx])) he

theorem VAll.valsForNode {t : Tree T} {i : Nat} {l : List T} (h : VAll φ t.vals) (he : t.valsForNode i = .ok l) : ∀ x ∈ l, φ x := by
  unfold Tree.valsForNode at he
  split at he
  · cases he; intro x hx; cases hx
  · obtain ⟨n, _, he⟩ := Out.of_bind he
    cases he
    intro x hx
    obtain ⟨j, _, rfl⟩ := List.mem_map.1 hx
    exact h.2 _

theorem VAll.deleteVal {t t' : Tree T} {i : Nat} {v : T} {m : T → T → Bool} {d k : Nat} (h : VAll φ t.vals)
    (he : t.deleteVal i v m = .ok (t', d, k)) : VAll φ t'.vals := by
  unfold Tree.deleteVal at he
  obtain ⟨buf, hb, he⟩ := Out.of_bind he
  split at he
  · cases he; exact h
  · obtain ⟨n, _, he⟩ := Out.of_bind he
    exact VAll.putBack (h.delLoop (key := t.key i) (n := n.cnt) (i := 0)) (h.valsForNode hb) he

theorem VAll.moveTags {t t' : Tree T} {i j : Nat} (h : VAll φ t.vals) (he : t.moveTags i j = .ok t') : VAll φ t'.vals := by
  unfold Tree.moveTags at he
  obtain ⟨f, _, he⟩ := Out.of_bind he
  cases he
  exact (h.moveLoop :)

theorem VAll.mergeSibling {t t' : Tree T} {i j : Nat} (h : VAll φ t.vals) (he : t.mergeSibling i j = .ok t') :
    VAll φ t'.vals := by
  unfold Tree.mergeSibling at he
  obtain ⟨p, _, he⟩ := Out.of_bind he
  obtain ⟨s, _, he⟩ := Out.of_bind he
  obtain ⟨⟨id, l⟩, _, he⟩ := Out.of_bind he
  obtain ⟨t1, h1, he⟩ := Out.of_bind he
  obtain ⟨s', _, he⟩ := Out.of_bind he
  cases he
  have : VAll φ (t.upd i fun n => { n with id := id, len := l }).vals := h
  exact (this.moveTags h1 :)

theorem VAll.replaceByChild {t t' : Tree T} {i j k : Nat} (h : VAll φ t.vals) (he : t.replaceByChild i j k = .ok t') :
    VAll φ t'.vals := by
  unfold Tree.replaceByChild at he
  obtain ⟨p, _, he⟩ := Out.of_bind he
  obtain ⟨n, _, he⟩ := Out.of_bind he
  obtain ⟨c, _, he⟩ := Out.of_bind he
  obtain ⟨⟨id, l⟩, _, he⟩ := Out.of_bind he
  cases he
  by_cases hp : p.left = i <;> simpa [hp, Tree.upd] using h

theorem VAll.deleteNode {t t' : Tree T} {i j : Nat} (h : VAll φ t.vals) (he : t.deleteNode i j = .ok t') : VAll φ t'.vals := by
  unfold Tree.deleteNode at he
  split at he
  · cases he; exact h
  · obtain ⟨n, _, he⟩ := Out.of_bind he
    split at he
    · cases he; exact h
    · dsimp only at he
      split at he
      · obtain ⟨t1, h1, he⟩ := Out.of_bind he
        cases he
        exact (h.replaceByChild h1 :)
      · split at he
        · obtain ⟨t1, h1, he⟩ := Out.of_bind he
          cases he
          exact (h.replaceByChild h1 :)
        · obtain ⟨p, _, he⟩ := Out.of_bind he
          split at he <;> split at he
          · obtain ⟨t1, h1, he⟩ := Out.of_bind he
            cases he
            have : VAll φ (t.upd j fun n => { n with left := 0 }).vals := h
            exact (this.mergeSibling h1 :)
          · cases he; exact h
          · obtain ⟨t1, h1, he⟩ := Out.of_bind he
            cases he
            have : VAll φ (t.upd j fun n => { n with right := 0 }).vals := h
            exact (this.mergeSibling h1 :)
          · cases he; exact h

theorem VAll.delete {t t' : Tree T} {id : MyId P} {m : T → T → Bool} {v : T} {d : Nat} (h : VAll φ t.vals)
    (he : t.delete id m v = .ok (d, t')) : VAll φ t'.vals := by
  unfold Tree.delete at he
  obtain ⟨o, _, he⟩ := Out.of_bind he
  split at he
  · cases he; exact h
  · obtain ⟨n, _, he⟩ := Out.of_bind he
    split at he
    · cases he; exact h
    · obtain ⟨⟨t1, d1, k1⟩, h1, he⟩ := Out.of_bind he
      dsimp only at he
      split at he
      · cases he; exact h.deleteVal h1
      · obtain ⟨t2, h2, he⟩ := Out.of_bind he
        cases he
        exact (h.deleteVal h1).deleteNode h2

theorem VAll.tset (hP : WidthOk P.W) {t t' : Tree T} {s : Sh} (hi : Inv P.W t s) {id : MyId P} (hid : id.len ≤ P.W) {val : T}
    {b : Bool} {c : Nat} (h : VAll φ t.vals) (hv : φ val) (he : t.set id val = .ok (b, c, t')) : VAll φ t'.vals := by
  obtain ⟨bb, c', t1, s1, k, c0, used, h1, _, _, _, h5, _⟩ :=
    add_spec hP hi id hid val (some (fun _ _ => true)) (some (fun _ => val))
  have he' : t.add id val (some (fun _ _ => true)) (some (fun _ => val)) = .ok (b, c, t') := he
  rw [h1] at he'
  cases he'
  have := congrArg Prod.snd h5
  rw [show t'.vals = _ from this]
  exact h.valStep _ _ hv _ (by rintro f ⟨⟩ v _; exact hv)

end Verif.Tree
