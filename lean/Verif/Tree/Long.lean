import Verif.Tree.Leak

/-! Prefixes that are longer than the width (C68): what happens to them in a new tree, whatever the
width, the id and the length. -/

namespace Verif.Tree
open Verif.Id
variable {T : Type} [Inhabited T] {P : Pkg}

/-- the tree after `Set(p/n, a)` on a new tree -/
def oneTree (P : Pkg) (p : BitVec P.W) (n : Nat) (a : T) : Tree T :=
  ⟨some P.W, P.W, [default, if leftBit (⟨p, n⟩ : MyId P) then ⟨0, 2, 0, 0, 0⟩ else ⟨2, 0, 0, 0, 0⟩,
    ⟨0, 0, p.setWidth 64, n, 1⟩], 6, [], GoMap.empty.set (BitVec.ofNat 64 2 <<< P.W) a⟩

theorem node_default : (default : Node) = ⟨0, 0, 0, 0, 0⟩ := rfl

theorem set_newTree (p : BitVec P.W) {n : Nat} (h : n ≠ 0) (a : T) :
    (newTree P : Tree T).set (⟨p, n⟩ : MyId P) a = .ok (true, 1, oneTree P p n a) := by
  cases hl : leftBit (⟨p, n⟩ : MyId P) <;>
    simp [Tree.set, Tree.add, Tree.grow, newTree, Tree.node, Tree.newLeaf, Tree.newNode, Tree.addVal,
      Tree.upd, Tree.count, findMatch, Tree.key, oneTree, MyId.val64, bind, Out.bind, pure, hl, h,
      node_default]

theorem matchesId_self (h : P.W ≤ 64) (p : BitVec P.W) (n : Nat) :
    matchesId (⟨p, n⟩ : MyId P) (p.setWidth 64) = P.W := by
  have e : (p.setWidth 64).setWidth P.W = p := by
    apply BitVec.eq_of_toNat_eq
    rw [BitVec.toNat_setWidth, BitVec.toNat_setWidth]
    have := p.isLt
    have h2 : 2 ^ P.W ≤ 2 ^ 64 := Nat.pow_le_pow_right (by omega) h
    rw [Nat.mod_eq_of_lt (b := 2 ^ 64) (by omega), Nat.mod_eq_of_lt this]
  unfold matchesId
  rw [show (⟨p, n⟩ : MyId P).id = p from rfl, e, BitVec.xor_self]
  unfold leadingZeros
  rw [if_pos (by simp)]
  omega

/-- a prefix that is too long is not seen to be equal to itself -/
theorem matchCount_long (h : P.W ≤ 64) (p : BitVec P.W) {n : Nat} (hn : P.W < n) (l r c : Nat) :
    matchCount ⟨l, r, p.setWidth 64, n, c⟩ (⟨p, n⟩ : MyId P) = P.W := by
  unfold matchCount
  rw [matchesId_self h]
  simp only [Nat.lt_irrefl, if_false]
  rw [if_neg (by omega)]

/-- the tree after a second `Set` of the same prefix: it is stored twice -/
def twoTree (W : Nat) (p : BitVec 64) (l : Bool) (n : Nat) (a b : T) : Tree T :=
  ⟨some W, W, [default, if l then ⟨0, 3, 0, 0, 0⟩ else ⟨3, 0, 0, 0, 0⟩, ⟨0, 0, p <<< W, n, 1⟩, ⟨2, 4, p, W, 0⟩,
    ⟨0, 0, 0, n, 1⟩], 14, [], (GoMap.empty.set (BitVec.ofNat 64 2 <<< W) a).set (BitVec.ofNat 64 4 <<< W) b⟩

theorem set_oneTree (h0 : 0 < P.W) (h : P.W ≤ 64) (p : BitVec P.W) {n : Nat} (hn : P.W < n) (h8 : n < 256) (a b : T) :
    (oneTree P p n a).set (⟨p, n⟩ : MyId P) b = .ok (true, 1, twoTree P.W (p.setWidth 64) (leftBit (⟨p, n⟩ : MyId P)) (n - P.W) a b) := by
  have hm := fun l r c => matchCount_long h p hn l r c
  have hs : sub8 n P.W = n - P.W := by unfold sub8; omega
  have hz : p <<< P.W = 0 := by simp
  have hb : isLeftBitSet P.W (p.setWidth 64 <<< P.W) = false := by
    have e : (p.setWidth 64 <<< P.W).setWidth P.W = 0 := by
      apply BitVec.eq_of_toNat_eq
      rw [BitVec.toNat_setWidth, BitVec.toNat_shiftLeft, Nat.shiftLeft_eq,
        Nat.mod_mod_of_dvd _ (Nat.pow_dvd_pow 2 h)]
      simp
    unfold isLeftBitSet
    rw [e, decide_eq_false_iff_not, BitVec.le_def, BitVec.toNat_shiftLeft, Nat.shiftLeft_eq]
    have h1 : (1 : BitVec P.W).toNat = 1 := by
      have : 2 ^ 1 ≤ 2 ^ P.W := Nat.pow_le_pow_right (by omega) h0
      simp only [BitVec.ofNat_eq_ofNat, BitVec.toNat_ofNat]
      exact Nat.mod_eq_of_lt (by omega)
    have h2 : 2 ^ (P.W - 1) < 2 ^ P.W := Nat.pow_lt_pow_right (by omega) (by omega)
    have h3 : 0 < 2 ^ (P.W - 1) := Nat.two_pow_pos _
    rw [h1, Nat.one_mul, Nat.mod_eq_of_lt h2]
    simp
  have hW : P.W ≠ 0 := by omega
  have hn0 : n ≠ 0 := by omega
  have hn1 : P.W ≠ n := by omega
  cases hl : leftBit (⟨p, n⟩ : MyId P) <;>
    simp [Tree.set, Tree.add, Tree.grow, Tree.node, Tree.newLeaf, Tree.newNode, Tree.addVal, addLoop,
      Tree.upd, Tree.count, findMatch, Tree.key, oneTree, twoTree, MyId.val64, bind, Out.bind, pure, hl, hn0, hm, hW,
      hn1, hs, hb, shiftLeft, shiftLength, Tree.isLeft, Tree.relink, node_default]

theorem visit_oneTree (p : BitVec P.W) (n : Nat) (a : T) : (oneTree P p n a).visit = .ok [(2, [a])] := by
  have hv : getV (GoMap.empty.set (BitVec.ofNat 64 2 <<< P.W) a) (BitVec.ofNat 64 2 <<< P.W) = a := by
    unfold getV; rw [GoMap.get?_set, if_pos rfl]; rfl
  unfold oneTree
  cases leftBit (⟨p, n⟩ : MyId P) <;>
    simp [Tree.visit, visitLoop, next, nextLoop, round, roundLeft, roundRight, roundUp, Tree.iterate, Tree.node,
      Tree.valsForNode, Tree.key, bind, Out.bind, pure, List.range_succ] <;> exact hv

theorem visit_twoTree {W : Nat} (hW : W = 16 ∨ W = 32 ∨ W = 64) (p : BitVec 64) (l : Bool) (n : Nat) (a b : T) :
    (twoTree W p l n a b).visit = .ok [(2, [if W = 64 then b else a]), (4, [b])] := by
  have hk : BitVec.ofNat 64 2 <<< W = BitVec.ofNat 64 4 <<< W ↔ W = 64 := by
    rcases hW with rfl | rfl | rfl <;> decide
  have h2 : getV ((GoMap.empty.set (BitVec.ofNat 64 2 <<< W) a).set (BitVec.ofNat 64 4 <<< W) b)
      (BitVec.ofNat 64 2 <<< W) = if W = 64 then b else a := by
    unfold getV
    rw [GoMap.get?_set]
    by_cases h : W = 64
    · rw [if_pos (hk.2 h), if_pos h]; rfl
    · rw [if_neg (fun e => h (hk.1 e)), GoMap.get?_set, if_pos rfl, if_neg h]; rfl
  have h4 : getV ((GoMap.empty.set (BitVec.ofNat 64 2 <<< W) a).set (BitVec.ofNat 64 4 <<< W) b)
      (BitVec.ofNat 64 4 <<< W) = b := by
    unfold getV; rw [GoMap.get?_set, if_pos rfl]; rfl
  unfold twoTree
  cases l <;>
    simp [Tree.visit, visitLoop, next, nextLoop, round, roundLeft, roundRight, roundUp, Tree.iterate, Tree.node,
      Tree.valsForNode, Tree.key, bind, Out.bind, pure, List.range_succ] <;> exact ⟨h2, h4⟩

omit [Inhabited T] in
theorem findLoop_long (h : P.W ≤ 64) (p : BitVec P.W) {n : Nat} (hn : P.W < n) (a : T) :
    (oneTree P p n a).findTarget (⟨p, n⟩ : MyId P) = .ok none := by
  have hm := fun l r c => matchCount_long h p hn l r c
  cases hl : leftBit (⟨p, n⟩ : MyId P) <;>
    simp [Tree.findTarget, findLoop, oneTree, Tree.node, bind, Out.bind, pure, hl, hm, hn, show n ≠ 0 by omega]

/-! ### A shorter prefix above a too long one -/

/-- the tree after `Set(p/l, a)` and `Set(p/n, b)` on a new tree -/
def underTree (P : Pkg) (p : BitVec P.W) (l n : Nat) (a b : T) : Tree T :=
  ⟨some P.W, P.W, [default, if leftBit (⟨p, n⟩ : MyId P) then ⟨0, 2, 0, 0, 0⟩ else ⟨2, 0, 0, 0, 0⟩,
    if leftBit (⟨p <<< l, n⟩ : MyId P) then ⟨0, 3, p.setWidth 64, l, 1⟩ else ⟨3, 0, p.setWidth 64, l, 1⟩,
    ⟨0, 0, (p <<< l).setWidth 64, n - l, 1⟩], 14, [],
    (GoMap.empty.set (BitVec.ofNat 64 2 <<< P.W) a).set (BitVec.ofNat 64 3 <<< P.W) b⟩

theorem matchCount_prefix (h : P.W ≤ 64) (p : BitVec P.W) {l n : Nat} (hl : l ≤ P.W) (hn : l ≤ n) (x r c : Nat) :
    matchCount ⟨x, r, p.setWidth 64, l, c⟩ (⟨p, n⟩ : MyId P) = l := by
  unfold matchCount
  rw [matchesId_self h]
  simp only
  split <;> split <;> omega

theorem set_underTree (h : P.W ≤ 64) (p : BitVec P.W) {l n : Nat} (h0 : 0 < l) (hl : l ≤ P.W) (hn : P.W < n)
    (h8 : n < 256) (a b : T) :
    (oneTree P p l a).set (⟨p, n⟩ : MyId P) b = .ok (true, 1, underTree P p l n a b) := by
  have hm := fun x r c => matchCount_prefix h p hl (n := n) (by omega) x r c
  have hs : sub8 n l = n - l := by unfold sub8; omega
  have hn0 : n ≠ 0 := by omega
  have hn1 : l ≠ n := by omega
  have hl0 : l ≠ 0 := by omega
  have e1 : leftBit (⟨p, l⟩ : MyId P) = leftBit (⟨p, n⟩ : MyId P) := rfl
  have e2 : leftBit (⟨p <<< l, n - l⟩ : MyId P) = leftBit (⟨p <<< l, n⟩ : MyId P) := rfl
  unfold oneTree
  rw [e1]
  cases hb : leftBit (⟨p, n⟩ : MyId P) <;> cases hc : leftBit (⟨p <<< l, n⟩ : MyId P) <;>
    simp [Tree.set, Tree.add, Tree.grow, Tree.node, Tree.newLeaf, Tree.newNode, Tree.addVal, addLoop,
      Tree.upd, Tree.count, findMatch, Tree.key, underTree, MyId.val64, bind, Out.bind, pure, hb, hc, hn0, hm,
      hn1, hs, hl0, e2, shiftLeft, node_default]

theorem delete_underTree (hW : P.W = 16 ∨ P.W = 32 ∨ P.W = 64) (p : BitVec P.W) {l n : Nat} (h0 : 0 < l)
    (hl : l ≤ P.W) (hn : P.W < n - l) (a b v : T) (m : T → T → Bool)
    (hmm : ∀ x, m x v = true) :
    (underTree P p l n a b).delete (⟨p, l⟩ : MyId P) m v = .panic "index out of range" := by
  have hm := fun x r c => matchCount_prefix (by omega) p hl (n := l) (Nat.le_refl _) x r c
  have hl0 : l ≠ 0 := by omega
  have e1 : leftBit (⟨p, l⟩ : MyId P) = leftBit (⟨p, n⟩ : MyId P) := rfl
  cases hb : leftBit (⟨p, n⟩ : MyId P) <;> cases hc : leftBit (⟨p <<< l, n⟩ : MyId P) <;>
    simp [Tree.delete, Tree.findTarget, findLoop, Tree.deleteVal, Tree.valsForNode, putBack, Tree.deleteNode,
      Tree.replaceByChild, mergeFromNodes, mergeID, delLoop, Tree.node, Tree.upd, Tree.key, underTree, bind,
      Out.bind, pure, e1, hb, hc, hm, hl0, hmm, List.range_succ, hW, hn, Nat.not_lt.2 hl]

/-! ### C68 -/

/-- **C68** fails for every id and every length above the width, in each of the three packages: a
second `Set` of the same prefix reports a new prefix, and it is stored twice. (In `tree64` the values
share one slot, see `C69`.) -/
theorem C68_twice_violated (hP : P = id16 ∨ P = id32 ∨ P = id64) (p : BitVec P.W) (n : Nat) (hn : P.W < n)
    (h8 : n < 256) (a b : T) :
    observe P [.set ⟨p, n⟩ a, .set ⟨p, n⟩ b] =
      some ([.added true 1, .added true 1], [[if P.W = 64 then b else a], [b]]) := by
  have hW : P.W = 16 ∨ P.W = 32 ∨ P.W = 64 := by
    rcases hP with rfl | rfl | rfl
    · exact .inl rfl
    · exact .inr (.inl rfl)
    · exact .inr (.inr rfl)
  have h1 := set_newTree p (n := n) (by omega) a
  have h2 := set_oneTree (by omega) (by omega) p hn h8 a b
  have h3 := visit_twoTree hW (p.setWidth 64) (leftBit (⟨p, n⟩ : MyId P)) (n - P.W) a b
  simp only [observe, run, Op.exec, h1, h2, h3, bind, Out.bind, pure]
  rfl

/-- **C68** fails for every id and every length above the width: a `Delete` after a `Set` of the same
prefix removes nothing, whatever it matches. -/
theorem C68_delete_violated (hP : P = id16 ∨ P = id32 ∨ P = id64) (p : BitVec P.W) (n : Nat) (hn : P.W < n)
    (a v : T) (m : T → T → Bool) :
    observe P [.set ⟨p, n⟩ a, .delete ⟨p, n⟩ m v] = some ([.added true 1, .deleted 0], [[a]]) := by
  have hW : P.W = 16 ∨ P.W = 32 ∨ P.W = 64 := by
    rcases hP with rfl | rfl | rfl
    · exact .inl rfl
    · exact .inr (.inl rfl)
    · exact .inr (.inr rfl)
  have h1 := set_newTree p (n := n) (by omega) a
  have h2 := findLoop_long (by omega) p hn a
  have h3 := visit_oneTree p n a
  simp only [observe, run, Op.exec, Tree.delete, h1, h2, h3, bind, Out.bind, pure]
  rfl

/-- **C68** fails: a prefix that is too long breaks the calls for prefixes that are not. With `p/l` and
the much longer `p/n` stored (longer by more than the width), the deletion of `p/l` panics, for every
`p`, `l` and `n`. -/
theorem C68_panic_violated (hP : P = id16 ∨ P = id32 ∨ P = id64) (p : BitVec P.W) (l n : Nat) (h0 : 0 < l)
    (hl : l ≤ P.W) (hn : l + P.W < n) (h8 : n < 256) (a b v : T) (m : T → T → Bool) (hm : ∀ x, m x v = true) :
    run (newTree P) [.set ⟨p, l⟩ a, .set ⟨p, n⟩ b, .delete ⟨p, l⟩ m v] = .panic "index out of range" := by
  have hW : P.W = 16 ∨ P.W = 32 ∨ P.W = 64 := by
    rcases hP with rfl | rfl | rfl
    · exact .inl rfl
    · exact .inr (.inl rfl)
    · exact .inr (.inr rfl)
  have h1 := set_newTree p (n := l) (by omega) a
  have h2 := set_underTree (by omega) p h0 hl (n := n) (by omega) h8 a b
  have h3 := delete_underTree hW p h0 hl (n := n) (by omega) a b v m hm
  simp only [run, Op.exec, h1, h2, h3, bind, Out.bind, pure]

example : run (P := id32) (newTree id32) [.set ⟨0x0a000000, 8⟩ 1, .set ⟨0x0a000000, 48⟩ 2,
    .delete ⟨0x0a000000, 8⟩ (fun _ _ => true) 1] = .panic "index out of range" :=
  C68_panic_violated (.inr (.inl rfl)) _ _ _ (by decide) (by decide) (by decide) (by decide) _ _ _ _ (fun _ => rfl)

example : observe id32 [.set ⟨7, 64⟩ 1, .set ⟨7, 64⟩ 2] = some ([.added true 1, .added true 1], [[1], [2]]) :=
  C68_twice_violated (.inr (.inl rfl)) _ _ (by decide) (by decide) _ _

example : observe id64 [.set ⟨7, 65⟩ 1, .delete ⟨7, 65⟩ (fun _ _ => true) 1] =
    some ([.added true 1, .deleted 0], [[1]]) :=
  C68_delete_violated (.inr (.inr rfl)) _ _ (by decide) _ _ _

end Verif.Tree
