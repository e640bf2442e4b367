import Verif.Tree.Long
import Verif.GTree.Free
import Verif.GTree.Props

/-! Ids longer than the width claimed in the trees of `pkg/tree/tree16`, `pkg/tree/tree32` (C68). -/

set_option linter.unusedSectionVars false
namespace Verif.GTree
open Verif.Id
open Verif.Tree (Tree Out newTree oneTree)
variable {I : Impl} {L : Type} [Labels L]

/-- the tree after `ClaimID(p/n)` on a new tree of length `length` -/
def longTree (I : Impl) (length : Nat) (p : BitVec I.P.W) (n : Nat) (l : L) : GTree I L :=
  ⟨oneTree I.P p n (some ⟨⟨p, n⟩, l⟩), ((1 : BitVec I.P.W) <<< length) - 1, length⟩

theorem entries_longTree (length : Nat) (p : BitVec I.P.W) (n : Nat) (l : L) :
    (longTree I length p n l).entries = .ok [some ⟨⟨p, n⟩, l⟩] := by
  unfold GTree.entries
  rw [show (longTree I length p n l).tree.visit = _ from Verif.Tree.visit_oneTree p n _]
  rfl

theorem valid_new (hW : 1 < I.P.W) {length : Nat} {g : GTree I L} (hg : new I L length = some g) {p : BitVec I.P.W} {n : Nat}
    (hp : p.toNat < 2 ^ length) : g.valid ⟨p, n⟩ = true := by
  unfold new at hg
  split at hg
  · cases hg
  · cases hg
    exact (valid_size rfl (by omega) hW ⟨p, n⟩).2 hp

theorem claimID_long {length : Nat} {g : GTree I L} (hg : new I L length = some g) (p : BitVec I.P.W) {n : Nat}
    (hn : n ≠ 0) (hp : g.valid ⟨p, n⟩ = true) (l : L) :
    g.claimID ⟨p, n⟩ l = .ok (.ok (), longTree I length p n l) := by
  unfold new at hg
  split at hg
  · cases hg
  cases hg
  unfold GTree.claimID
  rw [hp]
  unfold GTree.set
  simp only [Verif.Tree.set_newTree p hn, bind, Out.bind, pure]
  rfl

/-- **C68** fails for `tree16`, `tree32` and `tree64`, whatever the length of the tree, the id and its
length above the width: `ClaimID` succeeds, but `ReleaseID` changes nothing and reports success, and the
entry is still there. -/
theorem C68_release_violated (hI : I = tree16 ∨ I = tree32 ∨ I = tree64) {length : Nat} {g : GTree I L}
    (hg : new I L length = some g) (p : BitVec I.P.W) (hp : p.toNat < 2 ^ length) (n : Nat) (hn : I.P.W < n) (l : L) :
    ∃ g', g.claimID ⟨p, n⟩ l = .ok (.ok (), g') ∧ g'.releaseID ⟨p, n⟩ = .ok (.ok (), g') ∧
      g'.entries = .ok [some ⟨⟨p, n⟩, l⟩] := by
  have hW : I.P.W ≤ 64 := by rcases hI with rfl | rfl | rfl <;> decide
  have hv := valid_new (by rcases hI with rfl | rfl | rfl <;> decide) hg (n := n) hp
  refine ⟨_, claimID_long hg p (by omega) hv l, ?_, entries_longTree _ _ _ _⟩
  unfold GTree.releaseID
  have hv' : (longTree I length p n l).valid ⟨p, n⟩ = true := by
    unfold new at hg
    split at hg
    · cases hg
    cases hg
    exact hv
  rw [hv']
  unfold GTree.get
  rw [entries_longTree]
  have hf := Verif.Tree.findLoop_long hW p hn (some (⟨⟨p, n⟩, l⟩ : Entry I.P L))
  have hd : (longTree I length p n l).del ⟨p, n⟩ ⟨⟨p, n⟩, l⟩ = .ok (longTree I length p n l) := by
    unfold GTree.del Verif.Tree.Tree.delete longTree
    simp only [hf, bind, Out.bind, pure]
  simp only [bind, Out.bind, pure, getLoop, deref, if_true, hd]
  rfl

/-- **C68** fails for `tree16` and `tree32`: once an id longer than the width is claimed, `ClaimFree`
panics although all other ids are free, whatever the length of the tree. (The id is one that `ClaimFree`
considers, the first `rootLen` bits are 0.) -/
theorem C68_claimFree_violated (hI : I = tree16 ∨ I = tree32) {length : Nat} {g : GTree I L}
    (hg : new I L length = some g) (p : BitVec I.P.W) (hp : p.toNat < 2 ^ length)
    (hr : p.toNat < 2 ^ (I.P.W - I.rootLen length)) (n : Nat) (hn : I.P.W < n) (l l' : L) :
    ∃ g', g.claimID ⟨p, n⟩ l = .ok (.ok (), g') ∧ g'.claimFree l' = .panic "nil dereference" := by
  have hO : Ok I := by rcases hI with rfl | rfl
                       · exact .inl rfl
                       · exact .inr rfl
  have hlen : length ≤ I.P.W := by
    unfold new at hg
    split at hg
    · cases hg
    · omega
  have hrl : I.rootLen length ≤ I.P.W := by
    rcases hI with rfl | rfl
    · show Verif.Tree.sub8 16 length ≤ 16
      have : length ≤ 16 := hlen
      unfold Verif.Tree.sub8; omega
    · exact hlen
  have hv := valid_new (by rcases hI with rfl | rfl <;> decide) hg (n := n) hp
  refine ⟨_, claimID_long hg p (by omega) hv l, ?_⟩
  have G := good_of hO
  let root : MyId I.P := ⟨0, I.rootLen length⟩
  have hroot : PrefOk root := prefOk_good G hrl
  obtain ⟨R, hR, hR1, hR2, hR3, hR4⟩ := rangeOfID_spec hroot
  have hRv := rangeOfID_valid hroot hR
  have hadd : (Builder.empty : Builder I.P).addId root = .ok ⟨[R], [], false⟩ := by
    unfold Builder.addId
    rw [hR]
    simp only [isValid_iff.2 hRv, if_true]
    unfold Builder.addRange
    simp [isValid_iff.2 hRv, Builder.empty]
  have hov : (⟨p, n⟩ : MyId I.P).overlaps root = some true := by
    have e : (⟨p, n⟩ : MyId I.P).overlaps root = (⟨p, I.P.W⟩ : MyId I.P).overlaps root := by
      have e1 : (if n < I.rootLen length then n else I.rootLen length) = I.rootLen length := if_neg (by omega)
      have e2 : (if I.P.W < I.rootLen length then I.P.W else I.rootLen length) = I.rootLen length :=
        if_neg (by omega)
      unfold MyId.overlaps
      simp only [root, e1, e2]
    obtain ⟨z, h1, h2⟩ := overlaps_eq hO.pkg3 (a := (⟨p, I.P.W⟩ : MyId I.P)) (b := root) (Nat.le_refl _) hrl
    rw [e, h1, h2.2 ?_]
    have : min I.P.W (I.rootLen length) = I.rootLen length := by omega
    simp only [root, this]
    rw [Nat.div_eq_of_lt hr]
    simp
  have hrm : ∀ b : Builder I.P, b.removeId ⟨p, n⟩ = .panicNil := by
    intro b
    unfold Builder.removeId
    have : rangeOfID (⟨p, n⟩ : MyId I.P) = none := by
      unfold rangeOfID MyId.mask
      rw [if_pos (by rw [G.maskMax]; exact hn)]
    rw [this]
  have hch : (longTree I length p n l).children root = .ok [⟨⟨p, n⟩, l⟩] := by
    unfold GTree.children
    rw [entries_longTree]
    have : root.len < n := by show I.rootLen length < n; omega
    simp [bind, Out.bind, pure, overlapLoop, deref, hov]
    omega
  have hff : (longTree I length p n l).findFree = .panic "nil dereference" := by
    unfold GTree.findFree
    rw [show (longTree I length p n l).length = length from rfl]
    simp only [show (⟨0, I.rootLen length⟩ : MyId I.P) = root from rfl, hadd, hch, ofRes, removeAll, hrm, bind, Out.bind]
  unfold GTree.claimFree
  rw [hff]
  rfl

/-- 5/33 claimed in a tree of 8 bits is not released, and `ClaimFree` panics -/
example : ∃ g g' : GTree tree32 Bool, new tree32 Bool 8 = some g ∧ g.claimID ⟨5, 33⟩ true = .ok (.ok (), g') ∧
    g'.releaseID ⟨5, 33⟩ = .ok (.ok (), g') ∧ g'.claimFree false = .panic "nil dereference" := by
  obtain ⟨g', h1, h2, _⟩ := C68_release_violated (L := Bool) (.inr (.inl rfl)) (length := 8) rfl (5 : BitVec 32)
    (by decide) 33 (by decide) true
  obtain ⟨g'', h3, h4⟩ := C68_claimFree_violated (L := Bool) (.inr rfl) (length := 8) rfl (5 : BitVec 32)
    (by decide) (by decide) 33 (by decide) true false
  rw [h1] at h3
  cases h3
  exact ⟨_, g', rfl, h1, h2, h4⟩

end Verif.GTree
