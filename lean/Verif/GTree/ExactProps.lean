import Verif.GTree.ClaimProps

/-!
Property C91 of the trees of claimed prefixes: exactly what `ClaimFree` does, in every state. With it, what `ClaimFree`
does in a tree32 of length 16 or more.
-/

namespace Verif.GTree
open Verif.Id
open Verif.Tree (Tree Out newTree)
variable {I : Impl} {L : Type} [Labels L]

/-- the prefix lies within `S` -/
def Inside {P : Pkg} (S : BitVec P.W → Prop) (p : MyId P) : Prop := p.len ≤ P.W ∧ ∀ x, Covers p x → S x

/-- and no larger one around it does -/
def MaxInside {P : Pkg} (S : BitVec P.W → Prop) (p : MyId P) : Prop :=
  Inside S p ∧ ∀ p' : MyId P, Inside S p' → (∀ x, Covers p x → Covers p' x) → p'.len = p.len

/-- `x` is the first value of a maximal block within `S`; no maximal block is smaller, and none of the same size comes
before it -/
def BestIn {P : Pkg} (S : BitVec P.W → Prop) (x : BitVec P.W) : Prop :=
  ∃ p : MyId P, MaxInside S p ∧ Aligned p ∧ p.id = x ∧
    ∀ p' : MyId P, MaxInside S p' → p'.len ≤ p.len ∧ (p'.len = p.len → x ≤ p'.id)

/-- there is at most one -/
theorem BestIn.unique {P : Pkg} {S : BitVec P.W → Prop} {x y : BitVec P.W} (hx : BestIn S x) (hy : BestIn S y) : x = y := by
  obtain ⟨p, p1, _, rfl, p3⟩ := hx
  obtain ⟨q, q1, _, rfl, q3⟩ := hy
  obtain ⟨a1, a2⟩ := p3 q q1
  obtain ⟨b1, b2⟩ := q3 p p1
  have he : q.len = p.len := Nat.le_antisymm a1 b1
  have h1 := a2 he
  have h2 := b2 he.symm
  rw [BitVec.le_def] at h1 h2
  exact BitVec.eq_of_toNat_eq (Nat.le_antisymm h1 h2)

theorem best_of_tightest {P : Pkg} {S : BitVec P.W → Prop} {K : List (MyId P)} {q : MyId P} (k1 : Lists K S)
    (k2 : ∀ p : MyId P, p.len ≤ P.W → (∀ y, Covers p y → S y) → ∃ p' ∈ K, ∀ y, Covers p y → Covers p' y)
    (k3 : Tightest P.W K q) : BestIn S q.id := by
  have hq := tightest_mem k3
  have hK : ∀ p ∈ K, Inside S p := fun p hp => ⟨(k1.aligned p hp).1, fun x hx => (k1.cover x).1 ⟨p, hp, hx⟩⟩
  refine ⟨q, ⟨hK q hq, fun p' hp' hs => ?_⟩, k1.aligned q hq, rfl, fun p' hp' => ?_⟩
  · obtain ⟨p'', c1, c2⟩ := k2 p' hp'.1 hp'.2
    have := lists_disjoint k1 c1 hq (c2 _ (hs _ (covers_self q))) (covers_self q)
    rw [this] at c2
    exact eq_len hp'.1 (hK q hq).1 hs c2
  · obtain ⟨p'', c1, c2⟩ := k2 p' hp'.1.1 hp'.1.2
    have he := hp'.2 p'' (hK p'' c1) c2
    refine ⟨?_, fun heq => ?_⟩
    · rw [← he]; exact tightest_longest k3 c1 (hK p'' c1).1
    · exact tightest_first k3 k1 c1 (hK p'' c1).1 (he.trans heq) (c2 _ (covers_self p'))

/-- the ids among which `ClaimFree` chooses: the first `2^(W - rl)` that no entry with a prefix longer than `rl` covers.
(`rl` is `16 - length` for tree16, so that these are the ids of the tree; for tree32 it is `length`.) -/
def Avail {P : Pkg} (rl : Nat) (M : Map P L) (x : BitVec P.W) : Prop :=
  x.toNat < 2 ^ (P.W - rl) ∧ ∀ q e, M q = some e → rl < e.id.len → ¬ Covers e.id x

omit [Labels L] in
theorem avail_iff {P : Pkg} {rl : Nat} {M : Map P L} {x : BitVec P.W} :
    Avail rl M x ↔ Covers ⟨0, rl⟩ x ∧ ¬ Seen M rl x := by
  rw [covers_zero]
  constructor
  · rintro ⟨h1, h2⟩
    exact ⟨h1, fun ⟨q, e, a, b, c⟩ => h2 q e a b c⟩
  · rintro ⟨h1, h2⟩
    exact ⟨h1, fun q e a b c => h2 ⟨q, e, a, b, c⟩⟩

theorem claimFree_exact (hI : I = tree16 ∨ I = tree32) {length : Nat} {g : GTree I L} {M : Map I.P L}
    (h : Reach I length g M) (l : L) :
    ((∀ x, ¬ Avail (I.rootLen length) M x) ∧ g.exec (.claimFree l) = .ok (.err, g)) ∨
    ∃ x, Avail (I.rootLen length) M x ∧ BestIn (Avail (I.rootLen length) M) x ∧
      (∀ y, BestIn (Avail (I.rootLen length) M) y → y = x) ∧
      (x.toNat < 2 ^ length → Room (put M ⟨x, I.P.W⟩ l) →
        ∃ g', g.exec (.claimFree l) = .ok (.got ⟨⟨x, I.P.W⟩, l⟩, g') ∧ Reach I length g' (put M ⟨x, I.P.W⟩ l)) ∧
      (¬ x.toNat < 2 ^ length → g.exec (.claimFree l) = .ok (.err, g)) := by
  rcases find_cases hI h with ⟨f, h1⟩ | ⟨x, f, h2, h3, K, q, k1, k2, k3, k4⟩
  · left
    exact ⟨fun x hx => (avail_iff.1 hx).2 (h1 x (avail_iff.1 hx).1), claimFree_err f l⟩
  · right
    have hS : (fun y => Covers ⟨0, I.rootLen length⟩ y ∧ ¬ Seen M (I.rootLen length) y) = Avail (I.rootLen length) M :=
      funext fun y => propext avail_iff.symm
    rw [hS] at k1
    have hb : BestIn (Avail (I.rootLen length) M) x := by
      rw [← k4]
      exact best_of_tightest k1 (fun p hp hin => k2 p hp fun y hy => avail_iff.1 (hin y hy)) k3
    refine ⟨x, avail_iff.2 ⟨h2, h3⟩, hb, fun y hy => hy.unique hb, fun hlt hr => ?_, fun hlt => ?_⟩
    · rw [if_pos hlt] at f
      exact claimFree_ok hI h f hlt l hr
    · rw [if_neg hlt] at f
      exact claimFree_err f l

/-- **C91, partial** (tree16, tree32; every length and every reachable state, as long as the map has room) `ClaimFree`
fails, without effect, if no id is available; else it takes the best fit `x` among the available ids, of which there is
one only: if `x` is below `2^length` it is claimed and returned, otherwise `ClaimFree` fails without effect. Missing:
tree64 (`C57_tree64_violated`). -/
theorem C91_claimFree_partial {rl : Nat} {length : Nat} (hI : (I = tree16 ∧ rl = 16 - length) ∨ (I = tree32 ∧ rl = length))
    {g : GTree I L} {M : Map I.P L} (h : Reach I length g M) (l : L) :
    ((∀ x, ¬ Avail rl M x) ∧ g.exec (.claimFree l) = .ok (.err, g)) ∨
    ∃ x, Avail rl M x ∧ BestIn (Avail rl M) x ∧ (∀ y, BestIn (Avail rl M) y → y = x) ∧
      (x.toNat < 2 ^ length → Room (put M ⟨x, I.P.W⟩ l) →
        ∃ g', g.exec (.claimFree l) = .ok (.got ⟨⟨x, I.P.W⟩, l⟩, g') ∧ Reach I length g' (put M ⟨x, I.P.W⟩ l)) ∧
      (¬ x.toNat < 2 ^ length → g.exec (.claimFree l) = .ok (.err, g)) := by
  rcases hI with ⟨rfl, rfl⟩ | ⟨rfl, rfl⟩
  · have hle : length ≤ 16 := (h.ginv (.inl rfl)).le
    have hr : tree16.rootLen length = 16 - length := by
      show Verif.Tree.sub8 16 length = _
      unfold Verif.Tree.sub8
      omega
    rw [← hr]
    exact claimFree_exact (.inl rfl) h l
  · exact claimFree_exact (.inr rfl) h l

-- with 0/6 (the root prefix of a tree16 of length 10) claimed, 0 is still available
example : Avail 6 (put Map.empty ⟨0, 6⟩ true : Map id16 Bool) 0 := by
  refine ⟨by decide, fun q e he hl => ?_⟩
  unfold put Map.empty at he
  split at he
  · cases he; exact absurd hl (by decide)
  · cases he

/-! ### tree32 of length 16 or more -/

/-- what is available when no entry contains the root prefix -/
theorem avail_none {P : Pkg} {rl : Nat} {M : Map P L} (hn : NoneAbove rl M) (x : BitVec P.W) :
    Avail rl M x ↔ x.toNat < 2 ^ (P.W - rl) ∧ ¬ Covered M x := by
  rw [avail_iff, ← covers_zero]
  constructor
  · rintro ⟨h1, h2⟩
    exact ⟨h1, fun hc => h2 ((seen_iff hn h1).2 hc)⟩
  · rintro ⟨h1, h2⟩
    exact ⟨h1, fun hc => h2 ((seen_iff hn h1).1 hc)⟩

/-- **C57, partial** (tree32 of length 16 to 32, as long as the map has room) When no entry contains the prefix
`0/length`, `ClaimFree` serves the first `2^(32-length)` ids of the tree only: it returns one of them that is not
covered, the best fit, and claims it; it fails exactly when all of them are covered. -/
theorem C57_long32_partial {length : Nat} (h1 : 16 ≤ length) {g : GTree tree32 L} {M : Map tree32.P L}
    (h : Reach tree32 length g M) (hn : NoneAbove length M) (l : L) :
    (g.exec (.claimFree l) = .ok (.err, g) ∧ ∀ x : BitVec tree32.P.W, x.toNat < 2 ^ (32 - length) → Covered M x) ∨
    ∃ x : BitVec tree32.P.W, x.toNat < 2 ^ (32 - length) ∧ ¬ Covered M x ∧ BestFit (32 - length) M x ∧
      (Room (put M ⟨x, 32⟩ l) →
        ∃ g', g.exec (.claimFree l) = .ok (.got ⟨⟨x, 32⟩, l⟩, g') ∧ Reach tree32 length g' (put M ⟨x, 32⟩ l)) := by
  have hav : Avail length M = fun x : BitVec tree32.P.W => x.toNat < 2 ^ (32 - length) ∧ ¬ Covered M x :=
    funext fun x => propext (avail_none hn x)
  have hle : length ≤ 32 := (h.ginv (.inr rfl)).le
  have hpow : 2 ^ (32 - length) ≤ 2 ^ length := Nat.pow_le_pow_right (by decide) (by omega)
  rcases C91_claimFree_partial (rl := length) (.inr ⟨rfl, rfl⟩) h l with ⟨a1, a2⟩ | ⟨x, a1, a2, _, a3, _⟩
  · left
    refine ⟨a2, fun x hx => ?_⟩
    have := a1 x
    rw [hav] at this
    exact Classical.byContradiction fun hc => this ⟨hx, hc⟩
  · right
    rw [hav] at a1 a2
    exact ⟨x, a1.1, a1.2, a2, a3 (Nat.lt_of_lt_of_le a1.1 hpow)⟩

/-- a tree32 of length 20 without entries -/
example : ∃ g : GTree tree32 Bool, Reach tree32 20 g Map.empty ∧ NoneAbove 20 (Map.empty : Map tree32.P Bool) :=
  ⟨_, reach_new (by decide), fun q e h => by cases h⟩

/-- **C83, partial** (tree32 of length 16 to 31) In a new tree `n` calls of `ClaimFree`, `n ≤ 2^(32-length)`, return 0 to
`n - 1` in this order, and after `2^(32-length)` calls the next one fails, although there are `2^length` ids. -/
theorem C83_countLong32_partial {length : Nat} (h1 : 16 ≤ length) (h2 : length < 32) (f : Nat → L) :
    ∃ g₀, new tree32 L length = some g₀ ∧ ∀ n, n ≤ 2 ^ (32 - length) →
      ∃ g, Steps tree32 length g₀ Map.empty
          ((List.range n).map fun i => (.claimFree (f i), .got ⟨⟨BitVec.ofNat _ i, 32⟩, f i⟩)) g (counted f n) ∧
        (n = 2 ^ (32 - length) → ∀ l, g.exec (.claimFree l) = .ok (.err, g)) := by
  have hpow : 2 ^ (32 - length) ≤ 2 ^ length := Nat.pow_le_pow_right (by decide) (by omega)
  have h16 : 2 ^ (32 - length) ≤ 2 ^ 16 := Nat.pow_le_pow_right (by decide) (by omega)
  have hWp : (2 : Nat) ^ 16 ≤ 2 ^ tree32.P.W := Nat.pow_le_pow_right (by decide) (by decide)
  obtain ⟨g₀, hg₀⟩ : ∃ g₀, new tree32 L length = some g₀ := by
    unfold new
    rw [if_neg (show ¬ length > tree32.P.W from Nat.not_lt.2 (Nat.le_of_lt h2))]
    exact ⟨_, rfl⟩
  refine ⟨g₀, hg₀, ?_⟩
  have hroom : ∀ n, n ≤ 2 ^ (32 - length) → Room (counted (P := tree32.P) f n) := by
    intro n hn
    refine room_few (fun _ => ?_)
    obtain ⟨ks, h1, h2⟩ := counted_atMost (P := tree32.P) f n
    refine ⟨ks, ?_, h2⟩
    have : (2 : Nat) ^ 16 ≤ 2 ^ 31 := by decide
    omega
  have hnone : ∀ n, NoneAbove length (counted (P := tree32.P) f n) := by
    intro n q e he _
    obtain ⟨i, _, h3⟩ := counted_mem he
    rw [h3]
    exact h2
  intro n
  induction n with
  | zero =>
    intro hn
    refine ⟨g₀, .nil, fun h0 => ?_⟩
    have := Nat.two_pow_pos (32 - length)
    omega
  | succ n ih =>
    intro hn
    obtain ⟨g, hs, _⟩ := ih (by omega)
    have hg : Reach tree32 length g (counted f n) := (Reach.new hg₀).steps hs
    have hcov := fun x => counted_covered (P := tree32.P) (f := f) (n := n) (by omega) x
    rcases C57_long32_partial h1 hg (hnone n) (f n) with ⟨_, hall⟩ | ⟨x, x1, _, x2, x3⟩
    · have := hall (BitVec.ofNat _ n) (by rw [BitVec.toNat_ofNat, Nat.mod_eq_of_lt (by omega)]; omega)
      rw [hcov, BitVec.toNat_ofNat, Nat.mod_eq_of_lt (by omega)] at this
      omega
    · have hbest : x.toNat = n := bestFit_counted (by show 32 - length ≤ 32; omega) (by omega) hcov x2
      have hxn : x = BitVec.ofNat _ n := BitVec.eq_of_toNat_eq (by
        rw [hbest, BitVec.toNat_ofNat, Nat.mod_eq_of_lt (by omega)])
      subst hxn
      obtain ⟨g', e1, e2⟩ := x3 (hroom (n + 1) hn)
      refine ⟨g', ?_, fun hfull l => ?_⟩
      · rw [List.range_succ, List.map_append]
        exact hs.append (.cons trivial e1 (.inr ⟨_, by omega, rfl, rfl⟩) (hroom (n + 1) hn) .nil)
      · rcases C57_long32_partial h1 e2 (hnone (n + 1)) l with ⟨h3, _⟩ | ⟨z, z1, z2, _⟩
        · exact h3
        · have := counted_covered (P := tree32.P) (f := f) (n := n + 1) (by omega) z
          have z3 := mt this.2 z2
          omega

-- a tree32 of length 20 serves 4096 of its 1048576 ids
example : ∃ g₀ g, new tree32 Bool 20 = some g₀ ∧ Steps tree32 20 g₀ Map.empty
    ((List.range 4096).map fun i => (.claimFree true, .got ⟨⟨BitVec.ofNat _ i, 32⟩, true⟩)) g (counted (fun _ => true) 4096) ∧
    g.exec (.claimFree true) = .ok (.err, g) :=
  let ⟨g₀, h, hs⟩ := C83_countLong32_partial (length := 20) (by decide) (by decide) fun _ => true
  let ⟨g, h1, h2⟩ := hs 4096 (by decide)
  ⟨g₀, g, h, h1, h2 (by decide) true⟩

end Verif.GTree
