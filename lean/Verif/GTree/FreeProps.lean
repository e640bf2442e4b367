import Verif.GTree.Props

/-!
Property C57 of the trees of claimed prefixes, about `ClaimFree`.
-/

namespace Verif.GTree
open Verif.Id
open Verif.Tree (Tree Out newTree)
variable {I : Impl} {L : Type} [Labels L]

/-! ### Covers -/

theorem covers_zero {P : Pkg} {k : Nat} {x : BitVec P.W} : Covers (⟨0, k⟩ : MyId P) x ↔ x.toNat < 2 ^ (P.W - k) := by
  show x.toNat / 2 ^ (P.W - k) = (0 : BitVec P.W).toNat / 2 ^ (P.W - k) ↔ _
  rw [show (0 : BitVec P.W).toNat = 0 from BitVec.toNat_zero .., Nat.zero_div, Nat.div_eq_zero_iff]
  have := Nat.two_pow_pos (P.W - k)
  omega

theorem covers_self {P : Pkg} (p : MyId P) : Covers p p.id := rfl

theorem covers_full {P : Pkg} {p : MyId P} (h : p.len = P.W) {x : BitVec P.W} (hx : Covers p x) : x = p.id := by
  unfold Covers at hx
  rw [h] at hx
  simp only [Nat.sub_self, Nat.pow_zero, Nat.div_one] at hx
  exact BitVec.eq_of_toNat_eq hx

/-- a shorter prefix that covers a common value covers all -/
theorem covers_of_common {P : Pkg} {a b : MyId P} (h : a.len ≤ b.len) {x y : BitVec P.W}
    (h1 : Covers a x) (h2 : Covers b x) (hy : Covers b y) : Covers a y := by
  have e : x.toNat / 2 ^ (P.W - a.len) = y.toNat / 2 ^ (P.W - a.len) :=
    Verif.Id.div_pow_mono (j := P.W - b.len) (by omega) (h2.trans hy.symm)
  exact e.symm.trans h1

/-- a prefix that contains another is at most as long -/
theorem len_le_of_covers {P : Pkg} {a b : MyId P} (ha : a.len ≤ P.W) (hb : b.len ≤ P.W)
    (h : ∀ z, Covers b z → Covers a z) : a.len ≤ b.len := by
  rcases Nat.lt_or_ge b.len a.len with hlt | hge
  · exfalso
    obtain ⟨d, hd⟩ : ∃ d, P.W - b.len = (P.W - a.len) + (d + 1) := ⟨a.len - b.len - 1, by omega⟩
    let k := b.id.toNat / 2 ^ (P.W - b.len)
    have hpa := Nat.two_pow_pos (P.W - a.len)
    have hpb := Nat.two_pow_pos (P.W - b.len)
    have hkb : k * 2 ^ (P.W - b.len) + 2 ^ (P.W - b.len) ≤ 2 ^ P.W := by
      have hkl : k < 2 ^ b.len := by
        apply Nat.div_lt_of_lt_mul
        rw [← Nat.pow_add, show P.W - b.len + b.len = P.W by omega]
        exact b.id.isLt
      calc k * 2 ^ (P.W - b.len) + 2 ^ (P.W - b.len) = (k + 1) * 2 ^ (P.W - b.len) := by rw [Nat.succ_mul]
        _ ≤ 2 ^ b.len * 2 ^ (P.W - b.len) := Nat.mul_le_mul_right _ hkl
        _ = 2 ^ P.W := by rw [← Nat.pow_add, show b.len + (P.W - b.len) = P.W by omega]
    have hc : ∀ j, j < 2 ^ (P.W - b.len) → (k * 2 ^ (P.W - b.len) + j) / 2 ^ (P.W - a.len) = a.id.toNat / 2 ^ (P.W - a.len) := by
      intro j hj
      have := h (BitVec.ofNat _ (k * 2 ^ (P.W - b.len) + j)) (by
        unfold Covers
        rw [BitVec.toNat_ofNat, Nat.mod_eq_of_lt (by omega), Nat.mul_comm, Nat.mul_add_div hpb, Nat.div_eq_of_lt hj]
        rfl)
      unfold Covers at this
      rw [BitVec.toNat_ofNat, Nat.mod_eq_of_lt (by omega)] at this
      exact this
    have hlt2 : 2 ^ (P.W - a.len) < 2 ^ (P.W - b.len) := Nat.pow_lt_pow_right (by decide) (by omega)
    have h0 := hc 0 hpb
    have h1 := hc (2 ^ (P.W - a.len)) hlt2
    rw [Nat.add_zero] at h0
    rw [Nat.add_div_right _ hpa, h0] at h1
    omega
  · exact hge

/-- the prefixes of a list are disjoint -/
theorem lists_disjoint {P : Pkg} {K : List (MyId P)} {S : BitVec P.W → Prop} (h : Lists K S) {p q : MyId P}
    (hp : p ∈ K) (hq : q ∈ K) {x : BitVec P.W} (h1 : Covers p x) (h2 : Covers q x) : p = q := by
  have key : ∀ {K : List (MyId P)}, K.Pairwise (fun p q => ∀ x y, Covers p x → Covers q y → x < y) → p ∈ K → q ∈ K → p = q := by
    intro K
    induction K with
    | nil => intro _ hp; cases hp
    | cons k K ih =>
      intro hK hp hq
      rw [List.pairwise_cons] at hK
      rcases List.mem_cons.1 hp with hp' | hp' <;> rcases List.mem_cons.1 hq with hq' | hq'
      · rw [hp', hq']
      · exact absurd (hK.1 q hq' x x (hp' ▸ h1) h2) (BitVec.lt_irrefl _)
      · exact absurd (hK.1 p hp' x x (hq' ▸ h2) h1) (BitVec.lt_irrefl _)
      · exact ih hK.2 hp' hq'
  exact key h.ascending hp hq

theorem tightest_mem {P : Pkg} {l : Nat} {K : List (MyId P)} {q : MyId P} (h : Tightest l K q) : q ∈ K := by
  obtain ⟨A, B, h, _⟩ := h
  rw [h]; simp

theorem tightest_longest {P : Pkg} {l : Nat} {K : List (MyId P)} {q : MyId P} (h : Tightest l K q) {p : MyId P}
    (hp : p ∈ K) (hl : p.len ≤ l) : p.len ≤ q.len := by
  obtain ⟨A, B, h, h1, h2, h3⟩ := h
  rw [h] at hp
  rcases List.mem_append.1 hp with hp | hp
  · exact Nat.le_of_lt (h2 p hp hl)
  · rcases List.mem_cons.1 hp with rfl | hp
    · exact Nat.le_refl _
    · exact h3 p hp hl

/-! ### `ClaimFree` in terms of `findFree` -/

theorem claimFree_err {g : GTree I L} (h : g.findFree = .ok .err) (l : L) : g.exec (.claimFree l) = .ok (.err, g) := by
  show (g.claimFree l >>= _) = _
  unfold GTree.claimFree
  rw [h]; rfl

theorem claimFree_ok (hI : I = tree16 ∨ I = tree32) {length : Nat} {g : GTree I L} {M : Map I.P L} (h : Reach I length g M)
    {x : BitVec I.P.W} (hf : g.findFree = .ok (.ok x)) (hx : x.toNat < 2 ^ length) (l : L)
    (hr : Room (put M ⟨x, I.P.W⟩ l)) :
    ∃ g', g.exec (.claimFree l) = .ok (.got ⟨⟨x, I.P.W⟩, l⟩, g') ∧ Reach I length g' (put M ⟨x, I.P.W⟩ l) := by
  obtain ⟨g', e1, e2⟩ := set_inv (ok_of hI) (h.ginv hI) (id := ⟨x, I.P.W⟩) (Nat.le_refl _) l hr
  have hx' : g.exec (.claimFree l) = .ok (.got ⟨⟨x, I.P.W⟩, l⟩, g') := by
    show (g.claimFree l >>= _) = _
    unfold GTree.claimFree
    rw [hf]
    show (((g.set _ _) >>= _) >>= _) = _
    rw [e1]; rfl
  exact ⟨g', hx', h.step (o := .claimFree l) trivial hx' (.inr ⟨x, hx, rfl, rfl⟩) hr⟩

theorem rootLen_le (hI : I = tree16 ∨ I = tree32) {length : Nat} {g : GTree I L} {M : Map I.P L} (h : Reach I length g M) :
    I.rootLen length ≤ I.P.W := root_of hI _ (h.ginv hI).le

theorem find_cases (hI : I = tree16 ∨ I = tree32) {length : Nat} {g : GTree I L} {M : Map I.P L} (h : Reach I length g M) :
    (g.findFree = .ok .err ∧ ∀ x, Covers ⟨0, I.rootLen length⟩ x → Seen M (I.rootLen length) x) ∨
    (∃ x, g.findFree = .ok (if x.toNat < 2 ^ length then .ok x else .err) ∧
      Covers ⟨0, I.rootLen length⟩ x ∧ ¬ Seen M (I.rootLen length) x ∧
      ∃ K q, Lists K (fun y => Covers ⟨0, I.rootLen length⟩ y ∧ ¬ Seen M (I.rootLen length) y) ∧
        (∀ p : MyId I.P, p.len ≤ I.P.W →
          (∀ y, Covers p y → Covers ⟨0, I.rootLen length⟩ y ∧ ¬ Seen M (I.rootLen length) y) →
          ∃ p' ∈ K, ∀ y, Covers p y → Covers p' y) ∧
        Tightest I.P.W K q ∧ q.id = x) :=
  findFree_spec (ok_of hI) (h.ginv hI) (rootLen_le hI h)

/-- without entries below the root prefix, 0 is found -/
theorem find_zero_ginv (hI : I = tree16 ∨ I = tree32) {length : Nat} {g : GTree I L} {M : Map I.P L} (h : GInv length g M)
    (hn : ∀ x, Covers ⟨0, I.rootLen length⟩ x → ¬ Seen M (I.rootLen length) x) : g.findFree = .ok (.ok 0) := by
  have hrl : I.rootLen length ≤ I.P.W := root_of hI _ h.le
  rcases findFree_spec (ok_of hI) h hrl with ⟨_, h1⟩ | ⟨x, h1, h2, h3, K, q, k1, k2, k3, k4⟩
  · exact absurd (h1 0 (covers_zero.2 (by simpa using Nat.two_pow_pos _))) (hn 0 (covers_zero.2 (by simpa using Nat.two_pow_pos _)))
  · obtain ⟨p, p1, p2⟩ := k2 ⟨0, I.rootLen length⟩ hrl (fun y hy => ⟨hy, hn y hy⟩)
    have hqx : Covers q x := k4 ▸ covers_self q
    have hpq := lists_disjoint k1 p1 (tightest_mem k3) (p2 x h2) hqx
    rw [hpq] at p2
    have h0 := p2 0 (covers_zero.2 (by simpa using Nat.two_pow_pos _))
    have hal := (k1.aligned q (tightest_mem k3)).2
    have hz : q.id.toNat = 0 := by
      unfold Covers at h0
      rw [show (0 : BitVec I.P.W).toNat = 0 from BitVec.toNat_zero .., Nat.zero_div] at h0
      have := Nat.div_mul_cancel hal
      rw [← h0, Nat.zero_mul] at this
      exact this.symm
    have hx : x = 0 := by
      rw [← k4]
      exact BitVec.eq_of_toNat_eq (by rw [hz]; simp)
    rw [h1, if_pos (by rw [hx]; simpa using Nat.two_pow_pos _), hx]

theorem find_zero (hI : I = tree16 ∨ I = tree32) {length : Nat} {g : GTree I L} {M : Map I.P L} (h : Reach I length g M)
    (hn : ∀ x, Covers ⟨0, I.rootLen length⟩ x → ¬ Seen M (I.rootLen length) x) : g.findFree = .ok (.ok 0) :=
  find_zero_ginv hI (h.ginv hI) hn

/-! ### C57 -/

/-- **C57, violated** (tree16, tree32; every length) After `ClaimID` of the prefix that `findFree` starts with,
`ClaimFree` returns 0, which this prefix covers. (For tree16 the prefix covers all ids of the tree.) -/
theorem C57_covered_violated (hI : I = tree16 ∨ I = tree32) (length : Nat) (hle : length ≤ I.P.W) (l : L) :
    ∃ (g g' : GTree I L) (M : Map I.P L), Reach I length g M ∧ Covered M 0 ∧
      g.exec (.claimFree l) = .ok (.got ⟨⟨0, I.P.W⟩, l⟩, g') := by
  have hg0 := reach_new (I := I) (L := L) hle
  have hrl : I.rootLen length ≤ I.P.W := rootLen_le hI hg0
  have h0 : (0 : BitVec I.P.W).toNat < 2 ^ length := by simpa using Nat.two_pow_pos _
  have hroom : ∀ id' : MyId I.P, Room (put (put Map.empty ⟨0, I.rootLen length⟩ l) id' l) := by
    intro id'
    refine room_few (fun _ => ?_)
    refine ⟨[pre id', pre (⟨0, I.rootLen length⟩ : MyId I.P)], Nat.le_trans (Nat.le_refl 2) (by decide), ?_⟩
    intro q hq
    unfold put at hq
    by_cases h1 : q = pre id'
    · simp [h1]
    · by_cases h2 : q = pre (⟨0, I.rootLen length⟩ : MyId I.P)
      · simp [h2]
      · rw [if_neg h1, if_neg h2] at hq
        exact absurd rfl hq
  have hroom1 : Room (put Map.empty ⟨0, I.rootLen length⟩ l) := (hroom ⟨0, 0⟩).mono (by
    intro q hq
    unfold put at hq ⊢
    split
    · simp
    · exact hq)
  obtain ⟨g1, _, hg1, _⟩ := (C52_claim_get_partial hI hg0 ⟨0, I.rootLen length⟩ hrl l _ (.inl rfl)).1 h0 hroom1
  have hf : g1.findFree = .ok (.ok 0) := by
    refine find_zero hI hg1 ?_
    rintro x _ ⟨q, e, he, hlt, _⟩
    unfold put at he
    split at he
    · cases he; exact absurd hlt (Nat.lt_irrefl _)
    · cases he
  obtain ⟨g2, e1, _⟩ := claimFree_ok hI hg1 hf h0 l (hroom _)
  refine ⟨g1, g2, _, hg1, ⟨pre (⟨0, I.rootLen length⟩ : MyId I.P), ⟨⟨0, I.rootLen length⟩, l⟩, ?_, rfl⟩, e1⟩
  unfold put
  rw [if_pos rfl]

/-- **C57, violated** (tree32 of length 32) `ClaimFree` returns 0 always. -/
theorem C57_full32_violated {g : GTree tree32 L} {M : Map tree32.P L} (h : Reach tree32 32 g M) (l : L)
    (hr : Room (put M ⟨0, 32⟩ l)) :
    ∃ g', g.exec (.claimFree l) = .ok (.got ⟨⟨0, 32⟩, l⟩, g') ∧ Reach tree32 32 g' (put M ⟨0, 32⟩ l) := by
  refine claimFree_ok (.inr rfl) h ?_ (by decide) l hr
  refine find_zero (.inr rfl) h ?_
  rintro x _ ⟨q, e, he, hlt, _⟩
  have h1 := ((h.ginv (.inr rfl)).wf q e he).2
  have h1 : e.id.len ≤ 32 := h1
  have hlt : 32 < e.id.len := hlt
  omega

/-- the entries of the map are within the size of the tree -/
def Within {P : Pkg} (length : Nat) (M : Map P L) : Prop := ∀ q e, M q = some e → e.id.id.toNat < 2 ^ length

/-- no entry contains the prefix that `findFree` starts with -/
def NoneAbove {P : Pkg} (rl : Nat) (M : Map P L) : Prop := ∀ q e, M q = some e → Covers e.id 0 → rl < e.id.len

omit [Labels L] in
theorem seen_iff {P : Pkg} {rl : Nat} {M : Map P L} (hn : NoneAbove rl M) {x : BitVec P.W} (hx : Covers ⟨0, rl⟩ x) :
    Seen M rl x ↔ Covered M x := by
  constructor
  · rintro ⟨q, e, h1, _, h2⟩; exact ⟨q, e, h1, h2⟩
  · rintro ⟨q, e, h1, h2⟩
    refine ⟨q, e, h1, ?_, h2⟩
    rcases Nat.lt_or_ge rl e.id.len with h3 | h3
    · exact h3
    · have := covers_of_common (b := ⟨0, rl⟩) h3 h2 hx (covers_self _)
      exact absurd (hn q e h1 this) (Nat.not_lt.2 h3)

/-- **C57, partial** (tree16, tree32, every length) When no entry contains the prefix that `findFree` starts
with, the id that `ClaimFree` returns is below `2^length` and no entry covers it; it is claimed. (Without
entries above: see `C57_covered_violated`. For when it fails see the next theorems.) -/
theorem C57_sound_partial (hI : I = tree16 ∨ I = tree32) {length : Nat} {g g' : GTree I L} {M : Map I.P L}
    (h : Reach I length g M) (hn : NoneAbove (I.rootLen length) M) (l : L) (e : Entry I.P L)
    (hx : g.exec (.claimFree l) = .ok (.got e, g')) :
    ∃ x : BitVec I.P.W, e = ⟨⟨x, I.P.W⟩, l⟩ ∧ x.toNat < 2 ^ length ∧ ¬ Covered M x ∧
      (Room (put M ⟨x, I.P.W⟩ l) → Reach I length g' (put M ⟨x, I.P.W⟩ l) ∧ g'.get ⟨x, I.P.W⟩ = .ok (some e)) := by
  rcases find_cases hI h with ⟨f, _⟩ | ⟨x, f, h2, h3, _⟩
  · rw [claimFree_err f] at hx; cases hx
  · by_cases hlt : x.toNat < 2 ^ length
    · rw [if_pos hlt] at f
      have he : e = ⟨⟨x, I.P.W⟩, l⟩ := by
        have hx : (g.claimFree l >>= fun p => (pure (match p.1 with | .ok e => .got e | .err => .err, p.2) : Out (Result I.P L × GTree I L))) =
            .ok (.got e, g') := hx
        have hc : g.claimFree l = (g.set ⟨x, I.P.W⟩ ⟨⟨x, I.P.W⟩, l⟩ >>= fun g => (pure (.ok ⟨⟨x, I.P.W⟩, l⟩, g) : Out (Ret (Entry I.P L) × GTree I L))) := by
          unfold GTree.claimFree
          rw [f]; rfl
        rw [hc] at hx
        cases hs : g.set ⟨x, I.P.W⟩ ⟨⟨x, I.P.W⟩, l⟩ with
        | ok g1 =>
          rw [hs] at hx
          have := congrArg Prod.fst (Out.ok.inj hx)
          exact (Result.got.inj this).symm
        | _ => rw [hs] at hx; cases hx
      refine ⟨x, he, hlt, fun hc => h3 ((seen_iff hn h2).2 hc), fun hr => ?_⟩
      obtain ⟨g1, e1, e2⟩ := claimFree_ok hI h f hlt l hr
      rw [e1] at hx
      have : g1 = g' := congrArg Prod.snd (Out.ok.inj hx)
      subst this
      refine ⟨e2, ?_⟩
      rw [get_spec (e2.ginv hI), he]
      unfold put
      rw [if_pos rfl, filter_pos (by simp)]
    · rw [if_neg hlt] at f
      rw [claimFree_err f] at hx; cases hx

/-- the id of a free block, or an error when all is covered -/
def FreeOk (length : Nat) (g : GTree I L) (M : Map I.P L) (l : L) : Prop :=
  (∃ x : BitVec I.P.W, x.toNat < 2 ^ length ∧ ¬ Covered M x ∧ (Room (put M ⟨x, I.P.W⟩ l) →
    ∃ g', g.exec (.claimFree l) = .ok (.got ⟨⟨x, I.P.W⟩, l⟩, g') ∧ Reach I length g' (put M ⟨x, I.P.W⟩ l))) ∨
  (g.exec (.claimFree l) = .ok (.err, g) ∧ ∀ x : BitVec I.P.W, x.toNat < 2 ^ length → Covered M x)

/-- **C57, partial** (tree16; tree32 of length 16, as long as the map has room) When no entry covers all ids of
the tree, `ClaimFree` returns an id below `2^length` that no entry covers and claims it, and fails exactly when
every id is covered. Missing: entries that cover all ids (violated above), tree32 of other lengths (next theorem
and violations), tree64 (violated below). -/
theorem C57_claimFree_partial {length : Nat} (hI : I = tree16 ∨ I = tree32 ∧ length = 16) {g : GTree I L} {M : Map I.P L}
    (h : Reach I length g M) (hn : NoneAbove (I.P.W - length) M) (l : L) : FreeOk length g M l := by
  have hI' : I = tree16 ∨ I = tree32 := hI.imp id And.left
  have hle := (h.ginv hI').le
  have hrl : I.rootLen length = I.P.W - length := by
    rcases hI with rfl | ⟨rfl, rfl⟩
    · exact Verif.Tree.sub8_eq hle (by decide)
    · rfl
  have hW : I.P.W - (I.P.W - length) = length := by omega
  have hc : ∀ x : BitVec I.P.W, Covers ⟨0, I.rootLen length⟩ x ↔ x.toNat < 2 ^ length := by
    intro x; rw [covers_zero, hrl, hW]
  rcases find_cases hI' h with ⟨f, h1⟩ | ⟨x, f, h2, h3, _⟩
  · right
    refine ⟨claimFree_err f l, fun x hx => ?_⟩
    obtain ⟨q, e, e1, _, e2⟩ := h1 x ((hc x).2 hx)
    exact ⟨q, e, e1, e2⟩
  · left
    have hlt := (hc x).1 h2
    rw [if_pos hlt] at f
    exact ⟨x, hlt, fun hcov => h3 ((seen_iff (by rw [hrl]; exact hn) h2).2 hcov), fun hr => claimFree_ok hI' h f hlt l hr⟩

/-- **C57, partial** (tree32 of length up to 16, as long as the map has room) The same when no entry contains the
prefix `0/length` and the ids of all entries are within the size (no `ClaimRange` beyond). -/
theorem C57_claimFree32_partial {length : Nat} (hlen : length ≤ 16) {g : GTree tree32 L} {M : Map tree32.P L}
    (h : Reach tree32 length g M) (hn : NoneAbove length M) (hw : Within length M) (l : L) : FreeOk length g M l := by
  have hI : tree32 = tree16 ∨ tree32 = tree32 := .inr rfl
  have hW : tree32.P.W = 32 := rfl
  have hroot : ∀ x : BitVec tree32.P.W, Covers ⟨0, tree32.rootLen length⟩ x ↔ x.toNat < 2 ^ (32 - length) := by
    intro x; rw [covers_zero]; rfl
  have hpow : 2 ^ length ≤ 2 ^ (32 - length) := Nat.pow_le_pow_right (by decide) (by omega)
  rcases find_cases hI h with ⟨f, h1⟩ | ⟨x, f, h2, h3, K, q, k1, k2, k3, k4⟩
  · right
    refine ⟨claimFree_err f l, fun x hx => ?_⟩
    obtain ⟨q, e, e1, _, e2⟩ := h1 x ((hroot x).2 (by omega))
    exact ⟨q, e, e1, e2⟩
  · by_cases hlt : x.toNat < 2 ^ length
    · left
      rw [if_pos hlt] at f
      exact ⟨x, hlt, fun hcov => h3 ((seen_iff hn h2).2 hcov), fun hr => claimFree_ok hI h f hlt l hr⟩
    · right
      rw [if_neg hlt] at f
      refine ⟨claimFree_err f l, fun y hy => Classical.byContradiction fun hyc => hlt ?_⟩
      -- the block of all ids of the tree
      let low : MyId tree32.P := ⟨0, 32 - length⟩
      have hlow : ∀ z : BitVec tree32.P.W, Covers low z ↔ z.toNat < 2 ^ length := by
        intro z
        rw [covers_zero]
        show _ < 2 ^ (32 - (32 - length)) ↔ _
        rw [show 32 - (32 - length) = length by omega]
      have hyr : Covers ⟨0, tree32.rootLen length⟩ y := (hroot y).2 (by omega)
      have hys : ¬ Seen M (tree32.rootLen length) y := fun hs => hyc ((seen_iff hn hyr).1 hs)
      obtain ⟨p, p1, p2⟩ := (k1.cover y).2 ⟨hyr, hys⟩
      have hpl : p.len ≤ 32 := (k1.aligned p p1).1
      have hqx : Covers q x := k4 ▸ covers_self q
      -- an entry inside the size that covers some value of another block covers `y`
      have hno : ∀ e : Entry tree32.P L, (∃ q, M q = some e) → e.id.len ≤ 32 - length → False := by
        rintro e ⟨q, he⟩ hl
        have h1 : Covers e.id e.id.id := rfl
        have h2 : Covers low e.id.id := (hlow _).2 (hw q e he)
        exact hyc ⟨q, e, he, covers_of_common (b := low) hl h1 h2 ((hlow y).2 hy)⟩
      rcases Nat.lt_or_ge (32 - length) p.len with hp | hp
      · -- `p` lies in the block, so the chosen prefix is at least as long
        have hql := tightest_longest k3 p1 hpl
        let B : MyId tree32.P := ⟨x, 32 - length⟩
        have hB : ∀ z, Covers B z → Covers ⟨0, tree32.rootLen length⟩ z ∧ ¬ Seen M (tree32.rootLen length) z := by
          intro z hz
          refine ⟨covers_of_common (a := ⟨0, tree32.rootLen length⟩) (b := B) ?_ h2 (covers_self B) hz, ?_⟩
          · show length ≤ 32 - length
            omega
          · rintro ⟨q', e, he, hl, hc⟩
            rcases Nat.lt_or_ge (32 - length) e.id.len with h5 | h5
            · have h6 : Covers B e.id.id := covers_of_common (a := B) (b := e.id) (Nat.le_of_lt h5) hz hc rfl
              have h7 : Covers low e.id.id := (hlow _).2 (hw q' e he)
              have h8 : Covers low x := covers_of_common (a := low) (b := B) (Nat.le_refl _) h7 h6 (covers_self B)
              exact hlt ((hlow x).1 h8)
            · exact hno e ⟨q', he⟩ h5
        obtain ⟨p', c1, c2⟩ := k2 B (by show 32 - length ≤ 32; omega) hB
        have hpq := lists_disjoint k1 c1 (tightest_mem k3) (c2 x (covers_self B)) hqx
        rw [hpq] at c2
        have hn1 : q.len ≤ 32 := (k1.aligned q (tightest_mem k3)).1
        have := len_le_of_covers (a := q) (b := B) hn1 (by show 32 - length ≤ 32; omega) c2
        have : q.len ≤ 32 - length := this
        omega
      · -- `p` contains the block, so there are no entries
        have hz : g.findFree = .ok (.ok 0) := by
          refine find_zero hI h ?_
          rintro z _ ⟨q', e, he, hl, _⟩
          have h7 : Covers low e.id.id := (hlow _).2 (hw q' e he)
          have h8 : Covers p e.id.id := covers_of_common (a := p) (b := low) hp p2 ((hlow y).2 hy) h7
          exact ((k1.cover e.id.id).1 ⟨p, p1, h8⟩).2 ⟨q', e, he, hl, rfl⟩
        rw [hz] at f
        cases f

/-- a map with one entry has room -/
theorem room_one {P : Pkg} (a : MyId P) (l : L) : Room (put Map.empty a l) := by
  refine room_few (fun _ => ?_)
  refine ⟨[pre a], Nat.le_trans (Nat.le_refl 1) (by decide), ?_⟩
  intro q hq
  by_cases h1 : q = pre a
  · simp [h1]
  · simp [put, h1, Map.empty] at hq

-- a tree of length 4 with the block 8..15 claimed
example : ∃ (g : GTree tree16 Bool) (M : Map tree16.P Bool), Reach tree16 4 g M ∧ NoneAbove (tree16.P.W - 4) M ∧
    Covered M (9 : BitVec 16) ∧ ¬ Covered M (3 : BitVec 16) := by
  obtain ⟨g, _, h, _⟩ := (C52_claim_get_partial (I := tree16) (.inl rfl) (reach_new (L := Bool) (length := 4) (by decide))
    ⟨8, 13⟩ (by decide) true _ (.inl rfl)).1 (by decide) (room_one _ _)
  have hM : ∀ q e, put Map.empty (⟨8, 13⟩ : MyId tree16.P) true q = some e → e = ⟨⟨8, 13⟩, true⟩ := by
    intro q e he
    unfold put at he
    split at he
    · exact (Option.some.inj he).symm
    · cases he
  refine ⟨g, _, h, ?_, ⟨_, _, if_pos rfl, ?_⟩, ?_⟩
  · intro q e he _
    rw [hM q e he]
    decide
  · show 9 / 2 ^ 3 = 8 / 2 ^ 3
    decide
  · rintro ⟨q, e, he, hc⟩
    rw [hM q e he] at hc
    have hc : 3 / 2 ^ 3 = 8 / 2 ^ 3 := hc
    exact absurd hc (by decide)

-- the same for tree32
example : ∃ (g : GTree tree32 Bool) (M : Map tree32.P Bool), Reach tree32 4 g M ∧ NoneAbove 4 M ∧ Within 4 M ∧
    Covered M (9 : BitVec 32) := by
  obtain ⟨g, _, h, _⟩ := (C52_claim_get_partial (I := tree32) (.inr rfl) (reach_new (L := Bool) (length := 4) (by decide))
    ⟨8, 29⟩ (by decide) true _ (.inl rfl)).1 (by decide) (room_one _ _)
  have hM : ∀ q e, put Map.empty (⟨8, 29⟩ : MyId tree32.P) true q = some e → e = ⟨⟨8, 29⟩, true⟩ := by
    intro q e he
    unfold put at he
    split at he
    · exact (Option.some.inj he).symm
    · cases he
  refine ⟨g, _, h, ?_, ?_, ⟨_, _, if_pos rfl, ?_⟩⟩
  · intro q e he _
    rw [hM q e he]
    decide
  · intro q e he
    rw [hM q e he]
    decide
  · show 9 / 2 ^ 3 = 8 / 2 ^ 3
    decide

/-- **C57, violated** (tree32, lengths 17 to 31) When the two halves of the prefix `0/length` are claimed,
`ClaimFree` fails, although `2^(32-length)` is below `2^length` and not covered. -/
theorem C57_short32_violated (length : Nat) (h1 : 16 < length) (h2 : length < 32) (l : L) :
    ∃ (g : GTree tree32 L) (M : Map tree32.P L) (x : BitVec tree32.P.W), Reach tree32 length g M ∧
      g.exec (.claimFree l) = .ok (.err, g) ∧ x.toNat < 2 ^ length ∧ ¬ Covered M x := by
  have hI : tree32 = tree16 ∨ tree32 = tree32 := .inr rfl
  have hg0 := reach_new (I := tree32) (L := L) (length := length) (by show length ≤ 32; omega)
  let a : MyId tree32.P := ⟨0, length + 1⟩
  let b : MyId tree32.P := ⟨BitVec.ofNat _ (2 ^ (31 - length)), length + 1⟩
  have hp1 : 2 ^ (31 - length) < 2 ^ length := Nat.pow_lt_pow_right (by decide) (by omega)
  have hp2 : 2 ^ length < 2 ^ 32 := Nat.pow_lt_pow_right (by decide) (by omega)
  have hp3 : 2 ^ (32 - length) = 2 * 2 ^ (31 - length) := by
    rw [show 32 - length = (31 - length) + 1 by omega, Nat.pow_succ]; omega
  have hp4 : 2 ^ (32 - length) < 2 ^ length := Nat.pow_lt_pow_right (by decide) (by omega)
  have hp5 := Nat.two_pow_pos (31 - length)
  have ha0 : a.id.toNat < 2 ^ length := by simpa [a] using Nat.two_pow_pos _
  have hbid : b.id.toNat = 2 ^ (31 - length) := by
    show (BitVec.ofNat 32 _).toNat = _
    rw [BitVec.toNat_ofNat, Nat.mod_eq_of_lt (by omega)]
  have hroom : Room (put (put Map.empty a l) b l) := by
    refine room_few (fun _ => ?_)
    refine ⟨[pre b, pre a], Nat.le_trans (Nat.le_refl 2) (by decide), ?_⟩
    intro q hq
    unfold put at hq
    by_cases h1 : q = pre b
    · simp [h1]
    · by_cases h2 : q = pre a
      · simp [h2]
      · simp [h1, h2, Map.empty] at hq
  have hroom1 : Room (put Map.empty a l) := hroom.mono (by
    intro q hq
    unfold put at hq ⊢
    split
    · simp
    · exact hq)
  obtain ⟨g1, _, hg1, _⟩ := (C52_claim_get_partial hI hg0 a (by show length + 1 ≤ 32; omega) l _ (.inl rfl)).1 ha0 hroom1
  obtain ⟨g2, _, hg2, _⟩ := (C52_claim_get_partial hI hg1 b (by show length + 1 ≤ 32; omega) l _ (.inl rfl)).1 (by omega) hroom
  have hW : tree32.P.W - (length + 1) = 31 - length := by show 32 - (length + 1) = _; omega
  have hca : ∀ z : BitVec tree32.P.W, Covers a z ↔ z.toNat < 2 ^ (31 - length) := by
    intro z; rw [covers_zero, hW]
  have hcb : ∀ z : BitVec tree32.P.W, Covers b z ↔ z.toNat / 2 ^ (31 - length) = 1 := by
    intro z
    show z.toNat / 2 ^ (tree32.P.W - (length + 1)) = b.id.toNat / 2 ^ (tree32.P.W - (length + 1)) ↔ _
    rw [hW, hbid, Nat.div_self hp5]
  have hab : pre a ≠ pre b := by
    intro he
    have := (covers_iff_pre (a := b) (b := a) (by show length + 1 ≤ 32; omega) (Nat.le_refl _)).2 (by rw [he]; exact List.prefix_rfl)
    rw [hcb] at this
    have h0 : a.id.toNat = 0 := BitVec.toNat_zero ..
    rw [h0, Nat.zero_div] at this
    omega
  have hma : put (put Map.empty a l) b l (pre a) = some ⟨a, l⟩ := by
    unfold put
    rw [if_neg hab, if_pos rfl]
  have hmb : put (put Map.empty a l) b l (pre b) = some ⟨b, l⟩ := by
    unfold put
    rw [if_pos rfl]
  refine ⟨g2, _, BitVec.ofNat _ (2 ^ (32 - length)), hg2, ?_, ?_, ?_⟩
  · refine claimFree_err ?_ l
    have hseen : ∀ z : BitVec tree32.P.W, Covers ⟨0, tree32.rootLen length⟩ z → Seen (put (put Map.empty a l) b l) (tree32.rootLen length) z := by
      intro z hz
      have hz : z.toNat < 2 ^ (32 - length) := covers_zero.1 hz
      rcases Nat.lt_or_ge z.toNat (2 ^ (31 - length)) with h3 | h3
      · exact ⟨_, _, hma, Nat.lt_succ_self length, (hca z).2 h3⟩
      · refine ⟨_, _, hmb, Nat.lt_succ_self length, (hcb z).2 ?_⟩
        rw [Nat.div_eq_iff hp5]
        omega
    rcases find_cases hI hg2 with ⟨f, _⟩ | ⟨x, f, c, n, _⟩
    · exact f
    · exact absurd (hseen x c) n
  · show (BitVec.ofNat 32 _).toNat < _
    rw [BitVec.toNat_ofNat, Nat.mod_eq_of_lt (by omega)]
    exact hp4
  · have hx : (BitVec.ofNat tree32.P.W (2 ^ (32 - length))).toNat = 2 * 2 ^ (31 - length) := by
      show (BitVec.ofNat 32 _).toNat = _
      rw [BitVec.toNat_ofNat, Nat.mod_eq_of_lt (by omega), hp3]
    rintro ⟨q, e, he, hc⟩
    unfold put at he
    split at he
    · cases he
      rw [hcb, hx, Nat.mul_div_cancel _ hp5] at hc
      omega
    · split at he
      · cases he
        rw [hca, hx] at hc
        omega
      · cases he

/-- the tree32 of length 8 after `ClaimRange("256-256")` -/
def outside : GTree tree32 Bool := (fresh tree32 8).after [.claimRange [50, 53, 54, 45, 50, 53, 54] true]

/-- **C57, violated** (tree32 of length 8) After `ClaimRange("256-256")`, beyond the size, `ClaimFree` fails,
although nothing else is claimed. -/
theorem C57_outside32_violated :
    ∃ M, Reach tree32 8 outside M ∧ (∀ l, outside.exec (.claimFree l) = .ok (.err, outside)) ∧
      ∀ x : BitVec tree32.P.W, x.toNat < 2 ^ 8 → ¬ Covered M x := by
  have hI : tree32 = tree16 ∨ tree32 = tree32 := .inr rfl
  have hg0 : Reach tree32 8 (fresh tree32 8) Map.empty := reach_new (I := tree32) (L := Bool) (length := 8) (by decide)
  let a : MyId tree32.P := ⟨256, 32⟩
  let M : Map tree32.P Bool := put Map.empty a true
  have hroom : Room M := by
    refine room_few (fun _ => ?_)
    refine ⟨[pre a], Nat.le_trans (Nat.le_refl 1) (by decide), ?_⟩
    intro q hq
    by_cases h1 : q = pre a
    · simp [h1]
    · simp [M, put, h1, Map.empty] at hq
  have hr : Reach tree32 8 outside M := by
    refine hg0.step (o := .claimRange [50, 53, 54, 45, 50, 53, 54] true) (r := .done) trivial rfl ?_ hroom
    exact .inr ⟨rangeFrom 256 256, [a], rfl, rfl, rfl, rfl⟩
  have hMe : ∀ q e, M q = some e → e = ⟨a, true⟩ := by
    intro q e he
    simp only [M, put] at he
    split at he
    · exact (Option.some.inj he).symm
    · cases he
  have hseen : ∀ z : BitVec tree32.P.W, Seen M 8 z ↔ z.toNat = 256 := by
    intro z
    constructor
    · rintro ⟨q, e, he, _, hc⟩
      rw [hMe q e he] at hc
      rw [covers_full rfl hc]
      rfl
    · intro hz
      refine ⟨pre a, ⟨a, true⟩, by simp [M, put], by show 8 < 32; decide, ?_⟩
      have : z = a.id := BitVec.eq_of_toNat_eq (by rw [hz]; rfl)
      rw [this]
      rfl
  refine ⟨M, hr, fun l => claimFree_err ?_ l, ?_⟩
  · rcases find_cases hI hr with ⟨f, h1⟩ | ⟨x, f, h2, h3, K, q, k1, k2, k3, k4⟩
    · exact f
    · have hx : ¬ x.toNat < 2 ^ 8 := by
        intro hx
        have hqx : Covers q x := k4 ▸ covers_self q
        -- 257 is a block of its own
        have hin : ∀ z : BitVec tree32.P.W, z.toNat < 2 ^ 24 → z.toNat ≠ 256 →
            Covers ⟨0, tree32.rootLen 8⟩ z ∧ ¬ Seen M (tree32.rootLen 8) z := by
          intro z hz hne
          exact ⟨covers_zero.2 hz, fun hs => hne ((hseen z).1 hs)⟩
        obtain ⟨p, p1, p2⟩ := (k1.cover (257 : BitVec 32)).2 (hin (257 : BitVec 32) (by decide) (by decide))
        have hpl : p.len ≤ 32 := (k1.aligned p p1).1
        have hp32 : p.len = 32 := by
          rcases Nat.lt_or_ge p.len 32 with hlt | hge
          · exfalso
            have h4 : Covers p (256 : BitVec 32) := covers_of_common (a := p) (b := ⟨256, 31⟩) (x := (257 : BitVec 32)) (by
              show p.len ≤ 31; omega) p2 (by show 257 / 2 ^ 1 = 256 / 2 ^ 1; decide) rfl
            have h5 := ((k1.cover (256 : BitVec 32)).1 ⟨p, p1, h4⟩).2
            exact h5 ((hseen (256 : BitVec 32)).2 rfl)
          · omega
        have hql := tightest_longest k3 p1 hpl
        -- 0 to 255 is a block
        obtain ⟨p', c1, c2⟩ := k2 ⟨0, 24⟩ (by decide) (by
          intro y hy
          have hy : y.toNat < 2 ^ 8 := covers_zero.1 hy
          exact hin y (by omega) (by omega))
        have hpq := lists_disjoint k1 c1 (tightest_mem k3) (c2 x (covers_zero.2 hx)) hqx
        rw [hpq] at c2
        have := len_le_of_covers (a := q) (b := ⟨0, 24⟩) (k1.aligned q (tightest_mem k3)).1 (by decide) c2
        have : q.len ≤ 24 := this
        omega
      rw [f, if_neg hx]
  · rintro x hx ⟨q, e, he, hc⟩
    rw [hMe q e he] at hc
    rw [covers_full rfl hc] at hx
    exact absurd hx (by decide)

/-! ### tree64 -/

theorem rangeOfID64_long {i : MyId id64} (h : 32 < i.len) : rangeOfID i = none := by
  unfold rangeOfID MyId.mask
  rw [if_pos (show i.len > id64.maskMax from h)]

/-- the prefixes of length up to 32 at 0: the range is valid, and `RemoveFreePrefix` finds a prefix in it -/
theorem root64 : ∀ k : Fin 33, ∃ R, rangeOfID (⟨0, k.1⟩ : MyId id64) = some R ∧ R.isValid = true ∧
    ∃ b, bestOf 64 none [R] = some (some b) := by
  have key : ∀ k : Fin 33, (match rangeOfID (⟨0, k.1⟩ : MyId id64) with
      | none => false
      | some R => R.isValid && (match bestOf 64 none [R] with
        | some (some _) => true
        | _ => false)) = true := by decide
  intro k
  have hk := key k
  split at hk
  · cases hk
  · rename_i R hR
    rw [Bool.and_eq_true] at hk
    refine ⟨R, hR, hk.1, ?_⟩
    have h2 := hk.2
    split at h2
    · rename_i b hb; exact ⟨b, hb⟩
    · cases h2

/-- **C57, C70, violated** (tree64) `ClaimFree` of a new tree panics, for every length. -/
theorem C57_tree64_violated (length : Nat) (hle : length ≤ 64) (l : L) :
    ∃ g : GTree tree64 L, new tree64 L length = some g ∧ g.exec (.claimFree l) = .panic "nil dereference" := by
  let g : GTree tree64 L := ⟨newTree tree64.P, ((1 : BitVec tree64.P.W) <<< length) - 1, length⟩
  refine ⟨g, ?_, ?_⟩
  · unfold new
    rw [if_neg (show ¬ length > tree64.P.W by show ¬ length > 64; omega)]
  have hrl : tree64.rootLen length = 64 - length := Verif.Tree.sub8_eq hle (by decide)
  have hch : ∀ i, g.children i = .ok [] := fun i => rfl
  suffices h : g.findFree = .panic "nil dereference" by
    show (g.claimFree l >>= _) = _
    unfold GTree.claimFree
    rw [h]; rfl
  unfold GTree.findFree
  show (ofRes ((Builder.empty : Builder tree64.P).addId ⟨0, tree64.rootLen length⟩) >>= _) = _
  rcases Nat.lt_or_ge 32 (64 - length) with h | h
  · have hr : rangeOfID (⟨0, tree64.rootLen length⟩ : MyId tree64.P) = none :=
      rangeOfID64_long (i := ⟨0, tree64.rootLen length⟩) (by show 32 < tree64.rootLen length; omega)
    unfold Builder.addId
    rw [hr]
    rfl
  · obtain ⟨R, h1, h2, b, h3⟩ := root64 ⟨64 - length, by omega⟩
    have h1 : rangeOfID (⟨0, 64 - length⟩ : MyId id64) = some R := h1
    have hadd : (Builder.empty : Builder id64).addId ⟨0, tree64.rootLen length⟩ = .ok ⟨[R], [], false⟩ := by
      unfold Builder.addId
      rw [hrl, h1]
      simp only [h2, if_true]
      unfold Builder.addRange
      simp [h2, Builder.empty]
    have hset : (⟨[R], [], false⟩ : Builder id64).ipSet = .ok (⟨[R], [], false⟩, ⟨[R]⟩, false) := by
      unfold Builder.ipSet Builder.normalize
      have hn : normLoop [] [R] [] = .ok [R] := by rw [normLoop]; rfl
      simp only [mergeRanges, hn]
    have hrem : (⟨[R]⟩ : IDSet id64).removeFreePrefix 64 = .panicNil := by
      unfold IDSet.removeFreePrefix
      simp only [h3]
      have : (Builder.empty : Builder id64).addSet [R] = .ok ⟨[R], [], false⟩ := by
        unfold Builder.addSet Builder.addRange
        simp [h2, Builder.empty, Builder.addSet]
      rw [this]
      simp only
      unfold Builder.removeId
      rw [rangeOfID64_long (show 32 < 64 by decide)]
    have hadd : (Builder.empty : Builder tree64.P).addId ⟨0, tree64.rootLen length⟩ = .ok ⟨[R], [], false⟩ := hadd
    have hset : (⟨[R], [], false⟩ : Builder tree64.P).ipSet = .ok (⟨[R], [], false⟩, ⟨[R]⟩, false) := hset
    have hrem : (⟨[R]⟩ : IDSet tree64.P).removeFreePrefix tree64.P.W = .panicNil := hrem
    rw [hadd]
    simp only [ofRes, Verif.Tree.Out.bind_ok, hch, removeAll, hset, hrem]
    rfl

end Verif.GTree
