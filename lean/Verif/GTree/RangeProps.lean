import Verif.GTree.CopyProps
import Verif.GTree.InvProps

/-! C132: `ClaimRange` of the range of a prefix claims the prefix, and with it every tree can be built again. -/

namespace Verif.Id
variable {P : Pkg}

theorem covers_self (p : MyId P) : Covers p p.id := rfl

theorem aligned_le {p : MyId P} (h : Aligned p) {x : BitVec P.W} (hx : Covers p x) : p.id.toNat ≤ x.toNat := by
  obtain ⟨k, hk⟩ := h.2
  unfold Covers at hx
  rw [hk, Nat.mul_div_cancel_left _ (Nat.two_pow_pos _)] at hx
  rw [hk, ← hx]
  exact Nat.mul_div_le _ _

/-- an aligned prefix is determined by what it covers -/
theorem aligned_ext (hb : P.W % 8 = 0) {p q : MyId P} (hp : Aligned p) (hq : Aligned q) (h : ∀ x, Covers p x ↔ Covers q x) : p = q := by
  have h1 : p.id = q.id := BitVec.eq_of_toNat_eq
    (Nat.le_antisymm (aligned_le hp ((h _).2 (covers_self q))) (aligned_le hq ((h _).1 (covers_self p))))
  have last : ∀ {a b : MyId P}, Aligned a → Aligned b → a.id = b.id → (∀ x, Covers a x → Covers b x) →
      2 ^ (P.W - a.len) ≤ 2 ^ (P.W - b.len) := by
    intro a b ha hb' hab hc
    obtain ⟨_, l1⟩ := lastID_spec hb ha.1
    have hca : Covers a (lastID a).id := by
      unfold Covers
      rw [l1, Nat.add_comm, Nat.add_mul_div_right _ _ (Nat.two_pow_pos _),
        Nat.div_eq_of_lt (Nat.sub_lt (Nat.two_pow_pos _) (by decide)), Nat.zero_add]
    have hcb := hc _ hca
    unfold Covers at hcb
    rw [l1, Nat.div_mul_cancel ha.2, hab] at hcb
    obtain ⟨k, hk⟩ := hb'.2
    have hpos := Nat.two_pow_pos (P.W - b.len)
    have hpos' := Nat.two_pow_pos (P.W - a.len)
    rw [hk, Nat.mul_add_div hpos, Nat.mul_div_cancel_left _ hpos] at hcb
    have hz : (2 ^ (P.W - a.len) - 1) / 2 ^ (P.W - b.len) = 0 := by omega
    rw [Nat.div_eq_zero_iff] at hz
    omega
  have e1 := last hp hq h1 fun x => (h x).1
  have e2 := last hq hp h1.symm fun x => (h x).2
  rw [Nat.pow_le_pow_iff_right (by decide)] at e1 e2
  have := hp.1
  have := hq.1
  have hl : p.len = q.len := by omega
  cases p; cases q
  simp_all

/-- the range of an aligned prefix consists of this prefix, and its text can be read back -/
theorem ids_of_prefix (hP : P = id16 ∨ P = id32) {p : MyId P} (h : Aligned p) :
    ∃ r, rangeOfID p = some r ∧ parseRange r.string = some r ∧ r.ids = some [p] := by
  obtain ⟨r, r1, _, _, r4⟩ := C31_rangeOfID hP p h.1
  have hf : ∃ a b, r = rangeFrom a b := by
    unfold rangeOfID at r1
    split at r1
    · exact ⟨_, _, (Option.some.inj r1).symm⟩
    · cases r1
  obtain ⟨a, b, rfl⟩ := hf
  have hself := (r4 p.id).1 (covers_self p)
  have hle : (rangeFrom a b : Rng P).lo.id ≤ (rangeFrom a b : Rng P).hi.id := BitVec.le_trans hself.1 hself.2
  obtain ⟨l, l1, l2⟩ := C32_ids_partition hP _ hle
  obtain ⟨l', l1', l3⟩ := C33_ids_minimal hP _ hle
  obtain rfl : l = l' := Option.some.inj (l1.symm.trans l1')
  have hlen : l.length ≤ 1 := l3.shortest [p] (by simpa using h.1) (by simpa using r4)
  obtain ⟨q, hq, _⟩ := l3.maximal p h.1 fun x => (r4 x).1
  have hl : l = [q] := by
    match l, hlen, hq with
    | [x], _, hq => rw [List.mem_singleton.1 hq]
  subst hl
  have hqp : q = p := aligned_ext (by rcases hP with rfl | rfl <;> decide) (l2.aligned q (by simp)) h fun x => by
    rw [r4 x, ← l2.cover x]; simp
  subst hqp
  exact ⟨_, r1, (C34_parseRange (by rcases hP with rfl | rfl <;> simp)).1 a b, l1⟩

end Verif.Id

namespace Verif.GTree
open Verif.Id
open Verif.Tree (Tree Out)
variable {I : Impl} {L : Type} [Labels L]

/-- **C132, partial** (tree16; tree32 as long as the map has room) `ClaimRange` of the text of the range of a prefix, one
without bits behind its length, succeeds and claims this prefix and nothing else, whatever the length of the tree. If
the id is below `2^length`, no later calls and queries tell the tree from one in which it was claimed with `ClaimID`.
Missing: tree64 (`C132_tree64_violated`). -/
theorem C132_tree_partial (hI : I = tree16 ∨ I = tree32) {length : Nat} {g : GTree I L} {M : Map I.P L}
    (h : Reach I length g M) {p : MyId I.P} (hp : Aligned p) (l : L) (hr : Room (put M p l)) :
    ∃ r g', rangeOfID p = some r ∧ Steps I length g M [(.claimRange r.string l, .done)] g' (put M p l) ∧
      (p.id.toNat < 2 ^ length →
        ∃ g'', Steps I length g M [(.claim p l, .done)] g'' (put M p l) ∧ Alike I length g' (put M p l) g'') := by
  obtain ⟨r, r1, r2, r3⟩ := ids_of_prefix (ok_of hI) hp
  have hfit : (Op.claimRange r.string l : Op I.P L).Fits := trivial
  have heff : Effect length M (.claimRange r.string l) .done (put M p l) := Or.inr ⟨r, [p], r2, r3, rfl, rfl⟩
  obtain ⟨g', hx⟩ := exec_of_effect hI h hfit (by intro l; simp) heff hr
  have hs : Steps I length g M [(.claimRange r.string l, .done)] g' (put M p l) := .cons hfit hx heff hr .nil
  refine ⟨r, g', r1, hs, fun hlt => ?_⟩
  have heff2 : Effect length M (.claim p l) .done (put M p l) := by simp only [Effect, if_pos hlt, and_self]
  obtain ⟨g'', hx2⟩ := exec_of_effect hI h (o := .claim p l) hp.1 (by intro l; simp) heff2 hr
  have hs2 : Steps I length g M [(.claim p l, .done)] g'' (put M p l) := .cons (o := .claim p l) hp.1 hx2 heff2 hr .nil
  exact ⟨g'', hs2, alike_of_same hI (h.steps hs) (h.steps hs2)⟩

-- 300/16 in a tree of length 8
example : Aligned (⟨300, 16⟩ : MyId id16) ∧ rangeOfID (⟨300, 16⟩ : MyId id16) = some (rangeFrom 300 300) ∧
    ((fresh tree16 8).after [.claimRange [51, 48, 48, 45, 51, 48, 48] true]).getAll = .ok [some ⟨⟨300, 16⟩, true⟩] :=
  ⟨⟨by decide, by decide⟩, by decide, rfl⟩

/-! ### Rebuilding with `ClaimRange` -/

theorem ids_aligned {P : Pkg} (hP : P = id16 ∨ P = id32) {r : Rng P} {l : List (MyId P)} (h : r.ids = some l) :
    ∀ p ∈ l, Aligned p := by
  by_cases hle : r.lo.id ≤ r.hi.id
  · obtain ⟨l', h1, h2⟩ := C32_ids_partition hP r hle
    cases h.symm.trans h1
    exact h2.aligned
  · obtain ⟨l', h1, L1, L2, bot, top, b, rfl, _, d1, d2⟩ := C90_ids hP r (BitVec.not_le.1 hle)
    cases h.symm.trans h1
    intro p hp
    rcases List.mem_append.1 hp with hp | hp
    · exact d1.aligned p hp
    · exact d2.aligned p hp

/-- an id below `2^length`, or a prefix without bits behind its length -/
def InOrAligned {P : Pkg} (length : Nat) (i : MyId P) : Prop := i.id.toNat < 2 ^ length ∨ Aligned i

omit [Labels L] in
theorem puts_plain {P : Pkg} {length : Nat} (l : L) : ∀ (ids : List (MyId P)) {M : Map P L},
    (∀ q e, M q = some e → InOrAligned length e.id) → (∀ i ∈ ids, InOrAligned length i) →
    ∀ q e, puts M l ids q = some e → InOrAligned length e.id := by
  intro ids
  induction ids with
  | nil => intro M hM _; exact hM
  | cons i ids ih =>
    intro M hM hi
    refine ih (M := put M i l) (fun q e he => ?_) (fun x hx => hi x (by simp [hx]))
    unfold put at he
    split at he
    · cases he; exact hi i (by simp)
    · exact hM q e he

theorem reach_plain (hI : I = tree16 ∨ I = tree32) {length : Nat} {g : GTree I L} {M : Map I.P L} (h : Reach I length g M) :
    ∀ q e, M q = some e → InOrAligned length e.id := by
  induction h with
  | new _ => intro q e he; cases he
  | step _ _ _ he _ ih =>
    rename_i M o r g' M' _ _ _ _
    have keep : ∀ {f : Entry I.P L → Bool} {x : Option (Entry I.P L)} {e}, x.filter f = some e → x = some e := by
      intro f x e hx; exact (Option.filter_eq_some_iff.1 hx).1
    cases o with
    | claim id l | update id l =>
      simp only [Effect] at he
      split at he
      · rename_i hlt
        rw [he.2]
        exact puts_plain l [id] ih (by intro i hi; rw [List.mem_singleton.1 hi]; exact .inl hlt)
      · rw [he.2]; exact ih
    | claimFree l =>
      rcases he with ⟨_, rfl⟩ | ⟨x, hx, _, rfl⟩
      · exact ih
      · exact puts_plain l [⟨x, I.P.W⟩] ih (by intro i hi; rw [List.mem_singleton.1 hi]; exact .inl hx)
    | claimRange s l =>
      rcases he with ⟨_, _, rfl⟩ | ⟨x, ids, _, hids, _, rfl⟩
      · exact ih
      · exact puts_plain l ids ih fun i hi => .inr (ids_aligned (ok_of hI) hids i hi)
    | release id =>
      simp only [Effect] at he
      split at he
      · intro q e hq
        rw [he.2 q] at hq
        split at hq
        · exact ih q e (keep hq)
        · exact ih q e hq
      · rw [he.2]; exact ih
    | releaseByLabel sel =>
      intro q e hq
      rw [he.2 q] at hq
      exact ih q e (keep hq)

/-- how to claim an entry: `ClaimID` if the id is below `2^length`, otherwise `ClaimRange` with the range of the prefix -/
def reclaim {P : Pkg} (length : Nat) (e : Entry P L) : Op P L :=
  if e.id.id.toNat < 2 ^ length then .claim e.id e.labels
  else match rangeOfID e.id with
    | some r => .claimRange r.string e.labels
    | none => .claim e.id e.labels

theorem reclaim_spec (hI : I = tree16 ∨ I = tree32) {length : Nat} {e : Entry I.P L} (hp : InOrAligned length e.id)
    (hl : e.id.len ≤ I.P.W) (N : Map I.P L) :
    (reclaim length e).Fits ∧ (∀ l, reclaim length e ≠ .claimFree l) ∧
    Effect length N (reclaim length e) .done (put N e.id e.labels) := by
  unfold reclaim
  split
  · rename_i hlt
    refine ⟨hl, by intro l; simp, ?_⟩
    simp only [Effect, if_pos hlt, and_self]
  · rename_i hlt
    obtain ⟨r, r1, r2, r3⟩ := ids_of_prefix (ok_of hI) (hp.resolve_left hlt)
    rw [r1]
    exact ⟨trivial, by intro l; simp, .inr ⟨r, [e.id], r2, r3, rfl, rfl⟩⟩

theorem reclaim_steps (hI : I = tree16 ∨ I = tree32) {length : Nat} {M : Map I.P L} (hM : Room M)
    (hwf : ∀ q e, M q = some e → q = pre e.id ∧ e.id.len ≤ I.P.W) :
    ∀ (l : List (Entry I.P L)) {g : GTree I L} {N : Map I.P L}, Reach I length g N → (∀ q e, N q = some e → M q = some e) →
      (∀ e ∈ l, M (pre e.id) = some e ∧ InOrAligned length e.id) →
      ∃ g' N', Steps I length g N (l.map fun e => (reclaim length e, .done)) g' N' ∧
        (∀ q e, N' q = some e → M q = some e) ∧ (∀ e ∈ l, N' (pre e.id) = some e) ∧ ∀ q e, N q = some e → N' q = some e := by
  intro l
  induction l with
  | nil => intro g N _ hs _; exact ⟨g, N, .nil, hs, by simp, fun _ _ h => h⟩
  | cons e l ih =>
    intro g N h hs hl
    obtain ⟨he1, he2⟩ := hl e (by simp)
    obtain ⟨hfit, hne, heff⟩ := reclaim_spec hI he2 (hwf _ _ he1).2 N
    have hsub : ∀ q x, put N e.id e.labels q = some x → M q = some x := by
      intro q x hx
      unfold put at hx
      split at hx
      · rename_i hq; subst hq; cases hx; exact he1
      · exact hs q x hx
    have hroom : Room (put N e.id e.labels) := hM.mono fun q hq => by
      obtain ⟨x, hx⟩ := Option.ne_none_iff_exists'.1 hq
      rw [hsub q x hx]; simp
    obtain ⟨g₁, hx⟩ := exec_of_effect hI h hfit hne heff hroom
    obtain ⟨g', N', i1, i2, i3, i4⟩ := ih (h.step hfit hx heff hroom) hsub (fun x hx => hl x (by simp [hx]))
    have hput : put N e.id e.labels (pre e.id) = some e := by simp [put]
    refine ⟨g', N', .cons hfit hx heff hroom i1, i2, ?_, ?_⟩
    · intro x hx
      rcases List.mem_cons.1 hx with rfl | hx
      · exact i4 _ _ hput
      · exact i3 x hx
    · intro q x hx
      refine i4 q x ?_
      unfold put
      split
      · rename_i hq
        have := hs q x hx
        rw [hq, he1] at this
        rw [← Option.some.inj this]
      · exact hx

/-- **C132, partial** (tree16; tree32 as long as the map has room) Every tree can be built again from what `GetAll` lists, in
any order, with `ClaimID` for ids below `2^length` and `ClaimRange` for the others (compare `C128_tree_violated`).
Missing: tree64 (`C128_tree64_violated`). -/
theorem C132_rebuild_partial (hI : I = tree16 ∨ I = tree32) {length : Nat} {g g₀ : GTree I L} {M : Map I.P L}
    (h : Reach I length g M) (hnew : new I L length = some g₀) :
    ∃ es : List (Entry I.P L), g.getAll = .ok (es.map some) ∧ ∀ l : List (Entry I.P L), (∀ e, e ∈ l ↔ e ∈ es) →
      ∃ g', Steps I length g₀ Map.empty (l.map fun e => (reclaim length e, .done)) g' M ∧ Alike I length g M g' := by
  obtain ⟨es, h1, h2, _⟩ := C59_queries_partial hI h
  refine ⟨es, h2, fun l hl => ?_⟩
  have hi := h.ginv hI
  have hlist : ∀ e, e ∈ es ↔ M (pre e.id) = some e := fun e => h1.mem fun q e he => (hi.wf q e he).1
  obtain ⟨g', N', s1, s2, s3, _⟩ := reclaim_steps hI hi.room hi.wf l (Reach.new hnew) (by intro q e he; cases he)
    (fun e he => have := (hlist e).1 ((hl e).1 he); ⟨this, reach_plain hI h _ _ this⟩)
  have : N' = M := by
    funext q
    refine Option.ext fun e => ⟨s2 q e, fun he => ?_⟩
    obtain ⟨rfl, _⟩ := hi.wf q e he
    exact s3 e ((hl e).2 ((hlist e).2 he))
  subst this
  exact ⟨g', s1, alike_of_same hI h ((Reach.new hnew).steps s1)⟩

-- a tree of length 8 with an id below 2^8 and one beyond
example : ((fresh tree16 8).after [.claimRange [51, 48, 48, 45, 51, 48, 48] true, .claim ⟨5, 16⟩ false]).getAll =
    .ok ([⟨⟨5, 16⟩, false⟩, ⟨⟨300, 16⟩, true⟩].map some) := rfl

/-- **C132, violated** (tree64) `RangeOfID` has no range for prefixes longer than 32, such as 5/64. -/
theorem C132_tree64_violated : Aligned (⟨5, 64⟩ : MyId id64) ∧ rangeOfID (⟨5, 64⟩ : MyId id64) = none :=
  ⟨⟨by decide, by decide⟩, C31_rangeOfID64_violated.1 _ (by decide)⟩

end Verif.GTree
