import Verif.GTree.FreeProps

/-!
Properties C82 and C83 of the trees of claimed prefixes: claiming what is claimed already, and which id
`ClaimFree` chooses.
-/

namespace Verif.GTree
open Verif.Id
open Verif.Tree (Tree Out newTree)
variable {I : Impl} {L : Type} [Labels L]

/-! ### C82 -/

theorem room_claimed {P : Pkg} {M : Map P L} (h : Room M) {id : MyId P} {e : Entry P L} (he : M (pre id) = some e) (l : L) :
    Room (put M id l) := by
  refine h.mono ?_
  intro q hq
  unfold put at hq
  split at hq
  · next hp => rw [hp, he]; simp
  · exact hq

/-- **C82, violated** (tree16, tree32; every state) `ClaimID` of a prefix that is claimed succeeds, if the id is
within the size. The labels of the earlier claim are lost; when the two ids differ in the bits after the prefix, the
earlier claim cannot be found any more. -/
theorem C82_claim_violated (hI : I = tree16 ∨ I = tree32) {length : Nat} {g : GTree I L} {M : Map I.P L}
    (h : Reach I length g M) {id : MyId I.P} (hid : id.len ≤ I.P.W) (hlt : id.id.toNat < 2 ^ length)
    {e : Entry I.P L} (he : M (pre id) = some e) (l : L) :
    g.get e.id = .ok (some e) ∧ ∃ g', g.exec (.claim id l) = .ok (.done, g') ∧ Reach I length g' (put M id l) ∧
      g'.get id = .ok (some ⟨id, l⟩) ∧ (e.id ≠ id → g'.get e.id = .ok none) := by
  have hw := ((h.ginv hI).wf _ _ he).1
  obtain ⟨g', e1, e2, e3⟩ := (C52_claim_get_partial hI h id hid l _ (.inl rfl)).1 hlt (room_claimed (h.ginv hI).room he l)
  refine ⟨?_, g', e1, e2, e3 _ _ _ .nil (by simp), fun hne => ?_⟩
  · rw [get_spec (h.ginv hI), ← hw, he, filter_pos (by simp)]
  · rw [get_spec (e2.ginv hI), ← hw]
    unfold put
    rw [if_pos rfl, filter_neg (by simpa using fun hc => hne hc.symm)]

/-- **C82, violated** (tree16, tree32; every state with room) `Update` of a prefix that is not claimed succeeds, and
the prefix is claimed afterwards. -/
theorem C82_update_violated (hI : I = tree16 ∨ I = tree32) {length : Nat} {g : GTree I L} {M : Map I.P L}
    (h : Reach I length g M) {id : MyId I.P} (hid : id.len ≤ I.P.W) (hlt : id.id.toNat < 2 ^ length)
    (he : M (pre id) = none) (l : L) (hr : Room (put M id l)) :
    g.get id = .ok none ∧ ∃ g', g.exec (.update id l) = .ok (.done, g') ∧ Reach I length g' (put M id l) ∧
      g'.get id = .ok (some ⟨id, l⟩) := by
  obtain ⟨g', e1, e2, e3⟩ := (C52_claim_get_partial hI h id hid l _ (.inr rfl)).1 hlt hr
  refine ⟨?_, g', e1, e2, e3 _ _ _ .nil (by simp)⟩
  rw [get_spec (h.ginv hI), he]; rfl

omit [Labels L] in
theorem puts_some {P : Pkg} {l : L} {q : List Bool} : ∀ (ids : List (MyId P)) (M : Map P L),
    puts M l ids q ≠ none → M q ≠ none ∨ ∃ i ∈ ids, pre i = q
  | [], _, h => .inl h
  | i :: ids, M, h => by
    rcases puts_some ids (put M i l) h with h | ⟨j, h1, h2⟩
    · unfold put at h
      split at h
      · next hp => exact .inr ⟨i, by simp, hp.symm⟩
      · exact .inl h
    · exact .inr ⟨j, by simp [h1], h2⟩

/-- **C82, violated** (tree16, tree32; every state) `ClaimRange("a-b")` with `a ≤ b` succeeds although prefixes of
the range are claimed; each of them gets the new labels. -/
theorem C82_claimRange_violated (hI : I = tree16 ∨ I = tree32) {length : Nat} {g : GTree I L} {M : Map I.P L}
    (h : Reach I length g M) {s : List UInt8} {a b : Nat} (hs : IsRange I.P.W s a b) (hab : a ≤ b) (l : L) :
    ∃ ids : List (MyId I.P), Decomposes ids (BitVec.ofNat _ a) (BitVec.ofNat _ b) ∧
      ((∀ i ∈ ids, ∃ e, g.get i = .ok (some e)) → ∃ g', g.exec (.claimRange s l) = .ok (.done, g') ∧
        ∀ i ∈ ids, g'.get i = .ok (some ⟨i, l⟩)) := by
  obtain ⟨ids, h1, h2⟩ := (C58_claimRange_partial hI h s l).1 a b hs hab
  refine ⟨ids, h1, fun hc => ?_⟩
  obtain ⟨g', e1, _, e2, _⟩ := h2 ((h.ginv hI).room.mono (by
    intro q hq
    rcases puts_some _ _ hq with hq | ⟨i, hi, rfl⟩
    · exact hq
    · obtain ⟨e, he⟩ := hc i hi
      rw [get_spec (h.ginv hI)] at he
      intro hn
      rw [hn] at he
      cases he))
  exact ⟨g', e1, e2⟩

/-- **C82, partial** (tree16; tree32 as long as the map has room) What is guaranteed: `ClaimID` and `Update` of an
id within the size have exactly one effect, the entry of the prefix is replaced or made; so `Size` grows by one exactly
when the prefix was not claimed, and `Get` of ids with other prefixes does not change. A client that looks before it
claims does not lose claims, if it is alone. Missing: the failure that is asked for (violated above). -/
theorem C82_claim_partial (hI : I = tree16 ∨ I = tree32) {length : Nat} {g : GTree I L} {M : Map I.P L}
    (h : Reach I length g M) {id : MyId I.P} (hid : id.len ≤ I.P.W) (hlt : id.id.toNat < 2 ^ length) (l : L)
    (hr : Room (put M id l)) (o : Op I.P L) (ho : o = .claim id l ∨ o = .update id l) :
    ∃ (g' : GTree I L) (n : Nat), g.exec o = .ok (.done, g') ∧ Reach I length g' (put M id l) ∧
      g.count = .ok n ∧ g'.count = .ok (if M (pre id) = none then n + 1 else n) ∧
      g'.get id = .ok (some ⟨id, l⟩) ∧ ∀ id', pre id' ≠ pre id → g'.get id' = g.get id' := by
  obtain ⟨g', e1, e2, e3⟩ := (C52_claim_get_partial hI h id hid l o ho).1 hlt hr
  obtain ⟨K, k1, _, k2, _⟩ := C59_queries_partial hI h
  obtain ⟨K', k1', _, k2', _⟩ := C59_queries_partial hI e2
  refine ⟨g', K.length, e1, e2, k2, ?_, e3 _ _ _ .nil (by simp), fun id' hne => ?_⟩
  · rw [k2']
    congr 1
    -- the listings without the prefix are equal
    have hf := k1.filter (fun e => decide (pre e.id ≠ pre id))
    have hf' := k1'.filter (fun e => decide (pre e.id ≠ pre id))
    have hw := (h.ginv hI).wf
    have hw' := (e2.ginv hI).wf
    have heq : (fun q => (put M id l q).filter (fun e => decide (pre e.id ≠ pre id))) =
        fun q => (M q).filter (fun e => decide (pre e.id ≠ pre id)) := by
      funext q
      unfold put
      split
      · next hq =>
        rw [filter_neg (by simp)]
        cases hm : M q with
        | none => rfl
        | some e => rw [filter_neg]; have := (hw _ _ hm).1; simp [← this, hq]
      · rfl
    rw [heq] at hf'
    have hlist := hf'.unique hf
    have hnd : ∀ {K : List (Entry I.P L)} {M : Map I.P L}, Listing K M → (∀ q e, M q = some e → q = pre e.id) →
        K.length = (K.filter (fun e => decide (pre e.id ≠ pre id))).length + (if M (pre id) = none then 0 else 1) := by
      intro K M hK hw
      have hc : (K.filter (fun e => decide (pre e.id = pre id))).length = if M (pre id) = none then 0 else 1 := by
        have hf : Listing (K.filter (fun e => decide (pre e.id = pre id))) (fun q => (M q).filter (fun e => decide (pre e.id = pre id))) :=
          hK.filter _
        cases hm : M (pre id) with
        | none =>
          have : Listing ([] : List (Entry I.P L)) (fun q => (M q).filter (fun e => decide (pre e.id = pre id))) := by
            refine ⟨by simp, fun q v => ?_⟩
            simp only [List.map_nil, List.not_mem_nil, false_iff]
            intro hc
            rw [Option.filter_eq_some_iff] at hc
            have h1 := hw _ _ hc.1
            have h2 : pre v.id = pre id := by simpa using hc.2
            rw [h1, h2, hm] at hc
            cases hc.1
          rw [hf.unique this]; rfl
        | some e =>
          have hpe := hw _ _ hm
          have : Listing [e] (fun q => (M q).filter (fun e => decide (pre e.id = pre id))) := by
            refine ⟨by simp, fun q v => ?_⟩
            simp only [List.map_cons, List.map_nil, List.mem_singleton, Prod.mk.injEq, Option.filter_eq_some_iff,
              decide_eq_true_eq]
            constructor
            · rintro ⟨rfl, rfl⟩
              exact ⟨by rw [← hpe, hm], hpe.symm⟩
            · rintro ⟨h1, h2⟩
              have h3 := hw _ _ h1
              rw [h3, h2, hm] at h1
              cases h1
              exact ⟨h3, rfl⟩
          rw [hf.unique this]; rfl
      rw [← hc]
      clear hc hK
      induction K with
      | nil => rfl
      | cons e K ih =>
        simp only [List.filter_cons, List.length_cons, ne_eq] at ih ⊢
        by_cases hp : pre e.id = pre id
        · simp only [hp, not_true_eq_false, decide_false, Bool.false_eq_true, if_false, decide_true, if_true, List.length_cons]
          omega
        · simp only [hp, not_false_eq_true, decide_true, if_true, decide_false, Bool.false_eq_true, if_false, List.length_cons]
          omega
    have l1 := hnd k1 (fun q e he => (hw q e he).1)
    have l2 := hnd k1' (fun q e he => (hw' q e he).1)
    rw [hlist] at l2
    have : put M id l (pre id) ≠ none := by unfold put; rw [if_pos rfl]; simp
    rw [if_neg this] at l2
    split at l1 <;> rename_i hm
    · rw [if_pos hm]; omega
    · rw [if_neg hm]; omega
  · rw [get_spec (e2.ginv hI), get_spec (h.ginv hI)]
    unfold put
    rw [if_neg hne]

-- 5/16 claimed twice; 4/8 and 5/8 are the same prefix; the range 5-18 contains the prefix 8/13
example : (fresh tree16 16).gets [.claim ⟨5, 16⟩ true, .claim ⟨5, 16⟩ false] [⟨5, 16⟩] = [.some false] := by decide
example : (fresh tree16 16).gets [.claim ⟨4, 8⟩ true, .claim ⟨5, 8⟩ false] [⟨4, 8⟩, ⟨5, 8⟩] = [.none, .some false] := by decide
example : (fresh tree16 16).gets [.claim ⟨8, 13⟩ true, .claimRange [53, 45, 49, 56] false] [⟨8, 13⟩] = [.some false] := by
  decide

/-! ### C83 -/

/-- a block of ids below `2^length` none of which is covered by an entry -/
def FreeSpan {P : Pkg} (length : Nat) (M : Map P L) (p : MyId P) : Prop :=
  p.len ≤ P.W ∧ ∀ x, Covers p x → x.toNat < 2 ^ length ∧ ¬ Covered M x

/-- no larger block around it is free -/
def MaxFree {P : Pkg} (length : Nat) (M : Map P L) (p : MyId P) : Prop :=
  FreeSpan length M p ∧ ∀ p' : MyId P, FreeSpan length M p' → (∀ x, Covers p x → Covers p' x) → p'.len = p.len

/-- `x` is the first id of a maximal free block; no maximal free block is smaller, and none of the same size
comes before it -/
def BestFit {P : Pkg} (length : Nat) (M : Map P L) (x : BitVec P.W) : Prop :=
  ∃ p : MyId P, MaxFree length M p ∧ Aligned p ∧ p.id = x ∧
    ∀ p' : MyId P, MaxFree length M p' → p'.len ≤ p.len ∧ (p'.len = p.len → x ≤ p'.id)

theorem eq_len {P : Pkg} {a b : MyId P} (ha : a.len ≤ P.W) (hb : b.len ≤ P.W)
    (h : ∀ z, Covers b z → Covers a z) (h' : ∀ z, Covers a z → Covers b z) : a.len = b.len :=
  Nat.le_antisymm (len_le_of_covers ha hb h) (len_le_of_covers hb ha h')

theorem tightest_first {P : Pkg} {l : Nat} {K : List (MyId P)} {q : MyId P} {S : BitVec P.W → Prop} (h : Tightest l K q) (hK : Lists K S) {p : MyId P}
    (hp : p ∈ K) (hl : p.len ≤ l) (he : p.len = q.len) {y : BitVec P.W} (hy : Covers p y) : q.id ≤ y := by
  obtain ⟨A, B, h, h1, h2, h3⟩ := h
  have hasc := hK.ascending
  have hal := hK.aligned
  rw [h] at hp hasc hal
  rcases List.mem_append.1 hp with hp | hp
  · have := h2 p hp hl; omega
  · rcases List.mem_cons.1 hp with rfl | hp
    · -- the same block
      have hd := (hal p (by simp)).2
      unfold Covers at hy
      rw [BitVec.le_def]
      have h1 := Nat.div_mul_cancel hd
      rw [← hy] at h1
      rw [← h1]
      exact Nat.div_mul_le_self _ _
    · rw [List.pairwise_append] at hasc
      exact BitVec.le_of_lt ((List.pairwise_cons.1 hasc.2.1).1 p hp _ _ (covers_self q) hy)

/-- **C83, partial** (tree16; tree32 of length up to 16) When no entry contains the prefix that `findFree` starts
with, the id that `ClaimFree` returns is the best fit: the first id of a smallest maximal free block, the lowest one.
Missing: the lowest free id, which is violated; entries that cover all ids, tree32 of other lengths, tree64 (see
`C57`). -/
theorem C83_bestFit_partial {length : Nat} (hI : I = tree16 ∨ I = tree32 ∧ length ≤ 16) {g g' : GTree I L} {M : Map I.P L}
    (h : Reach I length g M) (hn : NoneAbove (I.rootLen length) M) (l : L) (e : Entry I.P L)
    (hx : g.exec (.claimFree l) = .ok (.got e, g')) :
    ∃ x : BitVec I.P.W, e = ⟨⟨x, I.P.W⟩, l⟩ ∧ BestFit length M x := by
  have hI' : I = tree16 ∨ I = tree32 := hI.imp id And.left
  have hle := (h.ginv hI').le
  have hrl : I.rootLen length ≤ I.P.W - length := by
    rcases hI with rfl | ⟨rfl, h16⟩
    · exact Nat.le_of_eq (Verif.Tree.sub8_eq hle (by decide))
    · show length ≤ 32 - length
      omega
  obtain ⟨x, rfl, hx1, hx2, _⟩ := C57_sound_partial hI' h hn l e hx
  refine ⟨x, rfl, ?_⟩
  rcases find_cases hI' h with ⟨f, _⟩ | ⟨y, f, h2, h3, K, q, k1, k2, k3, k4⟩
  · rw [claimFree_err f] at hx; cases hx
  have hyx : y = x := by
    by_cases hlt : y.toNat < 2 ^ length
    · rw [if_pos hlt] at f
      have hx : (g.claimFree l >>= fun p => (pure (match p.1 with | .ok e => .got e | .err => .err, p.2) : Out (Result I.P L × GTree I L))) =
          .ok (.got ⟨⟨x, I.P.W⟩, l⟩, g') := hx
      have hc : g.claimFree l = (g.set ⟨y, I.P.W⟩ ⟨⟨y, I.P.W⟩, l⟩ >>= fun g => (pure (.ok ⟨⟨y, I.P.W⟩, l⟩, g) : Out (Ret (Entry I.P L) × GTree I L))) := by
        unfold GTree.claimFree
        rw [f]; rfl
      rw [hc] at hx
      cases hs : g.set ⟨y, I.P.W⟩ ⟨⟨y, I.P.W⟩, l⟩ with
      | ok g1 =>
        rw [hs] at hx
        have := congrArg Prod.fst (Out.ok.inj hx)
        have := congrArg Entry.id (Result.got.inj this)
        exact congrArg MyId.id this
      | _ => rw [hs] at hx; cases hx
    · rw [if_neg hlt] at f
      rw [claimFree_err f] at hx; cases hx
  subst hyx
  -- the block of the ids within the size
  let low : MyId I.P := ⟨0, I.P.W - length⟩
  have hlow : ∀ z : BitVec I.P.W, Covers low z ↔ z.toNat < 2 ^ length := by
    intro z
    rw [covers_zero]
    show _ < 2 ^ (I.P.W - (I.P.W - length)) ↔ _
    rw [show I.P.W - (I.P.W - length) = length by omega]
  have hroot : ∀ z, Covers low z → Covers (⟨0, I.rootLen length⟩ : MyId I.P) z := fun z hz =>
    covers_of_common (a := ⟨0, I.rootLen length⟩) (b := low) hrl (covers_self _) (covers_self low) hz
  have hspan : ∀ p, FreeSpan length M p → ∃ p' ∈ K, ∀ y, Covers p y → Covers p' y := fun p hp =>
    k2 p hp.1 (fun y hy => ⟨hroot y ((hlow y).2 (hp.2 y hy).1), fun hs => (hp.2 y hy).2
      ((seen_iff hn (hroot y ((hlow y).2 (hp.2 y hy).1))).1 hs)⟩)
  have hK : ∀ p ∈ K, ∀ y, Covers p y → ¬ Covered M y := by
    intro p hp y hy hc
    obtain ⟨c1, c2⟩ := (k1.cover y).1 ⟨p, hp, hy⟩
    exact c2 ((seen_iff hn c1).2 hc)
  have hq := tightest_mem k3
  have hqW := (k1.aligned q hq).1
  have hqy : Covers q y := k4 ▸ covers_self q
  rcases Nat.lt_or_ge q.len low.len with hql | hql
  · -- everything is free
    have hsub : ∀ z, Covers low z → Covers q z := fun z hz =>
      covers_of_common (Nat.le_of_lt hql) hqy ((hlow y).2 hx1) hz
    have hfree : FreeSpan length M low := ⟨Nat.sub_le _ _, fun z hz => ⟨(hlow z).1 hz, hK q hq z (hsub z hz)⟩⟩
    have hin : ∀ p, FreeSpan length M p → ∀ z, Covers p z → Covers low z := fun p hp z hz => (hlow z).2 (hp.2 z hz).1
    have h0 : y = 0 := by
      have hd := (k1.aligned q hq).2
      have hc := hsub 0 (covers_self low)
      unfold Covers at hc
      rw [show (0 : BitVec I.P.W).toNat = 0 from BitVec.toNat_zero .., Nat.zero_div] at hc
      have := Nat.div_mul_cancel hd
      rw [← hc, Nat.zero_mul, k4] at this
      exact BitVec.eq_of_toNat_eq (by rw [← this]; simp)
    refine ⟨low, ⟨hfree, fun p' hp' hs => eq_len hp'.1 (Nat.sub_le _ _) hs (hin p' hp')⟩, ⟨Nat.sub_le _ _, ?_⟩, h0.symm, ?_⟩
    · show _ ∣ (0 : BitVec I.P.W).toNat
      simp
    · intro p' hp'
      have := hp'.2 low hfree (hin p' hp'.1)
      refine ⟨Nat.le_of_eq this.symm, fun _ => ?_⟩
      rw [h0, BitVec.le_def]
      simp
  · -- the chosen block lies within the size
    have hin : ∀ z, Covers q z → Covers low z := fun z hz => covers_of_common hql ((hlow y).2 hx1) hqy hz
    have hfree : FreeSpan length M q := ⟨hqW, fun z hz => ⟨(hlow z).1 (hin z hz), hK q hq z hz⟩⟩
    refine ⟨q, ⟨hfree, fun p' hp' hs => ?_⟩, k1.aligned q hq, k4, fun p' hp' => ?_⟩
    · obtain ⟨p'', c1, c2⟩ := hspan p' hp'
      have := lists_disjoint k1 c1 hq (c2 _ (hs _ hqy)) hqy
      rw [this] at c2
      exact eq_len hp'.1 hqW hs c2
    · obtain ⟨p'', c1, c2⟩ := hspan p' hp'.1
      have hp'' := (k1.aligned p'' c1).1
      have hlen : low.len ≤ p''.len := by
        rcases Nat.lt_or_ge p''.len low.len with hl | hl
        · have hid := (hp'.1.2 _ (covers_self p')).1
          have hc := covers_of_common (Nat.le_of_lt hl) (c2 _ (covers_self p')) ((hlow _).2 hid) ((hlow y).2 hx1)
          rw [lists_disjoint k1 c1 hq hc hqy]
          exact hql
        · exact hl
      have hf'' : FreeSpan length M p'' := ⟨hp'', fun z hz => ⟨(hlow z).1 (covers_of_common hlen
        ((hlow _).2 (hp'.1.2 _ (covers_self p')).1) (c2 _ (covers_self p')) hz), hK p'' c1 z hz⟩⟩
      have he := hp'.2 p'' hf'' c2
      refine ⟨?_, fun heq => ?_⟩
      · rw [← he]; exact tightest_longest k3 c1 hp''
      · rw [← k4]
        exact tightest_first k3 k1 c1 hp'' (he.trans heq) (c2 _ (covers_self p'))

/-- **C83, violated** (tree16 of length 2 or more, tree32 of length 2 to 16) After claiming 2 in a new tree,
`ClaimFree` returns 3 although 0 and 1 are free. -/
theorem C83_lowest_violated {length : Nat} (h2 : 2 ≤ length) (hI : I = tree16 ∧ length ≤ 16 ∨ I = tree32 ∧ length ≤ 16) (l : L) :
    ∃ (g g' : GTree I L) (M : Map I.P L), Reach I length g M ∧ ¬ Covered M 0 ∧ ¬ Covered M 1 ∧ NoneAbove (I.rootLen length) M ∧
      g.exec (.claimFree l) = .ok (.got ⟨⟨3, I.P.W⟩, l⟩, g') := by
  have hI' : I = tree16 ∨ I = tree32 := hI.imp And.left And.left
  have hI2 : I = tree16 ∨ I = tree32 ∧ length ≤ 16 := hI.imp And.left id
  have hl16 : length ≤ 16 := by
    rcases hI with h | h
    · exact h.2
    · exact h.2
  have hW16 : 16 ≤ I.P.W := by
    rcases hI' with rfl | rfl
    · exact Nat.le_refl _
    · show 16 ≤ 32
      omega
  have hle : length ≤ I.P.W := by omega
  have hW4 : 2 ^ 2 ≤ 2 ^ I.P.W := Nat.pow_le_pow_right (by decide) (by omega)
  have hl4 : 2 ^ 2 ≤ 2 ^ length := Nat.pow_le_pow_right (by decide) h2
  have hnum : ∀ n, n < 4 → (BitVec.ofNat I.P.W n).toNat = n := fun n hn => by
    rw [BitVec.toNat_ofNat, Nat.mod_eq_of_lt (by omega)]
  have t0 : (0 : BitVec I.P.W).toNat = 0 := hnum 0 (by omega)
  have t1 : (1 : BitVec I.P.W).toNat = 1 := hnum 1 (by omega)
  have t2 : (2 : BitVec I.P.W).toNat = 2 := hnum 2 (by omega)
  have t3 : (3 : BitVec I.P.W).toNat = 3 := hnum 3 (by omega)
  have hnew := reach_new (I := I) (L := L) hle
  let M : Map I.P L := put Map.empty ⟨2, I.P.W⟩ l
  obtain ⟨g, _, hg, _⟩ := (C52_claim_get_partial hI' hnew ⟨2, I.P.W⟩ (Nat.le_refl _) l _ (.inl rfl)).1
    (by show (2 : BitVec I.P.W).toNat < _; omega) (room_one _ l)
  have hcov : ∀ x, Covered M x ↔ x.toNat = 2 := by
    intro x
    constructor
    · rintro ⟨q, e, h1, h2⟩
      simp only [M, put] at h1
      split at h1
      · cases h1
        rw [covers_full rfl h2]
        exact t2
      · cases h1
    · intro hx
      refine ⟨pre (⟨2, I.P.W⟩ : MyId I.P), ⟨⟨2, I.P.W⟩, l⟩, by simp [M, put], ?_⟩
      have : x = 2 := BitVec.eq_of_toNat_eq (by omega)
      rw [this]; rfl
  have hroot : I.rootLen length < I.P.W := by
    rcases hI with ⟨rfl, h1⟩ | ⟨rfl, h1⟩
    · have : tree16.rootLen length = 16 - length := Verif.Tree.sub8_eq h1 (by decide)
      rw [this]
      show 16 - length < 16
      omega
    · show length < 32
      omega
  have hent : ∀ q e, M q = some e → e.id = ⟨2, I.P.W⟩ := by
    intro q e he
    simp only [M, put] at he
    split at he
    · cases he; rfl
    · cases he
  have hnone : NoneAbove (I.rootLen length) M := by
    intro q e he _
    rw [hent q e he]
    exact hroot
  have hfree : FreeOk length g M l := by
    rcases hI with ⟨rfl, h1⟩ | ⟨rfl, h1⟩
    · refine C57_claimFree_partial (.inl rfl) hg ?_ l
      rw [show tree16.rootLen length = 16 - length from Verif.Tree.sub8_eq h1 (by decide)] at hnone
      exact hnone
    · refine C57_claimFree32_partial h1 hg hnone ?_ l
      intro q e he
      rw [hent q e he]
      show (2 : BitVec tree32.P.W).toNat < _
      omega
  rcases hfree with ⟨x, x1, x2, x3⟩ | ⟨_, hall⟩
  · obtain ⟨g', e1, _⟩ := x3 (by
      refine room_few (fun hw => ?_)
      refine ⟨[pre (⟨x, I.P.W⟩ : MyId I.P), pre (⟨2, I.P.W⟩ : MyId I.P)], Nat.le_trans (Nat.le_refl 2) (by decide), fun q hq => ?_⟩
      simp only [M, put] at hq
      by_cases c1 : q = pre (⟨x, I.P.W⟩ : MyId I.P)
      · simp [c1]
      · by_cases c2 : q = pre (⟨2, I.P.W⟩ : MyId I.P)
        · simp [c2]
        · rw [if_neg c1, if_neg c2] at hq
          exact absurd rfl hq)
    obtain ⟨x', e2, p, ⟨p1, p2⟩, _, p3, p4⟩ := C83_bestFit_partial hI2 hg hnone l _ e1
    have hxx : x = x' := congrArg MyId.id (congrArg Entry.id e2)
    subst hxx
    have hpair : ∀ z : BitVec I.P.W, ∀ n, Covers (⟨BitVec.ofNat _ n, I.P.W - 1⟩ : MyId I.P) z → n < 4 → z.toNat / 2 = n / 2 := by
      intro z n hz hn
      have hz : z.toNat / 2 ^ (I.P.W - (I.P.W - 1)) = (BitVec.ofNat I.P.W n).toNat / 2 ^ (I.P.W - (I.P.W - 1)) := hz
      rw [show I.P.W - (I.P.W - 1) = 1 by omega, hnum n hn] at hz
      exact hz
    have hsingle : MaxFree length M ⟨3, I.P.W⟩ := by
      refine ⟨⟨Nat.le_refl _, fun z hz => ?_⟩, fun p' hp' hs => ?_⟩
      · rw [covers_full rfl hz, hcov]
        show (3 : BitVec I.P.W).toNat < _ ∧ ¬ (3 : BitVec I.P.W).toNat = 2
        omega
      · have hc3 := hs 3 (covers_self _)
        have := hp'.1
        show p'.len = I.P.W
        rcases Nat.lt_or_ge p'.len I.P.W with hlt | hge
        · exfalso
          have hc2 : Covers p' 2 := by
            show (2 : BitVec I.P.W).toNat / _ = _
            have hc3 : (3 : BitVec I.P.W).toNat / 2 ^ (I.P.W - p'.len) = p'.id.toNat / 2 ^ (I.P.W - p'.len) := hc3
            rw [← hc3]
            refine Verif.Id.div_pow_mono (j := 1) (by omega) ?_
            rw [t2, t3]
          exact (hp'.2 2 hc2).2 ((hcov 2).2 t2)
        · omega
    obtain ⟨q1, q2⟩ := p4 _ hsingle
    have hpl : p.len = I.P.W := Nat.le_antisymm p1.1 q1
    have hx3 := q2 hpl.symm
    rw [BitVec.le_def] at hx3
    have hx3 : x.toNat ≤ (3 : BitVec I.P.W).toNat := hx3
    rw [hcov] at x2
    have hx01 : ¬ x.toNat < 2 := by
      intro hlt
      have hsp : FreeSpan length M ⟨BitVec.ofNat _ 0, I.P.W - 1⟩ := ⟨Nat.sub_le _ _, fun z hz => by
        have := hpair z 0 hz (by omega)
        rw [hcov]
        omega⟩
      have hlen := p2 _ hsp (fun z hz => by
        have := covers_full hpl hz
        rw [this, p3]
        show x.toNat / 2 ^ (I.P.W - (I.P.W - 1)) = (BitVec.ofNat I.P.W 0).toNat / 2 ^ (I.P.W - (I.P.W - 1))
        rw [show I.P.W - (I.P.W - 1) = 1 by omega, hnum 0 (by omega)]
        omega)
      have hlen : I.P.W - 1 = p.len := hlen
      omega
    have hx : x = 3 := BitVec.eq_of_toNat_eq (by omega)
    subst hx
    refine ⟨g, g', M, hg, ?_, ?_, hnone, e1⟩
    · rw [hcov]; omega
    · rw [hcov]; omega
  · have := hall 0 (by omega)
    rw [hcov] at this
    omega

/-- the map after `n` calls: the ids below `n` are claimed -/
def counted {P : Pkg} (f : Nat → L) : Nat → Map P L
  | 0 => Map.empty
  | n + 1 => put (counted f n) ⟨BitVec.ofNat _ n, P.W⟩ (f n)

omit [Labels L] in
theorem counted_mem {P : Pkg} {f : Nat → L} {q : List Bool} {e : Entry P L} : ∀ {n : Nat}, counted f n q = some e →
    ∃ i, i < n ∧ e.id = ⟨BitVec.ofNat _ i, P.W⟩
  | 0, h => by cases h
  | n + 1, h => by
    unfold counted put at h
    split at h
    · cases h; exact ⟨n, by omega, rfl⟩
    · obtain ⟨i, h1, h2⟩ := counted_mem h
      exact ⟨i, by omega, h2⟩

omit [Labels L] in
theorem counted_get {P : Pkg} {f : Nat → L} {i : Nat} : ∀ {n : Nat}, i < n →
    ∃ e : Entry P L, counted f n (pre (⟨BitVec.ofNat _ i, P.W⟩ : MyId P)) = some e ∧ pre e.id = pre (⟨BitVec.ofNat _ i, P.W⟩ : MyId P)
  | 0, h => by omega
  | n + 1, h => by
    unfold counted put
    by_cases hp : pre (⟨BitVec.ofNat _ i, P.W⟩ : MyId P) = pre (⟨BitVec.ofNat _ n, P.W⟩ : MyId P)
    · exact ⟨_, if_pos hp, hp.symm⟩
    · have hne : i ≠ n := fun he => hp (by rw [he])
      rw [if_neg hp]
      exact counted_get (by omega)

omit [Labels L] in
theorem counted_covered {P : Pkg} {f : Nat → L} {n : Nat} (hn : n ≤ 2 ^ P.W) (x : BitVec P.W) :
    Covered (counted f n) x ↔ x.toNat < n := by
  constructor
  · rintro ⟨q, e, h1, h2⟩
    obtain ⟨i, h3, h4⟩ := counted_mem h1
    rw [h4] at h2
    have := covers_full rfl h2
    rw [this]
    show (BitVec.ofNat P.W i).toNat < n
    rw [BitVec.toNat_ofNat, Nat.mod_eq_of_lt (by omega)]
    exact h3
  · intro hx
    obtain ⟨e, h1, h2⟩ := counted_get (P := P) (f := f) hx
    obtain ⟨i, h3, h4⟩ := counted_mem h1
    refine ⟨_, e, h1, ?_⟩
    have hc : Covers e.id (⟨BitVec.ofNat _ x.toNat, P.W⟩ : MyId P).id :=
      (covers_iff_pre (a := e.id) (b := ⟨BitVec.ofNat _ x.toNat, P.W⟩) (Nat.le_refl _) (by rw [h4]; exact Nat.le_refl _)).2 (by rw [h2]; exact List.prefix_rfl)
    simpa using hc

/-- the least number with a property -/
theorem least {p : Nat → Prop} (h : ∃ n, p n) : ∃ n, p n ∧ ∀ m, p m → n ≤ m := by
  obtain ⟨n, hn⟩ := h
  induction n using Nat.strongRecOn with
  | _ n ih =>
    by_cases hm : ∃ m, m < n ∧ p m
    · obtain ⟨m, h1, h2⟩ := hm
      exact ih m h1 h2
    · exact ⟨n, hn, fun m hp => Nat.le_of_not_lt fun hlt => hm ⟨m, hlt, hp⟩⟩

omit [Labels L] in
/-- when exactly the ids below `n` are covered, the best fit is `n` -/
theorem bestFit_counted {P : Pkg} {length n : Nat} {M : Map P L} (hle : length ≤ P.W) (hn : n < 2 ^ length)
    (hc : ∀ x, Covered M x ↔ x.toNat < n) {x : BitVec P.W} (hb : BestFit length M x) : x.toNat = n := by
  obtain ⟨p, ⟨hp1, hp2⟩, hal, rfl, hbest⟩ := hb
  have hlt : 2 ^ length ≤ 2 ^ P.W := Nat.pow_le_pow_right (by decide) hle
  have hnW : (BitVec.ofNat P.W n).toNat = n := by rw [BitVec.toNat_ofNat, Nat.mod_eq_of_lt (by omega)]
  let y := BitVec.ofNat P.W n
  -- the largest free block that contains `n`
  have hex : ∃ j, FreeSpan length M (⟨y, j⟩ : MyId P) := ⟨P.W, Nat.le_refl _, fun z hz => by
    have := covers_full rfl hz
    rw [this, hc]
    show (BitVec.ofNat P.W n).toNat < _ ∧ ¬ (BitVec.ofNat P.W n).toNat < n
    omega⟩
  obtain ⟨j, hj, hmin⟩ := least hex
  have hmax : MaxFree length M (⟨y, j⟩ : MyId P) := by
    refine ⟨hj, fun p' hp' hs => ?_⟩
    have hy' : Covers p' y := hs y rfl
    have h1 : j ≤ p'.len := by
      refine hmin _ ⟨hp'.1, fun z hz => hp'.2 z ?_⟩
      exact (show z.toNat / _ = _ from hz).trans hy'
    have h2 : p'.len ≤ j := len_le_of_covers hp'.1 hj.1 hs
    exact Nat.le_antisymm h2 h1
  obtain ⟨b1, b2⟩ := hbest _ hmax
  have hpn : n ≤ p.id.toNat := by
    have := (hp1.2 _ (covers_self p)).2
    rw [hc] at this
    omega
  -- `n` is aligned
  have hdvd : 2 ^ (P.W - j) ∣ n := by
    rcases Nat.eq_or_lt_of_le (Nat.div_mul_le_self n (2 ^ (P.W - j))) with h | h
    · exact ⟨n / 2 ^ (P.W - j), by rw [Nat.mul_comm]; exact h.symm⟩
    · have hz := hj.2 (BitVec.ofNat P.W (n / 2 ^ (P.W - j) * 2 ^ (P.W - j))) (by
        show (BitVec.ofNat P.W _).toNat / _ = (BitVec.ofNat P.W n).toNat / _
        rw [hnW, BitVec.toNat_ofNat, Nat.mod_eq_of_lt (by omega), Nat.mul_div_cancel _ (Nat.two_pow_pos _)])
      rw [hc, BitVec.toNat_ofNat, Nat.mod_eq_of_lt (by omega)] at hz
      exact absurd h hz.2
  rcases Nat.eq_or_lt_of_le b1 with heq | hlt'
  · have := b2 heq
    rw [BitVec.le_def] at this
    have h1 : (BitVec.ofNat P.W n).toNat = n := hnW
    have h2 : p.id.toNat ≤ (BitVec.ofNat P.W n).toNat := this
    omega
  · -- the block around `p` of twice the size is free
    exfalso
    have hjl : j < p.len := hlt'
    have hpW := hp1.1
    let p' : MyId P := ⟨p.id, p.len - 1⟩
    have hfree : FreeSpan length M p' := by
      refine ⟨by show p.len - 1 ≤ P.W; omega, fun z hz => ?_⟩
      have hz : z.toNat / 2 ^ (P.W - (p.len - 1)) = p.id.toNat / 2 ^ (P.W - (p.len - 1)) := hz
      generalize hk : P.W - (p.len - 1) = k at hz
      have hkj : k ≤ P.W - j := by omega
      have hkd : 2 ^ k ∣ n := Nat.dvd_trans (Nat.pow_dvd_pow 2 hkj) hdvd
      obtain ⟨c, hcn⟩ := hkd
      have hpos := Nat.two_pow_pos k
      -- `k ≤ length`
      have hkl : k ≤ length := by
        rcases Nat.lt_or_ge length k with hl | hl
        · exfalso
          have h1 : 2 ^ length < 2 ^ (P.W - j) := Nat.pow_lt_pow_right (by decide) (by omega)
          have h2 : 2 ^ (P.W - j) ≤ 2 ^ P.W := Nat.pow_le_pow_right (by decide) (Nat.sub_le _ _)
          have hn0 : n = 0 := Nat.eq_zero_of_dvd_of_lt hdvd (by omega)
          have hz := (hj.2 (BitVec.ofNat P.W (2 ^ length)) (by
            show (BitVec.ofNat P.W _).toNat / _ = (BitVec.ofNat P.W n).toNat / _
            rw [hnW, BitVec.toNat_ofNat, Nat.mod_eq_of_lt (by omega), hn0, Nat.zero_div, Nat.div_eq_of_lt h1])).1
          rw [BitVec.toNat_ofNat, Nat.mod_eq_of_lt (by omega)] at hz
          omega
        · exact hl
      constructor
      · have hx := (hp1.2 _ (covers_self p)).1
        have hd : 2 ^ length = 2 ^ (length - k) * 2 ^ k := by rw [← Nat.pow_add]; congr 1; omega
        rw [hd] at hx ⊢
        have h1 : p.id.toNat / 2 ^ k < 2 ^ (length - k) := Nat.div_lt_of_lt_mul (by rw [Nat.mul_comm]; exact hx)
        rw [← hz] at h1
        exact (Nat.div_lt_iff_lt_mul hpos).1 h1
      · rw [hc]
        have h1 : c ≤ p.id.toNat / 2 ^ k := (Nat.le_div_iff_mul_le hpos).2 (by rw [Nat.mul_comm, ← hcn]; exact hpn)
        rw [← hz] at h1
        have := (Nat.le_div_iff_mul_le hpos).1 h1
        rw [Nat.mul_comm, ← hcn] at this
        omega
    have := hp2 p' hfree (fun z hz => by
      show z.toNat / 2 ^ (P.W - (p.len - 1)) = p.id.toNat / 2 ^ (P.W - (p.len - 1))
      exact Verif.Id.div_pow_mono (j := P.W - p.len) (by omega) hz)
    have : p.len - 1 = p.len := this
    omega

omit [Labels L] in
theorem counted_atMost {P : Pkg} (f : Nat → L) : ∀ n, Verif.Tree.AtMost n (counted (P := P) f n)
  | 0 => ⟨[], Nat.le_refl _, fun q h => absurd rfl h⟩
  | n + 1 => by
    obtain ⟨ks, h1, h2⟩ := counted_atMost (P := P) f n
    refine ⟨pre (⟨BitVec.ofNat _ n, P.W⟩ : MyId P) :: ks, by simpa using h1, fun q hq => ?_⟩
    unfold counted put at hq
    split at hq
    · next h => simp [h]
    · exact List.mem_cons_of_mem _ (h2 q hq)

omit [Labels L] in
theorem Steps.append {length : Nat} {g g₁ g₂ : GTree I L} {M M₁ M₂ : Map I.P L} {h₁ h₂} [Labels L]
    (s1 : Steps I length g M h₁ g₁ M₁) (s2 : Steps I length g₁ M₁ h₂ g₂ M₂) : Steps I length g M (h₁ ++ h₂) g₂ M₂ := by
  induction s1 with
  | nil => exact s2
  | cons a b c d _ ih => exact .cons a b c d (ih s2)

/-- **C83, partial** (tree16 of length 1 to 16, tree32 of length up to 16) In a new tree `n` calls of `ClaimFree`,
`n ≤ 2^length`, return 0 to `n - 1` in this order, and after `2^length` calls the next one fails. (A tree16 of length 0
returns 0 each time, `C57_covered_violated`.) -/
theorem C83_count_partial {length : Nat} (hI : I = tree16 ∧ 1 ≤ length ∧ length ≤ 16 ∨ I = tree32 ∧ length ≤ 16) (f : Nat → L) :
    ∃ g₀, new I L length = some g₀ ∧ ∀ n, n ≤ 2 ^ length →
      ∃ g, Steps I length g₀ Map.empty
          ((List.range n).map fun i => (.claimFree (f i), .got ⟨⟨BitVec.ofNat _ i, I.P.W⟩, f i⟩)) g (counted f n) ∧
        (n = 2 ^ length → ∀ l, g.exec (.claimFree l) = .ok (.err, g)) := by
  have hI' : I = tree16 ∨ I = tree32 := hI.imp And.left And.left
  have hI2 : I = tree16 ∨ I = tree32 ∧ length ≤ 16 := hI.imp And.left id
  have hl16 : length ≤ 16 := by
    rcases hI with h | h
    · exact h.2.2
    · exact h.2
  have hle : length ≤ I.P.W := by
    rcases hI' with rfl | rfl
    · exact hl16
    · exact Nat.le_trans hl16 (by decide)
  have hW : 2 ^ length ≤ 2 ^ I.P.W := Nat.pow_le_pow_right (by decide) hle
  have h16 : 2 ^ length ≤ 2 ^ 16 := Nat.pow_le_pow_right (by decide) hl16
  have hroot : I.rootLen length < I.P.W := by
    rcases hI with ⟨rfl, h1, h2⟩ | ⟨rfl, h2⟩
    · have : tree16.rootLen length = 16 - length := Verif.Tree.sub8_eq h2 (by decide)
      rw [this]
      show 16 - length < 16
      omega
    · show length < 32
      omega
  have hnew := reach_new (I := I) (L := L) hle
  obtain ⟨g₀, hg₀⟩ : ∃ g₀, new I L length = some g₀ := by
    unfold new
    rw [if_neg (by omega)]
    exact ⟨_, rfl⟩
  refine ⟨g₀, hg₀, ?_⟩
  have hroom : ∀ n, n ≤ 2 ^ length → Room (counted (P := I.P) f n) := by
    intro n hn
    refine room_few (fun _ => ?_)
    obtain ⟨ks, h1, h2⟩ := counted_atMost (P := I.P) f n
    refine ⟨ks, ?_, h2⟩
    have : (2 : Nat) ^ 16 ≤ 2 ^ 31 := by decide
    omega
  have hnone : ∀ n, NoneAbove (I.rootLen length) (counted (P := I.P) f n) := by
    intro n q e he _
    obtain ⟨i, _, h2⟩ := counted_mem he
    rw [h2]
    exact hroot
  have hfree : ∀ n, n ≤ 2 ^ length → ∀ g : GTree I L, Reach I length g (counted f n) → ∀ l, FreeOk length g (counted f n) l := by
    intro n hn g hg l
    rcases hI with ⟨rfl, h1, h2⟩ | ⟨rfl, h2⟩
    · refine C57_claimFree_partial (.inl rfl) hg ?_ l
      have := hnone n
      rw [show tree16.rootLen length = 16 - length from Verif.Tree.sub8_eq h2 (by decide)] at this
      exact this
    · refine C57_claimFree32_partial h2 hg (hnone n) ?_ l
      intro q e he
      obtain ⟨i, h3, h4⟩ := counted_mem he
      rw [h4]
      show (BitVec.ofNat _ i).toNat < _
      rw [BitVec.toNat_ofNat, Nat.mod_eq_of_lt (by omega)]
      omega
  intro n
  induction n with
  | zero =>
    intro hn
    refine ⟨g₀, .nil, fun h0 => ?_⟩
    have := Nat.two_pow_pos length
    omega
  | succ n ih =>
    intro hn
    obtain ⟨g, hs, _⟩ := ih (by omega)
    have hg : Reach I length g (counted f n) := (Reach.new hg₀).steps hs
    have hcov := fun x => counted_covered (P := I.P) (f := f) (n := n) (by omega) x
    rcases hfree n (by omega) g hg (f n) with ⟨x, x1, x2, x3⟩ | ⟨_, hall⟩
    · have hbest : x.toNat = n := by
        have hcase : Room (put (counted f n) ⟨x, I.P.W⟩ (f n)) := by
          refine room_few (fun hw => ?_)
          obtain ⟨ks, h1, h2⟩ := counted_atMost (P := I.P) f n
          refine ⟨pre (⟨x, I.P.W⟩ : MyId I.P) :: ks, ?_, fun q hq => ?_⟩
          · have : (2 : Nat) ^ 16 ≤ 2 ^ 31 := by decide
            simp only [List.length_cons]
            omega
          · unfold put at hq
            split at hq
            · next h => simp [h]
            · exact List.mem_cons_of_mem _ (h2 q hq)
        obtain ⟨g', e1, _⟩ := x3 hcase
        obtain ⟨x', e2, e3⟩ := C83_bestFit_partial hI2 hg (hnone n) (f n) _ e1
        have : x = x' := congrArg MyId.id (congrArg Entry.id e2)
        subst this
        exact bestFit_counted hle (by omega) hcov e3
      have hxn : x = BitVec.ofNat _ n := BitVec.eq_of_toNat_eq (by
        rw [hbest, BitVec.toNat_ofNat, Nat.mod_eq_of_lt (by omega)])
      subst hxn
      obtain ⟨g', e1, e2⟩ := x3 (hroom (n + 1) hn)
      refine ⟨g', ?_, fun hfull l => ?_⟩
      · rw [List.range_succ, List.map_append]
        exact hs.append (.cons trivial e1 (.inr ⟨_, x1, rfl, rfl⟩) (hroom (n + 1) hn) .nil)
      · rcases hfree (n + 1) hn g' e2 l with ⟨z, z1, z2, _⟩ | ⟨h1, _⟩
        · rw [counted_covered (by omega)] at z2
          omega
        · exact h1
    · have := hall (BitVec.ofNat _ n) (by rw [BitVec.toNat_ofNat, Nat.mod_eq_of_lt (by omega)]; omega)
      rw [hcov, BitVec.toNat_ofNat, Nat.mod_eq_of_lt (by omega)] at this
      omega

-- 4096 calls in a tree of length 12, as in test/main.go
example : ∃ g₀ g, new tree16 Bool 12 = some g₀ ∧ Steps tree16 12 g₀ Map.empty
    ((List.range 4096).map fun i => (.claimFree true, .got ⟨⟨BitVec.ofNat _ i, 16⟩, true⟩)) g (counted (fun _ => true) 4096) :=
  let ⟨g₀, h, hs⟩ := C83_count_partial (I := tree16) (length := 12) (.inl ⟨rfl, by decide, by decide⟩) fun _ => true
  let ⟨g, h1, _⟩ := hs 4096 (by decide)
  ⟨g₀, g, h, h1⟩

end Verif.GTree
