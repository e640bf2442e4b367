import Verif.GTree.Refine

/-! Prefixes and blocks, `ClaimRange`, `findFree`; the calls refine the abstract map. -/

set_option linter.unusedSectionVars false
namespace Verif.GTree
open Verif.Id
open Verif.Tree (Tree Out newTree pfx AtMost ListsMap Abs bitsOf)
variable {I : Impl} {L : Type} [Labels L]

/-! ### Prefixes and blocks -/

theorem Ok.pkg3 (h : Ok I) : I.P = id16 ∨ I.P = id32 ∨ I.P = id64 := h.imp id Or.inl

theorem pre_eq {P : Pkg} (i : MyId P) (h : i.len ≤ P.W) : pre i = bitsOf P.W i.id i.len := by
  unfold pre
  rw [Verif.Tree.pfx_id i h]; rfl

theorem pre_length {P : Pkg} (i : MyId P) : (pre i).length = i.len := by
  simp [pre, pfx]

theorem covers_iff_pre {P : Pkg} {a b : MyId P} (hb : b.len ≤ P.W) (h : a.len ≤ b.len) :
    Covers a b.id ↔ pre a <+: pre b := by
  rw [pre_eq a (Nat.le_trans h hb), pre_eq b hb]
  have e : bitsOf P.W a.id a.len = bitsOf P.W b.id a.len ↔ Covers a b.id :=
    (Verif.Tree.bitsOf_eq_iff _ _ (Nat.le_trans h hb)).trans eq_comm
  rw [← e]
  rw [List.prefix_iff_eq_take, Verif.Tree.length_bitsOf, Verif.Tree.take_bitsOf _ _ h]

theorem covers_trans {P : Pkg} {a b : MyId P} (h : a.len ≤ b.len) (hb : b.len ≤ P.W) {x : BitVec P.W}
    (hx : Covers b x) : Covers a x ↔ Covers a b.id := by
  have hm : x.toNat / 2 ^ (P.W - a.len) = b.id.toNat / 2 ^ (P.W - a.len) :=
    Verif.Id.div_pow_mono (j := P.W - b.len) (by omega) hx
  unfold Covers
  rw [hm]

/-- overlap: one of the prefixes is a prefix of the other -/
theorem overlaps_pfx {P : Pkg} (hP : P = id16 ∨ P = id32 ∨ P = id64) {a b : MyId P} (ha : a.len ≤ P.W) (hb : b.len ≤ P.W) :
    ∃ z, a.overlaps b = some z ∧ (z = true ↔ pre a <+: pre b ∨ pre b <+: pre a) := by
  obtain ⟨z, h1, h2, _⟩ := C27_overlaps hP a b ha hb
  refine ⟨z, h1, h2.trans ?_⟩
  constructor
  · rintro ⟨x, h3, h4⟩
    rcases Nat.le_total a.len b.len with h | h
    · exact .inl ((covers_iff_pre hb h).1 ((covers_trans h hb h4).1 h3))
    · exact .inr ((covers_iff_pre ha h).1 ((covers_trans h ha h3).1 h4))
  · rintro (h | h)
    · have hl := h.length_le
      rw [pre_length, pre_length] at hl
      exact ⟨b.id, (covers_iff_pre hb hl).2 h, rfl⟩
    · have hl := h.length_le
      rw [pre_length, pre_length] at hl
      exact ⟨a.id, rfl, (covers_iff_pre ha hl).2 h⟩

theorem overlaps_pre (hI : Ok I) {a b : MyId I.P} (ha : a.len ≤ I.P.W) (hb : b.len ≤ I.P.W) :
    ∃ z, a.overlaps b = some z ∧ (z = true ↔ pre a <+: pre b ∨ pre b <+: pre a) := overlaps_pfx hI.pkg3 ha hb

/-- `Children` and `Parents` filter the list of the entries -/
theorem overlapLoop_inv (hI : Ok I) {length : Nat} {g : GTree I L} {M : Map I.P L} (h : GInv length g M) {id : MyId I.P}
    (hid : id.len ≤ I.P.W) :
    ∃ l, Listing l M ∧ g.entries = .ok (l.map some) ∧ ∀ c : Nat → Bool,
      overlapLoop id c (l.map some) = .ok (l.filter (fun e => e.id.overlaps id == some true && c e.id.len)) := by
  obtain ⟨l, h1, h2, _⟩ := entries_spec h
  refine ⟨l, h1, h2, fun c => overlapLoop_spec id c l ?_⟩
  intro e he
  have hm := (h1.mem (fun q e he => (h.wf q e he).1)).1 he
  obtain ⟨z, hz, _⟩ := overlaps_pre hI (h.wf _ _ hm).2 hid
  exact ⟨z, hz⟩

/-! ### `ClaimRange` -/

theorem appendRangeIDs_total {P : Pkg} (hs : ∀ l, l ≤ P.W → ∃ m, P.mask6[l]? = some m)
    (hm : ∀ l, 1 ≤ l → l ≤ P.W → MaskAt P l) (fuel : Nat) :
    ∀ (dst : List (MyId P)) (a b : BitVec P.W), P.W < fuel + leadingZeros (a ^^^ b) →
      ∃ L, appendRangeIDs fuel dst a b = some (dst ++ L) ∧ ∀ i ∈ L, i.len ≤ P.W := by
  induction fuel with
  | zero =>
    intro dst a b h
    have := leadingZeros_le (a ^^^ b)
    omega
  | succ fuel ih =>
    intro dst a b h
    have hle := leadingZeros_le (a ^^^ b)
    unfold appendRangeIDs
    have hcmp : ∃ z, compareIDs a b = some (leadingZeros (a ^^^ b), z) ∧ (z = false → leadingZeros (a ^^^ b) < P.W) := by
      unfold compareIDs
      simp only
      split
      · exact ⟨true, rfl, by simp⟩
      · rename_i hne
        obtain ⟨m, hm⟩ := hs _ hle
        rw [hm]
        exact ⟨_, rfl, fun _ => by omega⟩
    obtain ⟨z, hz, hlt⟩ := hcmp
    rw [hz]
    cases z with
    | true =>
      refine ⟨[⟨a, leadingZeros (a ^^^ b)⟩], rfl, ?_⟩
      intro i hi
      rw [List.mem_singleton.1 hi]; exact hle
    | false =>
      have hlt := hlt rfl
      have hmask := hm (leadingZeros (a ^^^ b) + 1) (by omega) hlt
      unfold MaskAt at hmask
      simp only [bitsSetFrom, bitsClearedFrom, hmask, Option.map_some]
      generalize hc : leadingZeros (a ^^^ b) = c at *
      have h1 : c + 1 ≤ leadingZeros (a ^^^ (a ||| ~~~(hiMask P.W (P.W - (c + 1))))) := by
        rw [le_common hlt, toNat_or_not_hiMask (Nat.sub_le _ _)]
        have hp := Nat.two_pow_pos (P.W - (c + 1))
        rw [Nat.add_comm, Nat.add_mul_div_right _ _ hp, Nat.div_eq_of_lt (Nat.sub_lt hp Nat.one_pos)]
        exact (Nat.zero_add _).symm
      have h2 : c + 1 ≤ leadingZeros ((b &&& hiMask P.W (P.W - (c + 1))) ^^^ b) := by
        rw [le_common hlt, toNat_and_hiMask, Nat.mul_div_cancel _ (Nat.two_pow_pos _)]
      obtain ⟨L1, e1, f1⟩ := ih dst a _ (Nat.lt_of_lt_of_le (by omega) (Nat.add_le_add_left h1 fuel))
      obtain ⟨L2, e2, f2⟩ := ih (dst ++ L1) _ b (Nat.lt_of_lt_of_le (by omega) (Nat.add_le_add_left h2 fuel))
      refine ⟨L1 ++ L2, ?_, ?_⟩
      · rw [e1]
        simp only
        rw [e2, List.append_assoc]
      · intro i hi
        rcases List.mem_append.1 hi with hi | hi
        · exact f1 i hi
        · exact f2 i hi

/-- `IDs` of a range, also of an inverted one, does not panic -/
theorem ids_total {P : Pkg} (G : Good P) (r : Rng P) : ∃ ids, r.ids = some ids ∧ ∀ i ∈ ids, i.len ≤ P.W := by
  obtain ⟨ids, h1, h2⟩ := appendRangeIDs_total (fun l hl => ⟨_, G.mask l hl⟩) (fun l _ hl => G.mask l hl) (P.W + 1) [] r.lo.id r.hi.id (by omega)
  exact ⟨ids, by simpa [Rng.ids] using h1, h2⟩

/-! ### `findFree` -/

theorem removeAll_spec (hI : Ok I) : ∀ (es : List (Entry I.P L)) (b : Builder I.P), (∀ e ∈ es, e.id.len ≤ I.P.W) →
    ∃ os, removeAll es b = .ok { b with outs := b.outs ++ os } ∧
      (∀ r ∈ os, ∃ e ∈ es, rangeOfID e.id = some r) ∧ ∀ e ∈ es, ∃ r ∈ os, rangeOfID e.id = some r := by
  intro es
  induction es with
  | nil => intro b _; exact ⟨[], by simp [removeAll], by simp, by simp⟩
  | cons e es ih =>
    intro b h
    have hp := prefOk_good (good_of hI) (h e (by simp))
    obtain ⟨r, hr, _⟩ := rangeOfID_spec hp
    have hv := rangeOfID_valid hp hr
    have h1 : b.removeId e.id = .ok { b with outs := b.outs ++ [r] } := by
      unfold Builder.removeId
      rw [hr]
      simp only [isValid_iff.2 hv, if_true]
      unfold Builder.removeRange
      simp [isValid_iff.2 hv]
    obtain ⟨os, e1, e2, e3⟩ := ih { b with outs := b.outs ++ [r] } (fun e' h' => h e' (by simp [h']))
    refine ⟨r :: os, ?_, ?_, ?_⟩
    · show (ofRes (b.removeId e.id) >>= fun b => removeAll es b) = _
      rw [h1]
      show removeAll es _ = _
      rw [e1]
      simp
    · intro q hq
      rcases List.mem_cons.1 hq with rfl | hq
      · exact ⟨e, by simp, hr⟩
      · obtain ⟨e', h1, h2⟩ := e2 q hq
        exact ⟨e', by simp [h1], h2⟩
    · intro e' he
      rcases List.mem_cons.1 he with rfl | he
      · exact ⟨r, by simp, hr⟩
      · obtain ⟨q, h1, h2⟩ := e3 e' he
        exact ⟨q, by simp [h1], h2⟩

/-- the entries that `findFree` takes into account -/
def Seen {P : Pkg} (M : Map P L) (rl : Nat) (x : BitVec P.W) : Prop :=
  ∃ q e, M q = some e ∧ rl < e.id.len ∧ Covers e.id x

theorem findFree_spec (hI : Ok I) {length : Nat} {g : GTree I L} {M : Map I.P L} (h : GInv length g M)
    (hrl : I.rootLen length ≤ I.P.W) :
    (g.findFree = .ok .err ∧ ∀ x, Covers ⟨0, I.rootLen length⟩ x → Seen M (I.rootLen length) x) ∨
    (∃ x, g.findFree = .ok (if x.toNat < 2 ^ length then .ok x else .err) ∧
      Covers ⟨0, I.rootLen length⟩ x ∧ ¬ Seen M (I.rootLen length) x ∧
      ∃ K q, Lists K (fun y => Covers ⟨0, I.rootLen length⟩ y ∧ ¬ Seen M (I.rootLen length) y) ∧
        (∀ p : MyId I.P, p.len ≤ I.P.W →
          (∀ y, Covers p y → Covers ⟨0, I.rootLen length⟩ y ∧ ¬ Seen M (I.rootLen length) y) →
          ∃ p' ∈ K, ∀ y, Covers p y → Covers p' y) ∧
        Tightest I.P.W K q ∧ q.id = x) := by
  have G := good_of hI
  let root : MyId I.P := ⟨0, I.rootLen length⟩
  have hroot : PrefOk root := prefOk_good G hrl
  obtain ⟨R, hR, hR1, hR2, hR3, hR4⟩ := rangeOfID_spec hroot
  have hRv := rangeOfID_valid hroot hR
  obtain ⟨l, h1, h2, h3⟩ := overlapLoop_inv hI h (id := root) hrl
  let ch := l.filter (fun e => e.id.overlaps root == some true && decide (e.id.len > root.len))
  have hch : g.children root = .ok ch := by
    unfold GTree.children
    rw [h2]
    exact h3 _
  have hw : ∀ q e, M q = some e → q = pre e.id := fun q e he => (h.wf q e he).1
  have hchlen : ∀ e ∈ ch, e.id.len ≤ I.P.W := by
    intro e he
    exact (h.wf _ _ ((h1.mem hw).1 (List.mem_filter.1 he).1)).2
  have hadd : (Builder.empty : Builder I.P).addId root = .ok ⟨[R], [], false⟩ := by
    unfold Builder.addId
    rw [hR]
    simp only [isValid_iff.2 hRv, if_true]
    unfold Builder.addRange
    simp [isValid_iff.2 hRv, Builder.empty]
  obtain ⟨os, r1, r2, r3⟩ := removeAll_spec hI ch ⟨[R], [], false⟩ hchlen
  let b : Builder I.P := ⟨[R], os, false⟩
  have r1' : removeAll ch ⟨[R], [], false⟩ = .ok b := by rw [r1]; rfl
  have hov : ∀ r ∈ os, r.Valid := by
    intro r hr
    obtain ⟨e, he, hre⟩ := r2 r hr
    exact rangeOfID_valid (prefOk_good G (hchlen e he)) hre
  have hinv : Verif.Id.Inv b := ⟨by
      intro r hr
      have : r = R := List.mem_singleton.1 hr
      rw [this]; exact hRv, hov, fun r _ => subOk_good G _⟩
  obtain ⟨m, m1, m2, m3⟩ := ipSet_spec (arith_of hI.pkg3) hinv
  have hclean : Clean b := by
    refine ⟨?_, ?_⟩
    · intro x hx y hy hw
      have hx : x = R := List.mem_singleton.1 hx
      have hy : y = R := List.mem_singleton.1 hy
      subst hx
      rw [hy] at hw
      exact hw.2.2.2.2 hw.2.2.1
    · intro x hx y hy hw
      obtain ⟨e, he, hre⟩ := r2 x hx
      obtain ⟨x', k0, k1, k2, k3, k4⟩ := rangeOfID_spec (prefOk_good G (hchlen e he))
      rw [hre] at k0
      cases k0
      have hlen : root.len < e.id.len := by
        have := (List.mem_filter.1 he).2
        simp only [Bool.and_eq_true, decide_eq_true_eq] at this
        exact this.2
      have e1 : x.hi.id.toNat = 2 ^ I.P.W - 1 := by
        rw [hw.2.2.1]; simp [maxV_toNat]
      have hsz : 2 * 2 ^ (I.P.W - e.id.len) ≤ 2 ^ I.P.W := by
        have : 2 * 2 ^ (I.P.W - e.id.len) = 2 ^ (I.P.W - e.id.len + 1) := by rw [Nat.pow_succ]; omega
        rw [this]
        exact Nat.pow_le_pow_right (by decide) (by have := hchlen e he; omega)
      have e2 := hw.2.1
      have hp := Nat.two_pow_pos (I.P.W - e.id.len)
      have h4 : 4 ≤ 2 ^ I.P.W := Nat.le_trans (Nat.le_refl (2 ^ 2)) (Nat.pow_le_pow_right (by decide) hI.pos)
      rw [k3] at e2
      rw [k4] at e1
      omega
  have hmem := m3 hclean
  -- what the set contains
  have hset : ∀ x, ValueIn m x ↔ Covers root x ∧ ¬ Seen M (I.rootLen length) x := by
    intro x
    show HasAny m ⟨x, I.P.W⟩ ↔ _
    rw [hmem]
    show HasAny [R] _ ∧ ¬ HasAny os _ ↔ _
    rw [hasAny_singleton, rangeOfID_has hroot hR]
    have hb : Block root ⟨x, I.P.W⟩ ↔ Covers root x := by simp [Block]
    rw [hb]
    apply and_congr_right
    intro hx
    apply not_congr
    constructor
    · rintro ⟨r, hr, hh⟩
      obtain ⟨e, he, hre⟩ := r2 r hr
      have hh := ((rangeOfID_has (prefOk_good G (hchlen e he)) hre) _).1 hh
      obtain ⟨f1, f2⟩ := List.mem_filter.1 he
      simp only [Bool.and_eq_true, decide_eq_true_eq] at f2
      exact ⟨_, e, (h1.mem hw).1 f1, f2.2, hh.2⟩
    · rintro ⟨q, e, he, hl, hc⟩
      have hq := hw q e he
      subst hq
      have hle := (h.wf _ _ he).2
      have hin : e ∈ ch := by
        refine List.mem_filter.2 ⟨(h1.mem hw).2 he, ?_⟩
        obtain ⟨z, z1, z2⟩ := overlaps_pre hI hle (b := root) hrl
        have hz : z = true := z2.2 (.inr ((covers_iff_pre hle (Nat.le_of_lt hl)).1
          ((covers_trans (Nat.le_of_lt hl) hle hc).1 hx)))
        rw [z1, hz]
        have : e.id.len > root.len := hl
        simp [this]
      obtain ⟨r, hr, hre⟩ := r3 e hin
      exact ⟨r, hr, ((rangeOfID_has (prefOk_good G hle) hre) _).2 ⟨rfl, hc⟩⟩
  have hfull : FullLength m := by
    intro r hr
    have hv := m2.1 r hr
    have : HasAny m r.lo := ⟨r, hr, rfl, BitVec.le_refl _, hv.2⟩
    rw [hmem] at this
    have h5 : HasAny [R] r.lo := this.1
    rw [hasAny_singleton] at h5
    exact h5.1.trans hR1
  have hff : g.findFree = (ofRes ((⟨m⟩ : IDSet I.P).removeFreePrefix I.P.W) >>= fun r => match r with
      | none => (pure .err : Out (Ret (BitVec I.P.W)))
      | some (a, _) => pure (if g.valid a then .ok a.id else .err)) := by
    unfold GTree.findFree
    rw [h.len]
    show (ofRes ((Builder.empty : Builder I.P).addId root) >>= _) = _
    rw [hadd]
    show (g.children root >>= _) = _
    rw [hch]
    show (removeAll ch _ >>= _) = _
    rw [r1']
    show (ofRes b.ipSet >>= _) = _
    rw [m1]
    rfl
  rcases C40_removeFreePrefix hI ⟨m⟩ I.P.W (Nat.le_refl _) m2 hfull with ⟨k1, k2⟩ | ⟨p, s', K, q, k1, k2, _, _, k5, k6, k7⟩
  · left
    refine ⟨?_, ?_⟩
    · rw [hff, k1]; rfl
    · intro x hx
      refine Classical.byContradiction fun hn => k2 ⟨x, I.P.W⟩ ⟨rfl, ⟨Nat.le_refl _, by simp⟩, ?_⟩
      intro y hy
      have : y = x := by
        unfold Covers at hy
        simp only [Nat.sub_self, Nat.pow_zero, Nat.div_one] at hy
        exact BitVec.eq_of_toNat_eq hy
      rw [this]
      exact (hset x).2 ⟨hx, hn⟩
  · right
    have hv := (hset p.id).1 (k2.2.2 p.id rfl)
    obtain ⟨K', j1, j2, j3⟩ := idsAll_spec m2 hfull (idsOk_good G m2)
    have hK : K' = K := Option.some.inj (j1.symm.trans k5)
    rw [hK] at j2 j3
    have hset' : ValueIn m = fun y => Covers root y ∧ ¬ Seen M (I.rootLen length) y :=
      funext fun y => propext (hset y)
    rw [hset'] at j2 j3
    refine ⟨p.id, ?_, hv.1, hv.2, K, q, j2, j3, k6, k7⟩
    rw [hff, k1]
    show Out.ok (if g.valid p then _ else _) = _
    have hvi := valid_iff h hI.pos p
    by_cases hlt : p.id.toNat < 2 ^ length
    · rw [if_pos (hvi.2 hlt), if_pos hlt]
    · rw [if_neg (fun hc => hlt (hvi.1 hc)), if_neg hlt]

/-! ### All calls -/

/-- the length of the root prefix is at most the width -/
def RootOk (I : Impl) : Prop := ∀ l, l ≤ I.P.W → I.rootLen l ≤ I.P.W

theorem rootOk16 : RootOk tree16 := by
  intro l h
  have h : l ≤ 16 := h
  show Verif.Tree.sub8 16 l ≤ 16
  rw [Verif.Tree.sub8_eq h (by decide)]
  omega

theorem rootOk32 : RootOk tree32 := fun l h => h

/-- the map after a call is determined by the result -/
theorem effect_unique {P : Pkg} {length : Nat} {M M1 M2 : Map P L} {o : Op P L} {r : Result P L}
    (h1 : Effect length M o r M1) (h2 : Effect length M o r M2) : M1 = M2 := by
  cases o with
  | claim id l =>
    by_cases h : id.id.toNat < 2 ^ length
    · simp only [Effect, h, if_true] at h1 h2
      rw [h1.2, h2.2]
    · simp only [Effect, h, if_false] at h1 h2
      rw [h1.2, h2.2]
  | update id l =>
    by_cases h : id.id.toNat < 2 ^ length
    · simp only [Effect, h, if_true] at h1 h2
      rw [h1.2, h2.2]
    · simp only [Effect, h, if_false] at h1 h2
      rw [h1.2, h2.2]
  | claimFree l =>
    rcases h1 with ⟨a, b⟩ | ⟨x, _, a, b⟩
    · rcases h2 with ⟨c, d⟩ | ⟨y, _, c, d⟩
      · rw [b, d]
      · rw [a] at c; cases c
    · rcases h2 with ⟨c, d⟩ | ⟨y, _, c, d⟩
      · rw [a] at c; cases c
      · rw [a] at c
        have : x = y := by
          have := Result.got.inj c
          exact congrArg (fun e => e.id.id) this
        rw [b, d, this]
  | claimRange s l =>
    rcases h1 with ⟨_, a, b⟩ | ⟨x, ids, e1, e2, a, b⟩
    · rcases h2 with ⟨_, c, d⟩ | ⟨y, ids, _, _, c, d⟩
      · rw [b, d]
      · rw [a] at c; cases c
    · rcases h2 with ⟨_, c, d⟩ | ⟨y, ids', f1, f2, c, d⟩
      · rw [a] at c; cases c
      · rw [e1] at f1; cases f1
        rw [e2] at f2; cases f2
        rw [b, d]
  | release id =>
    by_cases h : id.id.toNat < 2 ^ length
    · simp only [Effect, h, if_true] at h1 h2
      funext q; rw [h1.2, h2.2]
    · simp only [Effect, h, if_false] at h1 h2
      rw [h1.2, h2.2]
  | releaseByLabel sel => funext q; rw [h1.2, h2.2]

theorem bind_const {α : Type} {x : Out (GTree I L)} {a r : α} {g : GTree I L}
    (h : (x >>= fun g => (pure (a, g) : Out (α × GTree I L))) = .ok (r, g)) : r = a := by
  cases x with
  | ok g0 =>
    have := Out.ok.inj h
    exact (congrArg Prod.fst this).symm
  | panic m => cases h
  | realloc => cases h
  | diverge => cases h

theorem done_claim {length : Nat} {g : GTree I L} {M : Map I.P L} (h : GInv length g M) (hI : Ok I) {id : MyId I.P} {l : L}
    (hlt : id.id.toNat < 2 ^ length) (r' : Result I.P L) (g' : GTree I L)
    (he : g.exec (.claim id l) = .ok (r', g')) : r' = .done := by
  have hv := (valid_iff h hI.pos id).2 hlt
  have : g.exec (.claim id l) = (g.set id ⟨id, l⟩ >>= fun g => (pure (.done, g) : Out (Result I.P L × GTree I L))) := by
    show (g.claimID id l >>= _) = _
    unfold GTree.claimID
    rw [hv]
    show ((g.set id ⟨id, l⟩ >>= _) >>= _) = _
    cases g.set id ⟨id, l⟩ <;> rfl
  rw [this] at he
  exact bind_const he

/-- every call refines the abstract effect, if there is room -/
theorem exec_spec (hI : Ok I) (hR : RootOk I) {length : Nat} {g : GTree I L} {M : Map I.P L} (h : GInv length g M)
    {o : Op I.P L} (ho : o.Fits) :
    ∃ r M', Effect length M o r M' ∧ (Room M' → ∃ g', g.exec o = .ok (r, g') ∧ GInv length g' M') ∧
      ∀ r' g', g.exec o = .ok (r', g') → r' = r := by
  have same : ∀ {r g1}, g.exec o = .ok (r, g1) → ∀ r' g', g.exec o = .ok (r', g') → r' = r := by
    intro r g1 h1 r' g' h2
    rw [h1] at h2
    cases h2; rfl
  cases o with
  | claim id l =>
    obtain ⟨c1, c2⟩ := claim_spec hI h (id := id) ho l
    by_cases hlt : id.id.toNat < 2 ^ length
    · refine ⟨.done, put M id l, by simp [Effect, hlt], fun hr => ?_, ?_⟩
      · obtain ⟨g', e1, e2⟩ := c1 hlt hr
        refine ⟨g', ?_, e2⟩
        show (g.claimID id l >>= _) = _
        rw [e1]; rfl
      · exact done_claim h hI hlt
    · have : g.exec (.claim id l) = .ok (.err, g) := by
        show (g.claimID id l >>= _) = _
        rw [c2 hlt]; rfl
      exact ⟨.err, M, by simp [Effect, hlt], fun _ => ⟨g, this, h⟩, same this⟩
  | update id l =>
    obtain ⟨c1, c2⟩ := claim_spec hI h (id := id) ho l
    by_cases hlt : id.id.toNat < 2 ^ length
    · refine ⟨.done, put M id l, by simp [Effect, hlt], fun hr => ?_, ?_⟩
      · obtain ⟨g', e1, e2⟩ := c1 hlt hr
        refine ⟨g', ?_, e2⟩
        show (g.claimID id l >>= _) = _
        rw [e1]; rfl
      · exact done_claim h hI hlt
    · have : g.exec (.update id l) = .ok (.err, g) := by
        show (g.claimID id l >>= _) = _
        rw [c2 hlt]; rfl
      exact ⟨.err, M, by simp [Effect, hlt], fun _ => ⟨g, this, h⟩, same this⟩
  | claimFree l =>
    have herr : g.findFree = .ok .err → g.exec (.claimFree l) = .ok (.err, g) := by
      intro he
      show ((g.findFree >>= _) >>= _) = _
      rw [he]; rfl
    rcases findFree_spec hI h (hR length h.le) with ⟨f1, _⟩ | ⟨x, f1, _⟩
    · exact ⟨.err, M, .inl ⟨rfl, rfl⟩, fun _ => ⟨g, herr f1, h⟩, same (herr f1)⟩
    · by_cases hlt : x.toNat < 2 ^ length
      · rw [if_pos hlt] at f1
        have he : g.exec (.claimFree l) = (g.set ⟨x, I.P.W⟩ ⟨⟨x, I.P.W⟩, l⟩ >>= fun g =>
            (pure (.got ⟨⟨x, I.P.W⟩, l⟩, g) : Out (Result I.P L × GTree I L))) := by
          show ((g.findFree >>= _) >>= _) = _
          rw [f1]
          show ((g.set ⟨x, I.P.W⟩ ⟨⟨x, I.P.W⟩, l⟩ >>= _) >>= _) = _
          cases g.set ⟨x, I.P.W⟩ ⟨⟨x, I.P.W⟩, l⟩ <;> rfl
        refine ⟨.got ⟨⟨x, I.P.W⟩, l⟩, put M ⟨x, I.P.W⟩ l, .inr ⟨x, hlt, rfl, rfl⟩, fun hr => ?_, ?_⟩
        · obtain ⟨g', e1, e2⟩ := set_inv hI h (id := ⟨x, I.P.W⟩) (Nat.le_refl _) l hr
          refine ⟨g', ?_, e2⟩
          rw [he, e1]; rfl
        · intro r' g' h'
          rw [he] at h'
          exact bind_const h'
      · rw [if_neg hlt] at f1
        exact ⟨.err, M, .inl ⟨rfl, rfl⟩, fun _ => ⟨g, herr f1, h⟩, same (herr f1)⟩
  | claimRange s l =>
    cases hp : (parseRange s : Option (Rng I.P)) with
    | none =>
      have : g.exec (.claimRange s l) = .ok (.err, g) := by
        show (g.claimRange s l >>= _) = _
        unfold GTree.claimRange
        rw [hp]; rfl
      exact ⟨.err, M, .inl ⟨(by rintro ⟨x, hx⟩; rw [hp] at hx; cases hx), rfl, rfl⟩, fun _ => ⟨g, this, h⟩, same this⟩
    | some x =>
      obtain ⟨ids, i1, i2⟩ := ids_total (good_of hI) x
      have he : g.exec (.claimRange s l) = (g.setAll l ids >>= fun g =>
          (pure (.done, g) : Out (Result I.P L × GTree I L))) := by
        show (g.claimRange s l >>= _) = _
        unfold GTree.claimRange
        rw [hp]
        simp only [i1]
        show ((g.setAll l ids >>= _) >>= _) = _
        cases g.setAll l ids <;> rfl
      refine ⟨.done, puts M l ids, .inr ⟨x, ids, hp, i1, rfl, rfl⟩, fun hr => ?_, ?_⟩
      · obtain ⟨g', e1, e2⟩ := setAll_spec hI l h i2 hr
        refine ⟨g', ?_, e2⟩
        rw [he, e1]; rfl
      · intro r' g' h'
        rw [he] at h'
        exact bind_const h'
  | release id =>
    obtain ⟨c1, c2⟩ := releaseID_spec hI h (id := id) ho
    by_cases hlt : id.id.toNat < 2 ^ length
    · obtain ⟨g', M', e1, e2, e3⟩ := c1 hlt
      have : g.exec (.release id) = .ok (.done, g') := by
        show (g.releaseID id >>= _) = _
        rw [e1]; rfl
      exact ⟨.done, M', by simp only [Effect, hlt, if_true, true_and]; exact e3, fun _ => ⟨g', this, e2⟩, same this⟩
    · have : g.exec (.release id) = .ok (.err, g) := by
        show (g.releaseID id >>= _) = _
        rw [c2 hlt]; rfl
      exact ⟨.err, M, by simp [Effect, hlt], fun _ => ⟨g, this, h⟩, same this⟩
  | releaseByLabel sel =>
    obtain ⟨g', e1, e2⟩ := releaseByLabel_spec hI h sel
    have : g.exec (.releaseByLabel sel) = .ok (.done, g') := by
      show (g.releaseByLabel sel >>= _) = _
      rw [e1]; rfl
    exact ⟨.done, _, ⟨rfl, fun _ => rfl⟩, fun _ => ⟨g', this, e2⟩, same this⟩

theorem new_inv (hI : Ok I) {length : Nat} {g : GTree I L} (h : new I L length = some g) :
    GInv length g (Map.empty) := by
  unfold new at h
  split at h
  · cases h
  · rename_i hle
    cases h
    refine ⟨⟨_, Verif.Tree.Inv.new _, Verif.Tree.abs_new _, ?_⟩, rfl, rfl, by omega, ?_, ?_, .new⟩
    · have : (newTree I.P : Tree (Option (Entry I.P L))).nodes.length = 2 := rfl
      show (newTree I.P : Tree (Option (Entry I.P L))).nodes.length ≤ _
      rw [this]
      have := hI.width
      exact Nat.succ_le_succ (Nat.two_pow_pos _)
    · intro q e he; cases he
    · exact room_few (fun _ => ⟨[], by simp, fun q hq => absurd rfl hq⟩)

/-- a reached tree represents its map -/
theorem Reach.inv (hI : Ok I) (hR : RootOk I) {length : Nat} {g : GTree I L} {M : Map I.P L} (h : Reach I length g M) :
    GInv length g M := by
  induction h with
  | new hn => exact new_inv hI hn
  | step _ ho he hM hr ih =>
    obtain ⟨r1, M1, e1, e2, e3⟩ := exec_spec hI hR ih ho
    have := e3 _ _ he
    subst this
    have := effect_unique e1 hM
    subst this
    obtain ⟨g1, f1, f2⟩ := e2 hr
    rw [he] at f1
    cases f1
    exact f2

end Verif.GTree
