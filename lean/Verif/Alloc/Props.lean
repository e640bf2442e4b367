import Verif.Alloc.Spec
import Verif.IdxTable.Props
import Verif.Ranged.Props
import Verif.IPTable.Props
import Verif.GTree.ExactProps
import Verif.GTree.RoomProps

/-! Property C114: a client that allocates until it fails gets every free id once. -/

namespace Verif.Alloc
variable {S D K A : Type}

/-- an allocator that always returns the lowest free id -/
theorem handsOut_of_lowest {f : S → D → S × A} {ok : K → D → A → Prop} {bad : A → Prop} {lt : K → K → Prop}
    (hlt : ∀ i j, lt i j → ¬ lt j i) (good : S → Prop) (free : S → K → Prop)
    (hstep : ∀ s d, good s → good (f s d).1 ∧
      ((∃ i, free s i ∧ (∀ j, free s j → ¬ lt j i) ∧ ok i d (f s d).2 ∧ ∀ j, free (f s d).1 j ↔ free s j ∧ j ≠ i) ∨
       ((∀ j, ¬ free s j) ∧ bad (f s d).2 ∧ ∀ j, ¬ free (f s d).1 j))) :
    ∀ (ds : List D) (s : S) (ks : List K), good s → ks.Pairwise lt → (∀ i, i ∈ ks ↔ free s i) →
      HandsOut ok bad ks ds (allocs f s ds) := by
  intro ds
  induction ds with
  | nil => intro s ks _ _ _; cases ks <;> rfl
  | cons d ds ih =>
    intro s ks hg hp hm
    obtain ⟨hg', h | h⟩ := hstep s d hg
    · obtain ⟨i, h1, h2, h3, h4⟩ := h
      cases ks with
      | nil => exact absurd ((hm i).2 h1) (by simp)
      | cons k ks =>
        rw [List.pairwise_cons] at hp
        have hki : k = i := by
          have := (hm i).2 h1
          rw [List.mem_cons] at this
          rcases this with h | h
          · exact h.symm
          · exact absurd (hp.1 i h) (h2 k ((hm k).1 List.mem_cons_self))
        subst hki
        refine ⟨h3, ih _ ks hg' hp.2 fun j => ?_⟩
        rw [h4, ← hm, List.mem_cons]
        constructor
        · intro hj
          refine ⟨.inr hj, ?_⟩
          rintro rfl
          exact hlt _ _ (hp.1 _ hj) (hp.1 _ hj)
        · rintro ⟨h | h, hn⟩
          · exact absurd h hn
          · exact h
    · obtain ⟨h1, h2, h3⟩ := h
      cases ks with
      | cons k ks => exact absurd ((hm k).1 List.mem_cons_self) (h1 k)
      | nil => exact ⟨h2, ih _ [] hg' .nil fun j => by simp [h3 j]⟩

/-- every set of numbers of `w` bits has an ascending list -/
theorem exists_list {w : Nat} (p : BitVec w → Prop) : ∃ ks : List (BitVec w), ks.Pairwise (· < ·) ∧ ∀ i, i ∈ ks ↔ p i := by
  haveI := Classical.decPred p
  refine ⟨((List.range (2 ^ w)).map (BitVec.ofNat w)).filter fun i => decide (p i), ?_, ?_⟩
  · refine List.Pairwise.filter _ ?_
    rw [List.pairwise_map]
    refine (List.pairwise_lt_range (n := 2 ^ w)).imp_of_mem ?_
    intro a b ha hb hab
    rw [List.mem_range] at ha hb
    rw [BitVec.lt_def, BitVec.toNat_ofNat, BitVec.toNat_ofNat, Nat.mod_eq_of_lt ha, Nat.mod_eq_of_lt hb]
    exact hab
  · intro i
    simp only [List.mem_filter, List.mem_map, List.mem_range, decide_eq_true_eq, and_iff_right_iff_imp]
    exact fun _ => ⟨i.toNat, i.isLt, by simp⟩

section
open Verif.IdxTable

/-- C114, index table: repeated `ClaimDynamic` hands out the free ids, in ascending order, and then fails. -/
theorem C114_idx {α : Type} {size : U64} {t : Table α} (h : Reachable size t) :
    ∃ ks : List U64, ks.Pairwise (· < ·) ∧ (∀ i, i ∈ ks ↔ i < size ∧ has t i = false) ∧
      ∀ ds : List α, HandsOut (fun i d r => r = .ok ⟨i, d⟩) (fun r => ∃ e, r = .error e) ks ds (allocs claimDynamic t ds) := by
  obtain ⟨ks, h1, h2⟩ := exists_list fun i : U64 => i < size ∧ has t i = false
  refine ⟨ks, h1, h2, fun ds => ?_⟩
  refine handsOut_of_lowest (lt := (· < ·)) (fun i j h => by rw [BitVec.lt_def] at *; omega) (Reachable size)
    (fun t i => i < size ∧ has t i = false) ?_ ds t ks h h1 h2
  intro t d ht
  have hs : Reachable size (claimDynamic t d).1 := ht.step (.claimDynamic d)
  refine ⟨hs, ?_⟩
  rcases C05_claimDynamic_smallest ht d with ⟨i, a1, a2, a3, a4, _, a6, a7⟩ | ⟨a1, a2, a3⟩
  · refine .inl ⟨i, ⟨a1, a2⟩, ?_, a4, ?_⟩
    · rintro j ⟨_, hj⟩ hlt
      rw [a3 j hlt] at hj
      cases hj
    · intro j
      by_cases hji : j = i
      · subst hji; simp [a6]
      · simp [hji, (a7 j hji).2]
  · refine .inr ⟨fun j hj => ?_, a2, fun j hj => ?_⟩
    · rw [a1 j hj.1] at hj; exact absurd hj.2 (by simp)
    · rw [a3, a1 j hj.1] at hj; exact absurd hj.2 (by simp)

-- a table of 8 ids of which 1 and 5 are claimed: six calls succeed
example : ∃ ks : List U64, ks.length = 6 ∧ ks.Pairwise (· < ·) ∧ ∀ i, i ∈ ks ↔ i < 8 ∧ has exTable i = false :=
  ⟨[0, 2, 3, 4, 6, 7], rfl, by decide, by
    intro i
    constructor
    · simp only [List.mem_cons, List.not_mem_nil, or_false]
      rintro (rfl | rfl | rfl | rfl | rfl | rfl) <;> decide
    · rintro ⟨h1, h2⟩
      have : i ∈ freeKeys exTable := (mem_freeKeys _ _).2 ⟨h1, (has_eq_false _ _).1 h2⟩
      exact this⟩
end

section
open Verif.Ranged
open Verif.IdxTable (U64)

/-- C114, ranged tables (every range but the full one): repeated `ClaimFree` hands out the free ids, in ascending order, and
then fails. -/
theorem C114_ranged {P : Width} {L : Type} {start stop : BitVec P.W} {r : RTable P L} (h : Reach start stop r)
    (hp : Proper start stop) :
    ∃ ks : List U64, ks.Pairwise (· < ·) ∧ (∀ i, i ∈ ks ↔ isFree r i = true) ∧
      ∀ ls : List L, HandsOut (fun i l r => r = .ok ⟨i, P.W, l⟩) (fun r => ∃ e, r = .error e) ks ls (allocs claimFree r ls) := by
  obtain ⟨ks, h1, h2⟩ := exists_list fun i : U64 => isFree r i = true
  refine ⟨ks, h1, h2, fun ls => ?_⟩
  refine handsOut_of_lowest (lt := (· < ·)) (fun i j h => by rw [BitVec.lt_def] at *; omega) (Reach start stop)
    (fun r i => isFree r i = true) ?_ ls r ks h h1 h2
  intro r l hr
  have hs : Reach start stop (claimFree r l).1 := by
    obtain ⟨hP, cs, rfl⟩ := hr
    refine ⟨hP, cs ++ [.claimFree l], ?_⟩
    have : ∀ (cs : List (RCall L)) (r : RTable P L), (run r (cs ++ [.claimFree l])).1 = (claimFree (run r cs).1 l).1 := by
      intro cs
      induction cs with
      | nil => intro r; rfl
      | cons c cs ih => intro r; simp only [List.cons_append, run, ih]
    exact (this cs _).symm
  refine ⟨hs, ?_⟩
  rcases C16_findFree_lowest hr hp l with ⟨i, _, _, _, a4, a5, a6, a7, a8⟩ | ⟨_, a2, a3, a4⟩
  · refine .inl ⟨i, a4, ?_, a6, ?_⟩
    · intro j hj hlt
      have := a5 j hj
      rw [BitVec.le_def] at this
      rw [BitVec.lt_def] at hlt
      omega
    · intro j
      by_cases hji : j = i
      · subst hji; simp [a7]
      · obtain ⟨g1, i1, f1, s1, e1⟩ := hr.inv hp
        obtain ⟨g2, i2, f2, s2, e2⟩ := hs.inv hp
        rw [isFree_spec g2, isFree_spec g1, AvailR, AvailR, s1, s2, e1, e2, ← obs_eq g2 i2, ← obs_eq g1 i1, a8]
        simp [LMap.put, hji]
  · refine .inr ⟨fun j hj => ?_, a3, fun j hj => ?_⟩
    · rw [a2 j] at hj; cases hj
    · rw [a4, a2 j] at hj; cases hj

example : Reach (P := w16) 10 20 exR ∧ Proper (P := w16) 10 20 ∧ isFree exR 10 = true := ⟨exR_reach, exR_proper, by decide⟩
end

section
open Verif.IPTable
variable {R : Type} {parse : String → Option Addr} {lo hi : Addr}

/-- a client that claims the address that `FindFree` returns, as a text -/
def takeIP (parse : String → Option Addr) (text : Addr → String) (r : IPTab R) (d : R) : IPTab R × Option Addr :=
  match findFree r with
  | .addr a =>
    match claim parse r (text a) d with
    | (r', .ok ()) => (r', some a)
    | (r', .error _) => (r', none)
  | _ => (r, none)

/-- C114, IP table (fewer than `2^64` addresses, every text format that the parser reads back): repeated `FindFree` and
`Claim` hands out the free addresses, in ascending order, and then fails. -/
theorem C114_ip (hs : SmallRange lo hi) {text : Addr → String} (ht : ∀ a, InIP lo hi a → parse (text a) = some a)
    (cs : List (ICall R)) :
    ∃ as : List Addr, as.Pairwise (fun a b => num a < num b) ∧
      (∀ a, a ∈ as ↔ InIP lo hi a ∧ isFree parse (run parse (new lo hi : IPTab R) cs).1 (text a) = true) ∧
      ∀ ds : List R, HandsOut (fun a _ r => r = some a) (fun r => r = none) as ds
        (allocs (takeIP parse text) (run parse (new lo hi : IPTab R) cs).1 ds) := by
  obtain ⟨m1, m2⟩ := mid_of_small hs
  have hinv := (run_refines parse (new lo hi : IPTab R) (new_inv m1) m2 cs).2
  generalize (run parse (new lo hi : IPTab R) cs).1 = r at hinv
  have hfree : ∀ r : IPTab R, IInv lo hi r → ∀ a, InIP lo hi a ∧ isFree parse r (text a) = true ↔ AvailIP lo hi (absI r) a := by
    intro r hr a
    obtain ⟨_, b, hb, he⟩ := (step_refines parse r hr m2 (.isFree (text a))).1
    have he : isFree parse r (text a) = b := by injection he
    rw [he]
    constructor
    · rintro ⟨ha, h⟩
      obtain ⟨a', h1, h2⟩ := hb.1 h
      rw [ht a ha] at h1
      cases h1
      exact h2
    · intro h
      exact ⟨h.1, hb.2 ⟨a, ht a h.1, h⟩⟩
  have hlist : ∃ as : List Addr, as.Pairwise (fun a b => num a < num b) ∧ ∀ a, a ∈ as ↔ AvailIP lo hi (absI r) a := by
    cases lo with
    | zero => cases hs
    | v4 f =>
      cases hi with
      | v4 t =>
        obtain ⟨ks, k1, k2⟩ := exists_list fun i : BitVec 32 => AvailIP (.v4 f) (.v4 t) (absI r) (.v4 i)
        refine ⟨ks.map .v4, ?_, ?_⟩
        · rw [List.pairwise_map]
          exact k1.imp fun h => BitVec.lt_def.1 h
        · intro a
          cases a with
          | v4 a => simp [k2]
          | zero => simp [AvailIP, InIP]
          | v6 _ _ => simp [AvailIP, InIP]
      | zero => cases hs
      | v6 _ _ => cases hs
    | v6 f z =>
      cases hi with
      | v6 t z' =>
        obtain ⟨ks, k1, k2⟩ := exists_list fun i : BitVec 128 => AvailIP (.v6 f z) (.v6 t z') (absI r) (.v6 i "")
        refine ⟨ks.map (.v6 · ""), ?_, ?_⟩
        · rw [List.pairwise_map]
          exact k1.imp fun h => BitVec.lt_def.1 h
        · intro a
          cases a with
          | v6 a y =>
            simp only [List.mem_map, Addr.v6.injEq, k2]
            constructor
            · rintro ⟨b, hb, rfl, rfl⟩; exact hb
            · intro h
              have h' := h
              obtain ⟨⟨_, _, rfl⟩, _⟩ := h'
              exact ⟨a, h, rfl, rfl⟩
          | zero => simp [AvailIP, InIP]
          | v4 _ => simp [AvailIP, InIP]
      | zero => cases hs
      | v4 _ => cases hs
  obtain ⟨as, h1, h2⟩ := hlist
  refine ⟨as, h1, fun a => (h2 a).trans (hfree r hinv a).symm, fun ds => ?_⟩
  refine handsOut_of_lowest (lt := fun a b => num a < num b) (fun i j h => by omega) (IInv lo hi)
    (fun r => AvailIP lo hi (absI r)) ?_ ds r as hinv h1 h2
  intro r d hr
  rcases IPTable.findFree_spec hr m2 with ⟨a, ha, he⟩ | ⟨hn, e, he⟩
  · obtain ⟨h3, h4⟩ := step_refines parse r hr m2 (.claim (text a) d)
    have hin := ha.1.1
    rcases h3 with ⟨a', g1, g2, g3, g4⟩ | ⟨g1, _⟩
    · rw [ht a hin] at g1
      cases g1
      have g3 : absI (claim parse r (text a) d).1 = (absI r).put a d := g3
      have g4 : replyUnit (claim parse r (text a) d).2 = (.ok : IReply R) := g4
      have h4 : IInv lo hi (claim parse r (text a) d).1 := h4
      have hok : (claim parse r (text a) d).2 = .ok () := by
        cases hc : (claim parse r (text a) d).2 with
        | ok u => rfl
        | error e => rw [hc] at g4; cases g4
      have hx : takeIP parse text r d = ((claim parse r (text a) d).1, some a) := by
        unfold takeIP
        rw [he]
        simp only
        generalize claim parse r (text a) d = p at hok ⊢
        obtain ⟨r', x⟩ := p
        simp only at hok
        subst hok
        rfl
      rw [hx]
      refine ⟨h4, .inl ⟨a, ha.1, fun b hb => Nat.not_lt.2 (ha.2 b hb), rfl, fun b => ?_⟩⟩
      rw [AvailIP, AvailIP, g3]
      by_cases hb : b = a
      · subst hb; simp [AMap.put]
      · simp [AMap.put, hb]
    · exact absurd ha.1 (g1 a (ht a hin))
  · have hx : takeIP parse text r d = (r, none) := by
      unfold takeIP
      rw [he]
    rw [hx]
    exact ⟨hr, .inr ⟨hn, rfl, hn⟩⟩

-- a range and a text format
example : SmallRange (.v4 0x0a000000) (.v4 0x0a000001) ∧ ∀ a, InIP (.v4 0x0a000000) (.v4 0x0a000001) a →
    exParse (if a = .v4 0x0a000000 then "10.0.0.0" else "10.0.0.1") = some a := by
  refine ⟨by unfold SmallRange; decide, fun a ha => ?_⟩
  cases a with
  | v4 a =>
    obtain ⟨h1, h2⟩ := ha
    have e1 : BitVec.toNat (0x0a000000 : BitVec 32) = 0x0a000000 := rfl
    have e2 : BitVec.toNat (0x0a000001 : BitVec 32) = 0x0a000001 := rfl
    rcases (show a = 0x0a000000 ∨ a = 0x0a000001 by
      rw [← BitVec.toNat_inj, ← BitVec.toNat_inj]; omega) with rfl | rfl
    · rfl
    · rfl
  | zero => cases ha
  | v6 _ _ => cases ha
end

section
open Verif.GTree Verif.Id
variable {I : Impl} {L : Type} [Labels L]

omit [Labels L] in
/-- what a claimed id covers -/
theorem covered_put {P : Pkg} {M : Map P L} (hwf : ∀ q e, M q = some e → q = pre e.id ∧ e.id.len ≤ P.W) {x : BitVec P.W}
    (hx : ¬ Covered M x) (l : L) (y : BitVec P.W) : Covered (put M ⟨x, P.W⟩ l) y ↔ Covered M y ∨ y = x := by
  constructor
  · rintro ⟨q, e, h1, h2⟩
    unfold put at h1
    split at h1
    · cases h1
      exact .inr (covers_full rfl h2)
    · exact .inl ⟨q, e, h1, h2⟩
  · rintro (⟨q, e, h1, h2⟩ | rfl)
    · refine ⟨q, e, ?_, h2⟩
      unfold put
      rw [if_neg, h1]
      rintro rfl
      obtain ⟨h3, h4⟩ := hwf _ e h1
      exact hx ⟨_, e, h1, (covers_iff_pre (a := e.id) (b := ⟨x, P.W⟩) (Nat.le_refl _) h4).2 (by rw [← h3]; exact List.prefix_rfl)⟩
    · refine ⟨pre (⟨y, P.W⟩ : MyId P), ⟨⟨y, P.W⟩, l⟩, ?_, rfl⟩
      unfold put
      rw [if_pos rfl]

/-- C114, trees (tree16 of length at least 1; tree32 of length at most 16 if all ids are within the tree), unless a prefix is
claimed that contains the one `findFree` starts with: repeated `ClaimFree` hands out every id that no claimed prefix
covers, and then fails. (Of the order: `C91`. The other trees: `C57`.) -/
theorem C114_tree {length : Nat} (hI : I = tree16 ∧ 1 ≤ length ∨ I = tree32 ∧ length ≤ 16) {g : GTree I L} {M : Map I.P L}
    (h : Reach I length g M) (hn : NoneAbove (I.rootLen length) M) (hw : I = tree32 → Within length M) (f : Nat → L) :
    ∃ xs : List (BitVec I.P.W), xs.Nodup ∧ (∀ x, x ∈ xs ↔ x.toNat < 2 ^ length ∧ ¬ Covered M x) ∧
      ∀ n, n ≤ xs.length → ∃ g' M', Steps I length g M
          ((List.range n).filterMap fun i => xs[i]?.map fun x => (.claimFree (f i), .got ⟨⟨x, I.P.W⟩, f i⟩)) g' M' ∧
        (n = xs.length → ∀ l, g'.exec (.claimFree l) = .ok (.err, g')) := by
  have hI' : I = tree16 ∨ I = tree32 := hI.imp And.left And.left
  have hle := (h.ginv hI').le
  have hroot : I.rootLen length < I.P.W := by
    rcases hI with ⟨rfl, h1⟩ | ⟨rfl, h2⟩
    · have : tree16.rootLen length = 16 - length := Verif.Tree.sub8_eq hle (by decide)
      rw [this]
      have hle : length ≤ 16 := hle
      show 16 - length < 16
      omega
    · show length < 32
      omega
  obtain ⟨us, u1, u2⟩ : ∃ us : List (BitVec I.P.W), us.Nodup ∧ ∀ x, x ∈ us ↔ x.toNat < 2 ^ length ∧ ¬ Covered M x := by
    obtain ⟨us, u1, u2⟩ := exists_list fun x : BitVec I.P.W => x.toNat < 2 ^ length ∧ ¬ Covered M x
    refine ⟨us, u1.imp fun h => ?_, u2⟩
    rintro rfl
    exact absurd h (by rw [BitVec.lt_def]; omega)
  generalize hk : us.length = k
  induction k generalizing us g M f with
  | zero =>
    have : us = [] := List.length_eq_zero_iff.1 hk
    subst this
    have hfree : ∀ l, FreeOk length g M l := fun l => by
      rcases hI with ⟨rfl, h1⟩ | ⟨rfl, h2⟩
      · refine C57_claimFree_partial (.inl rfl) h ?_ l
        rw [show tree16.rootLen length = 16 - length from Verif.Tree.sub8_eq hle (by decide)] at hn
        exact hn
      · exact C57_claimFree32_partial h2 h hn (hw rfl) l
    refine ⟨[], .nil, u2, fun n hn => ?_⟩
    have : n = 0 := Nat.le_zero.1 hn
    subst this
    refine ⟨g, M, .nil, fun _ l => ?_⟩
    rcases hfree l with ⟨x, x1, x2, _⟩ | ⟨h, _⟩
    · exact absurd ((u2 x).2 ⟨x1, x2⟩) (by simp)
    · exact h
  | succ k ih =>
    have hfree : FreeOk length g M (f 0) := by
      rcases hI with ⟨rfl, h1⟩ | ⟨rfl, h2⟩
      · refine C57_claimFree_partial (.inl rfl) h ?_ _
        rw [show tree16.rootLen length = 16 - length from Verif.Tree.sub8_eq hle (by decide)] at hn
        exact hn
      · exact C57_claimFree32_partial h2 h hn (hw rfl) _
    rcases hfree with ⟨x, x1, x2, x3⟩ | ⟨_, hall⟩
    · have hwf := (h.ginv hI').wf
      have hroom : Room (put M ⟨x, I.P.W⟩ (f 0)) := by
        rcases hI with ⟨rfl, h1⟩ | ⟨rfl, h2⟩
        · intro hw; cases hw
        · have hp : 2 ^ length ≤ 2 ^ 16 := Nat.pow_le_pow_right (by decide) h2
          have hp2 : (2 : Nat) ^ 16 ≤ 2 ^ 31 := by decide
          refine LowMap.room (lowMap_put ?_ (by show x.toNat < _; omega) (Nat.le_refl _) _)
          intro q e he
          have := hw rfl q e he
          exact ⟨by omega, hwf q e he⟩
      obtain ⟨g₁, e1, e2⟩ := x3 hroom
      have hcov := covered_put hwf x2 (f 0)
      obtain ⟨xs, y1, y2, y3⟩ := ih (g := g₁) (M := put M ⟨x, I.P.W⟩ (f 0)) e2
        (by
          intro q e he hc
          unfold put at he
          split at he
          · cases he; exact hroot
          · exact hn q e he hc)
        (by
          intro hw' q e he
          unfold put at he
          split at he
          · cases he; exact x1
          · exact hw hw' q e he)
        (fun i => f (i + 1)) (us.erase x) (u1.erase x)
        (by
          intro y
          rw [u1.mem_erase_iff, u2, hcov]
          constructor
          · rintro ⟨a, b, c⟩; exact ⟨b, fun h => h.elim c a⟩
          · rintro ⟨a, b⟩; exact ⟨fun h => b (.inr h), a, fun h => b (.inl h)⟩)
        (by rw [List.length_erase_of_mem ((u2 x).2 ⟨x1, x2⟩), hk]; rfl)
      refine ⟨x :: xs, ?_, ?_, ?_⟩
      · rw [List.nodup_cons]
        exact ⟨fun h => ((y2 x).1 h).2 ((hcov x).2 (.inr rfl)), y1⟩
      · intro y
        rw [List.mem_cons, y2, hcov]
        by_cases hyx : y = x
        · subst hyx; simp [x1, x2]
        · simp [hyx]
      · intro n hn
        cases n with
        | zero => exact ⟨g, M, .nil, fun h => by simp at h⟩
        | succ n =>
          obtain ⟨g', M', s1, s2⟩ := y3 n (by simpa using hn)
          refine ⟨g', M', ?_, fun h => s2 (by simpa using h)⟩
          rw [List.range_succ_eq_map, List.filterMap_cons]
          simp only [List.getElem?_cons_zero, Option.map_some, List.filterMap_map]
          refine .cons trivial e1 (.inr ⟨x, x1, rfl, rfl⟩) hroom ?_
          simpa [Function.comp_def] using s1
    · have : us ≠ [] := by rintro rfl; simp at hk
      obtain ⟨y, ys, rfl⟩ := List.exists_cons_of_ne_nil this
      obtain ⟨a, b⟩ := (u2 y).1 List.mem_cons_self
      exact absurd (hall y a) b

-- a tree16 of length 4 in which something is claimed
example : ∃ (g : GTree tree16 Bool) (M : Map tree16.P Bool), Reach tree16 4 g M ∧ NoneAbove (tree16.rootLen 4) M ∧ M ≠ Map.empty ∧
    ¬ Covered M 0 := by
  have hg := reach_new (I := tree16) (L := Bool) (length := 4) (by decide)
  obtain ⟨g, _, e2, _⟩ := (C52_claim_get_partial (.inl rfl) hg ⟨2, 16⟩ (Nat.le_refl _) true _ (.inl rfl)).1 (by decide) (room_one _ true)
  refine ⟨g, _, e2, ?_, ?_, ?_⟩
  · intro q e he _
    unfold put at he
    split at he
    · cases he; decide
    · cases he
  · intro h
    have := congrFun h (pre (⟨2, 16⟩ : MyId tree16.P))
    simp [put, Map.empty] at this
  · rintro ⟨q, e, he, hc⟩
    unfold put at he
    split at he
    · cases he
      exact absurd (covers_full rfl hc) (by decide)
    · cases he
end

end Verif.Alloc
