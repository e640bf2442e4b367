import Verif.Ranged.Refine

/-!
C15–C21: the ranged tables (`pkg/table/table16`, `table32`, `table64`).
-/

namespace Verif.Ranged
open Verif.IdxTable (U64 Ascending)
variable {P : Width} {L : Type}

/-- `r` is a state of `New(start, stop)` after some history of calls, in one of the packages
table16, table32, table64 -/
def Reach (start stop : BitVec P.W) (r : RTable P L) : Prop :=
  IsPkg P ∧ ∃ cs, r = (run (new start stop) cs).1

/-- `start <= stop` and the range is not the full integer range -/
def Proper (start stop : BitVec P.W) : Prop :=
  start.toNat ≤ stop.toNat ∧ stop.toNat - start.toNat + 1 < 2 ^ P.W

theorem Reach.inv {start stop : BitVec P.W} {r : RTable P L} (h : Reach start stop r)
    (hp : Proper start stop) : Good P ∧ RInv r ∧ NotFull r ∧ r.start = start ∧ r.stop = stop := by
  obtain ⟨hP, cs, rfl⟩ := h
  have hg := hP.good
  have := run_refines (L := L) hg (new start stop) (new_inv hg start stop (BitVec.le_def.2 hp.1))
    hp.2 cs
  refine ⟨hg, this.2.1, ?_, this.2.2.1, this.2.2.2⟩
  unfold NotFull
  rw [this.2.2.1, this.2.2.2]; exact hp.2

/-- the labels `Get(id)` reports, if any -/
def obs (r : RTable P L) : LMap L := fun id =>
  match get r id with
  | .ok e => some e.labels
  | .error _ => none

theorem obs_eq {r : RTable P L} (hP : Good P) (h : RInv r) : obs r = absR r := by
  funext id
  obtain ⟨h1, h2⟩ := get_spec hP h id
  unfold obs
  cases ha : absR r id with
  | none => obtain ⟨e, he⟩ := h2 ha; rw [he]
  | some l => obtain ⟨e, he, hl, _⟩ := h1 l ha; rw [he]; simp [hl]

/-- a table16 on [10,20] with 12 and 15 claimed -/
def exR : RTable w16 String := (run (new 10 20) [.claim 12 "a", .claim 15 "b"]).1
theorem exR_reach : Reach (P := w16) 10 20 exR := ⟨Or.inl rfl, _, rfl⟩
theorem exR_proper : Proper (P := w16) 10 20 := by unfold Proper; decide

/-! ## C15 -/

/-- C15: every history on a ranged table has the replies of a partial map on `[start,stop]`. -/
theorem C15_ranged_partial_map (hP : IsPkg P) (start stop : BitVec P.W) (hp : Proper start stop)
    (cs : List (RCall L)) :
    ∃ s', RRun start.toNat stop.toNat P.W (max P.W 32) (fun _ => none) cs
      (run (new start stop : RTable P L) cs).2 s' := by
  have hg := hP.good
  have h := (run_refines (L := L) hg (new start stop)
    (new_inv hg start stop (BitVec.le_def.2 hp.1)) hp.2 cs).1
  have he : absR (new start stop : RTable P L) = fun _ => none := by
    funext i
    unfold absR
    split
    · simp [new, IdxTable.newTable]
    · rfl
  rw [he] at h
  have hl : P.storedLen = P.W := by rcases hP with rfl | rfl | rfl <;> rfl
  rw [hl, hP.outLen] at h
  exact ⟨_, h⟩

/-- The partial map of C15 is deterministic, so C15 fixes every reply. -/
theorem C15_spec_deterministic {start stop len1 len2 : Nat} {s : LMap L} {c : RCall L}
    {s₁ s₂ : LMap L} {r₁ r₂ : RReply L} (h₁ : RStep start stop len1 len2 s c s₁ r₁)
    (h₂ : RStep start stop len1 len2 s c s₂ r₂) : s₁ = s₂ ∧ r₁ = r₂ := by
  have leastU : ∀ {i j}, LeastR start stop s i → LeastR start stop s j → i = j := by
    intro i j hi hj
    have := hi.2 j hj.1
    have := hj.2 i hi.1
    bv_omega
  have listsU : ∀ {sel : L → Bool} {l m : List (TEntry L)}, Lists len2 s sel l → Lists len2 s sel m →
      l = m := by
    intro sel l m hl hm
    have hids : l.map TEntry.id = m.map TEntry.id := by
      apply IdxTable.sorted_ext hl.1 hm.1
      intro x
      simp only [List.mem_map]
      constructor
      · rintro ⟨e, he, rfl⟩; exact ⟨e, (hm.2 e).2 ((hl.2 e).1 he), rfl⟩
      · rintro ⟨e, he, rfl⟩; exact ⟨e, (hl.2 e).2 ((hm.2 e).1 he), rfl⟩
    have hrec : ∀ l : List (TEntry L), (∀ e ∈ l, s e.id = some e.labels ∧ e.len = len2) →
        l.map some = (l.map TEntry.id).map (fun k => (s k).map (fun d => ⟨k, len2, d⟩)) := by
      intro l hl
      rw [List.map_map]
      apply List.map_congr_left
      intro e he
      obtain ⟨h1, h2⟩ := hl e he
      simp [h1, ← h2]
    have := (hrec l (fun e he => ⟨((hl.2 e).1 he).1, ((hl.2 e).1 he).2.1⟩)).trans
      ((congrArg _ hids).trans
        (hrec m (fun e he => ⟨((hm.2 e).1 he).1, ((hm.2 e).1 he).2.1⟩)).symm)
    exact List.map_injective_iff.2 (fun a b h => Option.some.inj h) this
  cases c with
  | get id =>
    obtain ⟨rfl, a, b⟩ := h₁
    obtain ⟨rfl, c, d⟩ := h₂
    cases hs : s₂ id with
    | none => exact ⟨rfl, by rw [b hs, d hs]⟩
    | some x => exact ⟨rfl, by rw [a x hs, c x hs]⟩
  | claim id d =>
    rcases h₁ with ⟨a, rfl, rfl⟩ | ⟨a, rfl, rfl⟩ <;> rcases h₂ with ⟨b, rfl, rfl⟩ | ⟨b, rfl, rfl⟩ <;>
      first | exact ⟨rfl, rfl⟩ | exact absurd a b | exact absurd b a
  | claimFree d =>
    rcases h₁ with ⟨i, a, rfl, rfl⟩ | ⟨a, rfl, rfl⟩ <;>
      rcases h₂ with ⟨j, b, rfl, rfl⟩ | ⟨b, rfl, rfl⟩
    · rw [leastU a b]; exact ⟨rfl, rfl⟩
    · exact absurd a.1 (b i)
    · exact absurd b.1 (a j)
    · exact ⟨rfl, rfl⟩
  | release id =>
    rcases h₁ with ⟨a, rfl, rfl⟩ | ⟨a, rfl, rfl⟩ <;> rcases h₂ with ⟨b, rfl, rfl⟩ | ⟨b, rfl, rfl⟩ <;>
      first | exact ⟨rfl, rfl⟩ | exact absurd a b | exact absurd b a
  | update id d =>
    rcases h₁ with ⟨a, rfl, rfl⟩ | ⟨a, rfl, rfl⟩ <;> rcases h₂ with ⟨b, rfl, rfl⟩ | ⟨b, rfl, rfl⟩ <;>
      first | exact ⟨rfl, rfl⟩ | exact absurd a b | exact absurd b a
  | size =>
    obtain ⟨rfl, i, a, a', rfl⟩ := h₁; obtain ⟨rfl, j, b, b', rfl⟩ := h₂
    have : i = j := IdxTable.sorted_ext a b (fun x => (a' x).trans (b' x).symm)
    rw [this]; exact ⟨rfl, rfl⟩
  | has id =>
    obtain ⟨rfl, i, a, rfl⟩ := h₁; obtain ⟨rfl, j, b, rfl⟩ := h₂
    have : i = j := by rw [Bool.eq_iff_iff]; exact a.trans b.symm
    rw [this]; exact ⟨rfl, rfl⟩
  | isFree id =>
    obtain ⟨rfl, i, a, rfl⟩ := h₁; obtain ⟨rfl, j, b, rfl⟩ := h₂
    have : i = j := by rw [Bool.eq_iff_iff]; exact a.trans b.symm
    rw [this]; exact ⟨rfl, rfl⟩
  | findFree =>
    obtain ⟨rfl, h₁⟩ := h₁; obtain ⟨rfl, h₂⟩ := h₂
    rcases h₁ with ⟨i, a, rfl⟩ | ⟨a, rfl⟩ <;> rcases h₂ with ⟨j, b, rfl⟩ | ⟨b, rfl⟩
    · rw [leastU a b]; exact ⟨rfl, rfl⟩
    · exact absurd a.1 (b i)
    · exact absurd b.1 (a j)
    · exact ⟨rfl, rfl⟩
  | getAll =>
    obtain ⟨rfl, i, a, rfl⟩ := h₁; obtain ⟨rfl, j, b, rfl⟩ := h₂
    rw [listsU a b]; exact ⟨rfl, rfl⟩
  | getByLabel sel =>
    obtain ⟨rfl, i, a, rfl⟩ := h₁; obtain ⟨rfl, j, b, rfl⟩ := h₂
    rw [listsU a b]; exact ⟨rfl, rfl⟩

example : IsPkg w16 ∧ Proper (P := w16) 10 20 ∧ Proper (P := w64) 0 (-2) := by
  refine ⟨Or.inl rfl, exR_proper, ?_⟩
  unfold Proper; decide

/-! ## C16 -/

/-- C16: `FindFree` returns the lowest free id of the range and fails iff there is none;
`ClaimFree` claims and returns exactly that id. -/
theorem C16_findFree_lowest {start stop : BitVec P.W} {r : RTable P L} (h : Reach start stop r)
    (hp : Proper start stop) (l : L) :
    (∃ i, findFree r = .ok i ∧ start.toNat ≤ i.toNat ∧ i.toNat ≤ stop.toNat ∧ isFree r i = true ∧
      (∀ j, isFree r j = true → i ≤ j) ∧
      (claimFree r l).2 = .ok ⟨i, P.W, l⟩ ∧ isFree (claimFree r l).1 i = false ∧
      obs (claimFree r l).1 = (obs r).put i l) ∨
    ((∃ e, findFree r = .error e) ∧ (∀ j, isFree r j = false) ∧
      (∃ e, (claimFree r l).2 = .error e) ∧ (claimFree r l).1 = r) := by
  have hlen : P.storedLen = P.W := by rcases h.1 with rfl | rfl | rfl <;> rfl
  obtain ⟨hg, hi, hf, rfl, rfl⟩ := h.inv hp
  rcases findFree_spec hg hi hf with ⟨i, hl, he⟩ | ⟨hn, e, he⟩
  · left
    have hstep := step_refines hg r hi hf (.claimFree l)
    have hc : claimFree r l = (setTab r (idx r i) ⟨idx r i, ⟨idx r i, P.storedLen, l⟩⟩,
        .ok ⟨i, P.storedLen, l⟩) := by
      unfold claimFree
      rw [he]
      simp only
      rw [claim_ok hg hi l hl.1]
      have := storedEntry_ext hg r _ hi.le (idx_lt hg hl.1.1) l
      rw [ext_idx hg hl.1.1] at this
      simp only [this]
    have hi' : RInv (claimFree r l).1 := hstep.2.1
    refine ⟨i, he, hl.1.1.1, hl.1.1.2, (isFree_spec hg i).2 hl.1, ?_, ?_, ?_, ?_⟩
    · intro j hj; exact hl.2 j ((isFree_spec hg j).1 hj)
    · rw [hc, hlen]
    · have h2 : absR (claimFree r l).1 i = some l := by
        rw [hc]
        rw [absR_set hg hl.1.1 _ l rfl]; simp [LMap.put]
      cases hb : isFree (claimFree r l).1 i with
      | false => rfl
      | true =>
        have := ((isFree_spec hg i).1 hb).2
        rw [h2] at this; cases this
    · rw [obs_eq hg hi', obs_eq hg hi, hc]
      exact absR_set hg hl.1.1 _ l rfl
  · right
    refine ⟨⟨e, he⟩, ?_, ⟨e, by simp [claimFree, he]⟩, by simp [claimFree, he]⟩
    intro j
    cases hb : isFree r j with
    | false => rfl
    | true => exact absurd ((isFree_spec hg j).1 hb) (hn j)

example : isFree exR 10 = true ∧ isFree exR 12 = false := by decide

/-! ## C17 -/

theorem lift_size (r : RTable P L) (p) : (lift r p).1.tab.size = p.1.size := rfl

theorem step_size (r : RTable P L) (c : RCall L) :
    (step r c).1.tab.size = r.tab.size ∧ (step r c).1.start = r.start ∧
    (step r c).1.stop = r.stop := by
  have hadd : ∀ e, (IdxTable.add r.tab e).1.size = r.tab.size := by
    intro e; unfold IdxTable.add; split <;> (try split) <;> rfl
  have hclaim : ∀ id l, (claim r id l).1.tab.size = r.tab.size ∧ (claim r id l).1.start = r.start ∧
      (claim r id l).1.stop = r.stop := by
    intro id l
    unfold claim
    split
    · exact ⟨rfl, rfl, rfl⟩
    · simp only
      split
      · exact ⟨rfl, rfl, rfl⟩
      · exact ⟨hadd _, rfl, rfl⟩
  cases c with
  | claim id l => exact hclaim id l
  | claimFree l =>
    simp only [step, claimFree]
    cases findFree r with
    | error e => exact ⟨rfl, rfl, rfl⟩
    | ok id =>
      simp only
      have := hclaim id l
      cases hc : claim r id l with
      | mk r' res =>
        rw [hc] at this
        cases res <;> exact this
  | release id =>
    simp only [step, release]
    split
    · exact ⟨rfl, rfl, rfl⟩
    · refine ⟨?_, rfl, rfl⟩
      show (IdxTable.release r.tab _).1.size = _
      unfold IdxTable.release IdxTable.delete
      split <;> rfl
  | update id l =>
    simp only [step, update]
    split
    · exact ⟨rfl, rfl, rfl⟩
    · refine ⟨?_, rfl, rfl⟩
      show (IdxTable.update r.tab _ _).1.size = _
      unfold IdxTable.update IdxTable.updateE
      split <;> (try split) <;> rfl
  | get _ | size | has _ | isFree _ | findFree | getAll | getByLabel _ => exact ⟨rfl, rfl, rfl⟩

theorem run_size (r : RTable P L) (cs : List (RCall L)) :
    (run r cs).1.tab.size = r.tab.size ∧ (run r cs).1.start = r.start ∧
    (run r cs).1.stop = r.stop := by
  induction cs generalizing r with
  | nil => exact ⟨rfl, rfl, rfl⟩
  | cons c cs ih =>
    have h1 := ih (step r c).1
    have h2 := step_size r c
    exact ⟨h1.1.trans h2.1, h1.2.1.trans h2.2.1, h1.2.2.trans h2.2.2⟩

theorem full_findFree {r : RTable P L} (h : Reach 0 (-1) r) : ∃ e, findFree r = .error e := by
  obtain ⟨hP, cs, rfl⟩ := h
  have hsz := (run_size (new 0 (-1) : RTable P L) cs).1
  have h0 : ((new 0 (-1) : RTable P L)).tab.size = 0 := by
    show ((-1 - 0 + 1 : BitVec P.W).setWidth 64) = 0
    rcases hP with rfl | rfl | rfl <;> decide
  rw [h0] at hsz
  have hk : IdxTable.freeKeys (run (new 0 (-1) : RTable P L) cs).1.tab = [] := by
    unfold IdxTable.freeKeys
    rw [hsz]
    rfl
  refine ⟨.idx .noFree, ?_⟩
  unfold findFree
  rw [IdxTable.findFree_eq, hk]

/-- C17 is violated, in every state of the full range table of every width: nothing can be
allocated although ids are free (`IsFree` reports the unclaimed ids as free). -/
theorem C17_full_range_violated {r : RTable P L} (h : Reach 0 (-1) r) (l : L) :
    (∃ e, findFree r = .error e) ∧ (∃ e, (claimFree r l).2 = .error e) ∧ (claimFree r l).1 = r := by
  obtain ⟨e, he⟩ := full_findFree h
  exact ⟨⟨e, he⟩, ⟨e, by simp [claimFree, he]⟩, by simp [claimFree, he]⟩

/-- the full range table really has free ids: all of them, initially -/
theorem C17_full_range_has_free (hP : IsPkg P) (id : U64) (hid : id.toNat < 2 ^ P.W) :
    isFree (new 0 (-1) : RTable P L) id = true := by
  have hg := hP.good
  rw [isFree_spec hg]
  have hstop : ((new 0 (-1) : RTable P L)).stop.toNat = 2 ^ P.W - 1 := by
    show (-1 : BitVec P.W).toNat = _
    rcases hP with rfl | rfl | rfl <;> decide
  have hstart : ((new 0 (-1) : RTable P L)).start.toNat = 0 := by
    show (0 : BitVec P.W).toNat = _
    simp
  have hin : InR ((new 0 (-1) : RTable P L)).start.toNat ((new 0 (-1) : RTable P L)).stop.toNat id := by
    rw [hstop, hstart]; unfold InR; omega
  refine ⟨hin, ?_⟩
  rw [absR_in hin]
  simp [new, IdxTable.newTable]

theorem full_inv {r : RTable P L} (h : Reach 0 (-1) r) : RInv r := by
  have hfull := fun (r : RTable P L) (hr : Reach 0 (-1) r) => full_findFree hr
  obtain ⟨hP, cs, rfl⟩ := h
  have hg := hP.good
  have key : ∀ (ds cs : List (RCall L)), RInv (run (new 0 (-1) : RTable P L) ds).1 →
      RInv (run (run (new 0 (-1) : RTable P L) ds).1 cs).1 := by
    intro ds cs
    induction cs generalizing ds with
    | nil => exact fun h => h
    | cons c cs ih =>
      intro hi
      have happ : ∀ (r : RTable P L) (as : List (RCall L)) (c : RCall L),
          (run r (as ++ [c])).1 = (step (run r as).1 c).1 := by
        intro r as c
        induction as generalizing r with
        | nil => rfl
        | cons a as ih => simp only [List.cons_append, run, ih]
      have hstep : RInv (step (run (new 0 (-1) : RTable P L) ds).1 c).1 := by
        cases c with
        | claimFree l =>
          obtain ⟨e, he⟩ := hfull _ ⟨hP, ds, rfl⟩
          simp only [step, claimFree, he]; exact hi
        | size | findFree | getAll | getByLabel _ => exact hi
        | get _ | claim _ _ | release _ | update _ _ | has _ | isFree _ =>
          exact (step_refines_explicit hg _ hi _ (by simp [Explicit])).2.1
      have := ih (ds ++ [c]) (by rw [happ]; exact hstep)
      rw [happ] at this
      exact this
  refine key [] cs (new_inv hg 0 (-1) ?_)
  rw [BitVec.le_def]; simp

/-- C17, part that holds: on the full range table the calls that name an id behave as a partial
map on all ids. Missing: `FindFree` and `ClaimFree`, which always fail. -/
theorem C17_full_range_partial {r : RTable P L} (h : Reach 0 (-1) r) (c : RCall L)
    (hc : Explicit c) :
    RStep 0 (2 ^ P.W - 1) P.W (max P.W 32) (obs r) c (obs (step r c).1) (step r c).2 := by
  have hi := full_inv h
  have hg := h.1.good
  have hlen : P.storedLen = P.W := by rcases h.1 with rfl | rfl | rfl <;> rfl
  have hout := h.1.outLen
  have hs := step_refines_explicit hg r hi c hc
  obtain ⟨hP, cs, hr⟩ := h
  have hz := run_size (new 0 (-1) : RTable P L) cs
  rw [← hr] at hz
  have hstop : r.stop.toNat = 2 ^ P.W - 1 := by
    rw [hz.2.2]
    show (-1 : BitVec P.W).toNat = _
    rcases hP with rfl | rfl | rfl <;> decide
  have hstart : r.start.toNat = 0 := by
    rw [hz.2.1]
    show (0 : BitVec P.W).toNat = _
    simp
  rw [obs_eq hg hi, obs_eq hg hs.2.1]
  have h1 := hs.1
  rw [hstop, hstart, hlen, hout] at h1
  exact h1

example : Reach (P := w32) 0 (-1) (run (new 0 (-1) : RTable w32 String) [.claim 7 "x"]).1 ∧
    Explicit (RCall.claim 8 "y") := ⟨⟨Or.inr (Or.inl rfl), _, rfl⟩, trivial⟩

/-! ## C18 -/

/-- C18 is violated: `Get(12)` on a table16 over [10,20] returns an entry with id 2. -/
theorem C18_get_own_id_violated :
    ∃ (r : RTable w16 String) (id : U64) (e : TEntry String), Reach (P := w16) 10 20 r ∧
      has r id = true ∧ get r id = .ok e ∧ e.id ≠ id :=
  ⟨exR, 12, ⟨2, 16, "a"⟩, exR_reach, by decide, by decide, by decide⟩

/-- C18, exact: `Get(id)` succeeds iff `Has(id)`, and the id it reports is `id - start`; the
labels are those last claimed or updated. -/
theorem C18_get_offset_partial {start stop : BitVec P.W} {r : RTable P L}
    (h : Reach start stop r) (hp : Proper start stop) (id : U64) :
    (has r id = true → ∃ e, get r id = .ok e ∧ e.id.toNat = id.toNat - start.toNat ∧
      (e.id = id ↔ start = 0)) ∧
    (has r id = false → ∃ e, get r id = .error e) ∧
    (∀ l, (claim r id l).2 = .ok () → obs (claim r id l).1 id = some l) ∧
    (∀ l, (update r id l).2 = .ok () → obs (update r id l).1 id = some l) := by
  obtain ⟨hg, hi, hf, rfl, rfl⟩ := h.inv hp
  have hgs := get_spec hg hi id
  refine ⟨?_, ?_, ?_, ?_⟩
  · intro hh
    have hne := (has_spec hg id).1 hh
    obtain ⟨l, hl⟩ := Option.ne_none_iff_exists'.1 hne
    have hin : InR r.start.toNat r.stop.toNat id := by
      apply Classical.byContradiction
      intro hin; exact hne (absR_out hin)
    obtain ⟨e, he, _, hid⟩ := hgs.1 l hl
    have hidx := index_toNat hg r.start r.stop id hin
    have heq : e.id.toNat = id.toNat - r.start.toNat := by rw [hid]; exact hidx
    refine ⟨e, he, heq, ?_⟩
    constructor
    · intro h'
      have : r.start.toNat = 0 ∨ id.toNat = 0 := by rw [h'] at heq; omega
      apply BitVec.eq_of_toNat_eq
      have h2 : (0 : BitVec P.W).toNat = 0 := by simp
      rw [h2]
      rcases this with h1 | h1
      · exact h1
      · unfold InR at hin; omega
    · intro h'
      have h2 : (0 : BitVec P.W).toNat = 0 := by simp
      apply BitVec.eq_of_toNat_eq
      rw [heq, h', h2]; omega
  · intro hh
    apply hgs.2
    apply Classical.byContradiction
    intro hne
    have := (has_spec hg id).2 hne
    rw [hh] at this; cases this
  · intro l hl
    have hs := step_refines hg r hi hf (.claim id l)
    have ho : obs (claim r id l).1 = absR (step r (.claim id l)).1 := obs_eq hg hs.2.1
    rw [ho]
    rcases hs.1 with ⟨_, h2, _⟩ | ⟨_, _, h3⟩
    · have := congrFun h2 id
      simpa [LMap.put] using this
    · simp only [step, hl, replyUnit] at h3; cases h3
  · intro l hl
    have hs := step_refines hg r hi hf (.update id l)
    have ho : obs (update r id l).1 = absR (step r (.update id l)).1 := obs_eq hg hs.2.1
    rw [ho]
    rcases hs.1 with ⟨_, h2, _⟩ | ⟨_, _, h3⟩
    · have := congrFun h2 id
      simpa [LMap.put] using this
    · simp only [step, hl, replyUnit] at h3; cases h3

example : has exR 12 = true ∧ (claim exR 13 "z").2 = .ok () := by decide

/-! ## C19 -/

/-- C19: `GetAll` never panics and reports, ascending by external id, one entry per claimed id
with its labels. -/
theorem C19_getAll_external {start stop : BitVec P.W} {r : RTable P L} (h : Reach start stop r)
    (hp : Proper start stop) :
    ∃ es, getAll r = some es ∧ Ascending (es.map TEntry.id) ∧
      ∀ e, e ∈ es ↔ has r e.id = true ∧ obs r e.id = some e.labels ∧ e.len = max P.W 32 := by
  rw [← h.1.outLen]
  obtain ⟨hg, hi, hf, rfl, rfl⟩ := h.inv hp
  have hl := lists_ents hg hi (fun _ => true)
  rw [List.filter_true] at hl
  refine ⟨_, getAll_eq' hg (hi.counts hf), hl.1, ?_⟩
  intro e
  rw [hl.2, obs_eq hg hi, has_spec hg]
  constructor
  · rintro ⟨h1, h2, _⟩; exact ⟨by rw [h1]; simp, h1, h2⟩
  · rintro ⟨_, h1, h2⟩; exact ⟨h1, h2, rfl⟩

example : has exR 15 = true := by decide

/-! ## C20 -/

/-- C20: `GetByLabel` is the filter of `GetAll`, for every selector. -/
theorem C20_getByLabel_filter {start stop : BitVec P.W} {r : RTable P L} (h : Reach start stop r)
    (hp : Proper start stop) (sel : L → Bool) :
    ∃ es, getAll r = some es ∧ getByLabel r sel = some (es.filter (fun e => sel e.labels)) := by
  obtain ⟨hg, hi, hf, rfl, rfl⟩ := h.inv hp
  refine ⟨_, getAll_eq' hg (hi.counts hf), ?_⟩
  rw [getByLabel_eq hg hi (hi.counts hf), List.filter_map]
  rfl

example : Reach (P := w16) 10 20 exR ∧ Proper (P := w16) 10 20 ∧ has exR 12 = true ∧ has exR 15 = true :=
  ⟨exR_reach, exR_proper, by decide, by decide⟩

/-! ## C21 -/

theorem inverted_validate (hP : Good P) (r : RTable P L) (h : r.stop.toNat < r.start.toNat) (id : U64) :
    ∃ e, validateID r id = .error e := by
  apply validateID_err hP
  unfold InR; omega

/-- C21: on an inverted range every call fails or reports nothing, and the table never changes. -/
theorem C21_inverted_rejects (hP : IsPkg P) (start stop : BitVec P.W) (hlt : stop < start)
    (cs : List (RCall L)) :
    (run (new start stop : RTable P L) cs).1 = new start stop ∧
    ∀ (id : U64) (l : L) (sel : L → Bool),
      (∃ e, (claim (new start stop : RTable P L) id l).2 = .error e) ∧
      (∃ e, (update (new start stop : RTable P L) id l).2 = .error e) ∧
      (∃ e, get (new start stop : RTable P L) id = .error e) ∧
      (∃ e, (release (new start stop : RTable P L) id).2 = .error e) ∧
      (∃ e, (claimFree (new start stop : RTable P L) l).2 = .error e) ∧
      has (new start stop : RTable P L) id = false ∧ isFree (new start stop : RTable P L) id = false ∧
      sizeOf (new start stop : RTable P L) = 0 ∧
      getAll (new start stop : RTable P L) = some [] ∧
      getByLabel (new start stop : RTable P L) sel = some [] := by
  have hg := hP.good
  have hv : ∀ id, ∃ e, validateID (new start stop : RTable P L) id = .error e := by
    intro id
    exact inverted_validate hg _ (by rw [BitVec.lt_def] at hlt; exact hlt) id
  have hclaim : ∀ id l, ∃ e, claim (new start stop : RTable P L) id l = (new start stop, .error e) := by
    intro id l
    obtain ⟨e, he⟩ := hv id
    exact ⟨e, by simp [claim, he]⟩
  have hcf : ∀ l, ∃ e, claimFree (new start stop : RTable P L) l = (new start stop, .error e) := by
    intro l
    unfold claimFree
    cases hff : findFree (new start stop : RTable P L) with
    | error e => exact ⟨e, rfl⟩
    | ok id =>
      obtain ⟨e, he⟩ := hclaim id l
      exact ⟨e, by simp [he]⟩
  have hrel : ∀ id, ∃ e, release (new start stop : RTable P L) id = (new start stop, .error e) := by
    intro id
    obtain ⟨e, he⟩ := hv id
    exact ⟨e, by simp [release, he]⟩
  have hupd : ∀ id l, ∃ e, update (new start stop : RTable P L) id l = (new start stop, .error e) := by
    intro id l
    obtain ⟨e, he⟩ := hv id
    exact ⟨e, by simp [update, he]⟩
  have hall : IdxTable.getAll (new start stop : RTable P L).tab = [] := by
    have : (new start stop : RTable P L).tab.m.keys = [] := rfl
    rw [IdxTable.getAll, IdxTable.getAllOrd_eq _ _ (by rw [this]; decide), this]
    simp [IdxTable.sortKeys]
  constructor
  · induction cs with
    | nil => rfl
    | cons c cs ih =>
      have hs : (step (new start stop : RTable P L) c).1 = new start stop := by
        cases c with
        | claim id l => obtain ⟨e, he⟩ := hclaim id l; simp [step, he]
        | claimFree l => obtain ⟨e, he⟩ := hcf l; simp [step, he]
        | release id => obtain ⟨e, he⟩ := hrel id; simp [step, he]
        | update id l => obtain ⟨e, he⟩ := hupd id l; simp [step, he]
        | get _ | size | has _ | isFree _ | findFree | getAll | getByLabel _ => rfl
      simp only [run, hs]; exact ih
  · intro id l sel
    obtain ⟨e1, h1⟩ := hclaim id l
    obtain ⟨e2, h2⟩ := hupd id l
    obtain ⟨e3, h3⟩ := hrel id
    obtain ⟨e4, h4⟩ := hcf l
    obtain ⟨e5, h5⟩ := hv id
    refine ⟨⟨e1, by rw [h1]⟩, ⟨e2, by rw [h2]⟩, ⟨e5, by simp [get, h5]⟩, ⟨e3, by rw [h3]⟩,
      ⟨e4, by rw [h4]⟩, by simp [has, h5], by simp [isFree, h5], rfl, ?_, ?_⟩
    · simp [getAll, hall, getAllLoop]
    · simp [getByLabel, hall, getByLabelLoop]

/-- C21, remark: `FindFree` is not covered; on an inverted range it can return an id although
`IsFree` is false for every id. -/
theorem C21_findFree_inverted :
    findFree (new 65535 3 : RTable w16 String) = .ok 65535 ∧
    isFree (new 65535 3 : RTable w16 String) 65535 = false := by
  refine ⟨?_, by decide⟩
  unfold findFree
  rw [IdxTable.findFree_eq]
  decide

example : (10 : BitVec 16) < 20 := by decide

/-! ## C95 -/

/-- the stored entries have ids of the full length -/
def FullLen (t : IdxTable.Table (TEntry L)) (n : Nat) : Prop := ∀ i e, t.m.get? i = some e → e.data.len = n

theorem FullLen.set {t : IdxTable.Table (TEntry L)} {n : Nat} (h : FullLen t n) (i : U64) (d : TEntry L) (hd : d.len = n) :
    FullLen { t with m := t.m.set i ⟨i, d⟩ } n := by
  intro j e he
  simp only [GoMap.get?_set] at he
  split at he
  · cases he; exact hd
  · exact h j e he

theorem FullLen.del {t : IdxTable.Table (TEntry L)} {n : Nat} (h : FullLen t n) (i : U64) :
    FullLen { t with m := t.m.del i } n := by
  intro j e he
  simp only [GoMap.get?_del] at he
  split at he
  · cases he
  · exact h j e he

theorem fullLen_claim {r : RTable P L} (h : FullLen r.tab P.storedLen) (id : U64) (l : L) :
    FullLen (claim r id l).1.tab P.storedLen := by
  unfold claim
  split
  · exact h
  · simp only
    split
    · exact h
    · simp only [lift, IdxTable.claim, IdxTable.add]
      split
      · exact h
      · split
        · exact h
        · exact h.set _ _ rfl

theorem fullLen_step {r : RTable P L} (h : FullLen r.tab P.storedLen) (c : RCall L) :
    FullLen (step r c).1.tab P.storedLen := by
  cases c with
  | claim id l => exact fullLen_claim h id l
  | claimFree l =>
    simp only [step, claimFree]
    split
    · exact h
    · next id _ =>
      have := fullLen_claim h id l
      split
      · next r' e heq => rw [heq] at this; exact this
      · next r' heq => rw [heq] at this; exact this
  | release id =>
    simp only [step, release]
    split
    · exact h
    · simp only [lift, IdxTable.release, IdxTable.delete]
      split
      · exact h
      · exact h.del _
  | update id l =>
    simp only [step, update]
    split
    · exact h
    · simp only [lift, IdxTable.update, IdxTable.updateE]
      split
      · exact h
      · split
        · exact h
        · exact h.set _ _ rfl
  | get _ | size | has _ | isFree _ | findFree | getAll | getByLabel _ => exact h

theorem fullLen_run {r : RTable P L} (h : FullLen r.tab P.storedLen) (cs : List (RCall L)) :
    FullLen (run r cs).1.tab P.storedLen := by
  induction cs generalizing r with
  | nil => exact h
  | cons c cs ih => exact ih (fullLen_step h c)

/-- C95, part that holds: the entries of `Get` and `ClaimFree` have an id of the length of the table's ids; those of
`GetAll` and `GetByLabel` have the length 32 in table16 and table32, and 64 in table64. Missing: the latter for table16,
where it is false. -/
theorem C95_lengths_partial {start stop : BitVec P.W} {r : RTable P L} (h : Reach start stop r) (hp : Proper start stop) :
    (∀ id e, get r id = .ok e → e.len = P.W) ∧
    (∀ l e, (claimFree r l).2 = .ok e → e.len = P.W) ∧
    (∀ es, getAll r = some es → ∀ e ∈ es, e.len = max P.W 32) ∧
    (∀ sel es, getByLabel r sel = some es → ∀ e ∈ es, e.len = max P.W 32) := by
  have hlen : P.storedLen = P.W := by rcases h.1 with rfl | rfl | rfl <;> rfl
  have hst : FullLen r.tab P.W := by
    obtain ⟨_, cs, rfl⟩ := h
    rw [← hlen]
    exact fullLen_run (by intro i e he; simp [new, IdxTable.newTable] at he) cs
  obtain ⟨es, h1, _, h2⟩ := C19_getAll_external h hp
  refine ⟨?_, ?_, ?_, ?_⟩
  · intro id e he
    unfold get at he
    split at he
    · cases he
    · simp only [IdxTable.get] at he
      split at he
      · cases he
      · next heq =>
        cases he
        split at heq
        · cases heq
        · split at heq
          · cases heq
          · next hg => cases heq; exact hst _ _ hg
  · intro l e he
    unfold claimFree at he
    split at he
    · cases he
    · split at he
      · cases he
      · cases he; exact hlen
  · intro es' he e hm
    rw [h1] at he
    cases he
    exact ((h2 e).1 hm).2.2
  · intro sel es' he e hm
    obtain ⟨es'', h3, h4⟩ := C20_getByLabel_filter h hp sel
    rw [h1] at h3
    cases h3
    rw [h4] at he
    cases he
    exact ((h2 e).1 (List.mem_filter.1 hm).1).2.2

/-- C95 fails for table16: every claimed id is listed with a length of 32. -/
theorem C95_table16_violated {start stop : BitVec w16.W} {r : RTable w16 L} (h : Reach start stop r) (hp : Proper start stop)
    {id : U64} (hid : has r id = true) : ∃ es e, getAll r = some es ∧ e ∈ es ∧ e.id = id ∧ e.len = 32 := by
  obtain ⟨es, h1, _, h2⟩ := C19_getAll_external h hp
  have ho : obs r id ≠ none := by
    obtain ⟨hg, hi, hf, rfl, rfl⟩ := h.inv hp
    rw [obs_eq hg hi]
    exact (has_spec hg id).1 hid
  obtain ⟨l, hl⟩ := Option.ne_none_iff_exists'.1 ho
  exact ⟨es, ⟨id, 32, l⟩, h1, (h2 _).2 ⟨hid, hl, rfl⟩, rfl, rfl⟩

example : Reach (P := w16) 10 20 exR ∧ has exR 12 = true ∧ (claimFree exR "c").2 = .ok ⟨10, 16, "c"⟩ := by
  refine ⟨exR_reach, by decide, ?_⟩
  unfold claimFree findFree
  rw [IdxTable.findFree_eq]
  decide

end Verif.Ranged
