import Verif.Errs.IdxProps
import Verif.Ranged.Props
import Verif.IPTable.Props

/-!
C109, C110: the error texts of the tables of a range of ids and of the IP table.
-/

namespace Verif.Ranged
open Verif.IdxTable (U64 Text num Names numeral_num spells0 spells1 spells1' spells2' spells3' names_single names_first names_num
  nonDigit nonDigit_iff validateMsg_cases head_ascii Spells)
open Verif.Id (fmtUint numeral_fmtUint)
open Verif.GTree (ascii)
variable {P : Width} {L : Type}

/-! ### texts and failures -/

theorem validateIDMsg_none (r : RTable P L) (id : U64) : validateIDMsg r id = none ↔ validateID r id = .ok () := by
  unfold validateIDMsg validateID
  split
  · simp
  split
  · simp
  split <;> simp

theorem validateIDMsg_cases (r : RTable P L) (id : U64) :
    (∃ m e, validateIDMsg r id = some m ∧ validateID r id = .error e) ∨ (validateIDMsg r id = none ∧ validateID r id = .ok ()) := by
  have h := validateIDMsg_none r id
  cases hm : validateIDMsg r id with
  | none => exact .inr ⟨rfl, h.1 hm⟩
  | some m =>
    cases hv : validateID r id with
    | error e => exact .inl ⟨m, e, rfl, rfl⟩
    | ok u => rw [hm, hv] at h; simp at h

theorem findFreeTxt_some (r : RTable P L) : (∃ m, findFreeTxt r = some m) ↔ ∃ e, findFree r = .error e := by
  unfold findFreeTxt findFree
  have h := IdxTable.findFreeMsg_none r.tab
  cases hf : IdxTable.findFree r.tab with
  | ok x => rw [h.2 ⟨x, hf⟩]; simp
  | error e => cases hm : IdxTable.findFreeMsg r.tab with
    | none => obtain ⟨x, hx⟩ := h.1 hm; rw [hf] at hx; cases hx
    | some m => simp

/-- a call of a table of a range of ids has an error text exactly if it fails (in every state) -/
theorem C109_ranged_fails (r : RTable P L) (id : U64) (l : L) :
    ((∃ m, getTxt r id = some m) ↔ ∃ e, get r id = .error e) ∧
    ((∃ m, claimTxt r id = some m) ↔ ∃ e, (claim r id l).2 = .error e) ∧
    ((∃ m, releaseTxt r id = some m) ↔ ∃ e, (release r id).2 = .error e) ∧
    ((∃ m, updateTxt r id = some m) ↔ ∃ e, (update r id l).2 = .error e) ∧
    ((∃ m, findFreeTxt r = some m) ↔ ∃ e, findFree r = .error e) ∧
    ((∃ m, claimFreeTxt r = some m) ↔ ∃ e, (claimFree r l).2 = .error e) := by
  have lifted : ∀ {o : Option Text} {p : IdxTable.Table (TEntry L) × Except IdxTable.Err Unit}, (o = none ↔ p.2 = .ok ()) →
      ((∃ m, o = some m) ↔ ∃ e, (lift r p).2 = .error e) := by
    intro o p h
    unfold lift
    obtain ⟨t, x⟩ := p
    cases x with
    | ok u => rw [h.2 rfl]; simp
    | error e => cases o with
      | none => exact absurd (h.1 rfl) (by simp)
      | some m => simp
  have hclaim : ∀ id, (∃ m, claimTxt r id = some m) ↔ ∃ e, (claim r id l).2 = .error e := by
    intro id
    unfold claimTxt claim
    rcases validateIDMsg_cases r id with ⟨m, e, h1, h2⟩ | ⟨h1, h2⟩
    · simp [h1, h2]
    · rw [h1, h2]
      dsimp only
      split
      · simp
      · exact lifted (IdxTable.addMsg_none r.tab _ _)
  have hfind := findFreeTxt_some r
  refine ⟨?_, hclaim id, ?_, ?_, hfind, ?_⟩
  · unfold getTxt get
    rcases validateIDMsg_cases r id with ⟨m, e, h1, h2⟩ | ⟨h1, h2⟩
    · simp [h1, h2]
    · rw [h1, h2]
      dsimp only
      have h := IdxTable.getMsg_none r.tab (calculateIndex (id.setWidth P.W) r.start)
      cases hg : IdxTable.get r.tab (calculateIndex (id.setWidth P.W) r.start) with
      | ok x => rw [h.2 ⟨x, hg⟩]; simp
      | error e => cases hm : IdxTable.getMsg r.tab (calculateIndex (id.setWidth P.W) r.start) with
        | none => obtain ⟨x, hx⟩ := h.1 hm; rw [hg] at hx; cases hx
        | some m => simp
  · unfold releaseTxt release
    rcases validateIDMsg_cases r id with ⟨m, e, h1, h2⟩ | ⟨h1, h2⟩
    · simp [h1, h2]
    · rw [h1, h2]
      exact lifted (IdxTable.releaseMsg_none r.tab _)
  · unfold updateTxt update
    rcases validateIDMsg_cases r id with ⟨m, e, h1, h2⟩ | ⟨h1, h2⟩
    · simp [h1, h2]
    · rw [h1, h2]
      exact lifted (IdxTable.updateMsg_none r.tab _ _)
  · unfold claimFreeTxt claimFree
    cases hf : findFree r with
    | error e =>
      obtain ⟨m, hm⟩ := hfind.2 ⟨e, hf⟩
      simp [hm]
    | ok x =>
      cases hm : findFreeTxt r with
      | some m => obtain ⟨e, he⟩ := hfind.1 ⟨m, hm⟩; rw [hf] at he; cases he
      | none =>
        have h := hclaim x
        simp only
        cases hc : claim r x l with
        | mk r' res =>
          rw [hc] at h
          cases res with
          | ok u => cases u; rw [h]; simp
          | error e => rw [h]; simp

/-! ### the texts -/

/-- the invariant holds for every range whose start is not above its end -/
theorem Reach.rinv {start stop : BitVec P.W} {r : RTable P L} (h : Reach start stop r) (hle : start.toNat ≤ stop.toNat) :
    Good P ∧ RInv r ∧ r.start = start ∧ r.stop = stop := by
  by_cases hp : stop.toNat - start.toNat + 1 < 2 ^ P.W
  · obtain ⟨h1, h2, _, h3, h4⟩ := h.inv ⟨hle, hp⟩
    exact ⟨h1, h2, h3, h4⟩
  · have hs := stop.isLt
    have e1 : start = 0 := BitVec.eq_of_toNat_eq (by simp; omega)
    have e2 : stop = -1 := BitVec.eq_of_toNat_eq (by
      show _ = (-1#P.W).toNat; rw [BitVec.neg_one_eq_allOnes, BitVec.toNat_allOnes]; omega)
    subst e1 e2
    obtain ⟨_, cs, hr⟩ := id h
    have := (run_size (new 0 (-1) : RTable P L) cs).2
    exact ⟨h.1.good, full_inv h, by rw [hr]; exact this.1, by rw [hr]; exact this.2⟩

/-- the texts of calls with an id in the range -/
theorem txt_in {r : RTable P L} (hP : Good P) (h : RInv r) {id : U64} (hin : InR r.start.toNat r.stop.toNat id) :
    getTxt r id = (if (r.tab.m.get? (idx r id)).isNone then some (ascii "no entry found for: " ++ num (idx r id)) else none) ∧
    updateTxt r id =
      (if (r.tab.m.get? (idx r id)).isNone then some (ascii "entry " ++ num (idx r id) ++ ascii " not created") else none) ∧
    claimTxt r id =
      (if (r.tab.m.get? (idx r id)).isNone then none
       else some (ascii "claim failed id " ++ num id ++ ascii " already claimed")) ∧
    releaseTxt r id = none := by
  have h1 : validateIDMsg r id = none := (validateIDMsg_none r id).2 ((validateID_iff hP r id).2 hin)
  have h2 : IdxTable.validateMsg r.tab (idx r id) = none :=
    (IdxTable.validateMsg_none ..).2 (h.validate _ (idx_lt hP hin))
  have h3 : fmtUint (calculateIDFromIndex r.start (idx r id)).toNat = num id := by
    have := ext_idx hP hin
    unfold ext at this
    unfold num
    rw [← this, setWidth_toNat hP, this]
  have e : calculateIndex (id.setWidth P.W) r.start = idx r id := rfl
  refine ⟨?_, ?_, ?_, ?_⟩
  · unfold getTxt IdxTable.getMsg
    rw [h1, e, h2]
    cases r.tab.m.get? (idx r id) <;> rfl
  · unfold updateTxt IdxTable.updateMsg IdxTable.isFreeB
    rw [h1, e, h2]
  · unfold claimTxt IdxTable.addMsg IdxTable.isFree IdxTable.isFreeB
    rw [h1]
    dsimp only
    rw [e, h2, h3]
    cases r.tab.m.get? (idx r id) <;> rfl
  · unfold releaseTxt IdxTable.releaseMsg
    rw [h1, e, h2]

/-- the texts of calls with an id out of the range -/
theorem txt_out {r : RTable P L} (hP : Good P) {id : U64} (hin : ¬ InR r.start.toNat r.stop.toNat id) :
    ∃ m, validateIDMsg r id = some m ∧ getTxt r id = some m ∧ updateTxt r id = some m ∧ claimTxt r id = some m ∧
      releaseTxt r id = some m := by
  cases h : validateIDMsg r id with
  | none => exact absurd ((validateID_iff hP r id).1 ((validateIDMsg_none r id).1 h)) hin
  | some m => exact ⟨m, rfl, by unfold getTxt; rw [h], by unfold updateTxt; rw [h], by unfold claimTxt; rw [h],
      by unfold releaseTxt; rw [h]⟩

theorem validateIDMsg_names {r : RTable P L} {id : U64} {m : Text} (h : validateIDMsg r id = some m) : Names m id.toNat := by
  have out : Names (outText r id) id.toNat := by
    unfold outText
    rw [List.append_assoc, List.append_assoc, List.append_assoc]
    exact names_num id _ (by decide) (by decide)
  unfold validateIDMsg at h
  split at h
  · cases h
    rw [List.append_assoc]
    exact names_num id _ (by decide) (by decide)
  split at h
  · cases h; exact out
  split at h
  · cases h; exact out
  · cases h

/-! ### C110 -/

/-- **C110, partial** (table16, table32, table64; every range) The error texts of `Claim` and `Release` name the id that
was passed, and so do those of `Get` and `Update` for ids out of the range. For ids in the range, `Get` and `Update` name
the offset of the id in the range instead, and no other number (see `C110_ranged_violated`). -/
theorem C110_ranged_partial {start stop : BitVec P.W} {r : RTable P L} (h : Reach start stop r) (id : U64) (m : Text) :
    (claimTxt r id = some m ∨ releaseTxt r id = some m → Names m id.toNat) ∧
    (getTxt r id = some m ∨ updateTxt r id = some m →
      (¬ InR start.toNat stop.toNat id → Names m id.toNat) ∧
      (InR start.toNat stop.toNat id → ∀ n, Names m n ↔ n = id.toNat - start.toNat)) := by
  have hP := h.1.good
  have hs : r.start = start ∧ r.stop = stop := by
    obtain ⟨_, cs, rfl⟩ := h
    exact (run_size (new start stop : RTable P L) cs).2
  by_cases hin : InR start.toNat stop.toNat id
  · have hle : start.toNat ≤ stop.toNat := by unfold InR at hin; omega
    obtain ⟨_, hi, _, _⟩ := h.rinv hle
    have hin' : InR r.start.toNat r.stop.toNat id := by rw [hs.1, hs.2]; exact hin
    have hidx : (idx r id).toNat = id.toNat - start.toNat := by
      rw [← hs.1]; exact index_toNat hP r.start r.stop id hin'
    obtain ⟨t1, t2, t3, t4⟩ := txt_in hP hi hin'
    have allw : ∀ {w : String}, (ascii w).all nonDigit = true → ∀ c ∈ ascii w, ¬ IdxTable.IsDigit c :=
      fun hw c hc => nonDigit_iff.1 (List.all_eq_true.1 hw c hc)
    refine ⟨?_, ?_⟩
    · rintro (h1 | h1)
      · rw [t3] at h1
        split at h1
        · cases h1
        · cases h1
          exact (names_single (numeral_num id) (allw (by decide)) (allw (by decide)) _).2 rfl
      · rw [t4] at h1; cases h1
    · intro h1
      refine ⟨fun hn => absurd hin hn, fun _ n => ?_⟩
      rw [← hidx]
      rcases h1 with h1 | h1
      · rw [t1] at h1
        split at h1
        · cases h1
          have := names_single (B := []) (numeral_num (idx r id)) (allw (w := "no entry found for: ") (by decide)) (by simp) n
          rwa [List.append_nil] at this
        · cases h1
      · rw [t2] at h1
        split at h1
        · cases h1
          exact names_single (numeral_num (idx r id)) (allw (by decide)) (allw (by decide)) n
        · cases h1
  · have hin' : ¬ InR r.start.toNat r.stop.toNat id := by rw [hs.1, hs.2]; exact hin
    obtain ⟨m', t0, t1, t2, t3, t4⟩ := txt_out hP hin'
    have hn := validateIDMsg_names t0
    refine ⟨?_, ?_⟩
    · rintro (h1 | h1)
      · rw [t3] at h1; cases h1; exact hn
      · rw [t4] at h1; cases h1; exact hn
    · intro h1
      refine ⟨fun _ => ?_, fun hi => absurd hi hin⟩
      rcases h1 with h1 | h1
      · rw [t1] at h1; cases h1; exact hn
      · rw [t2] at h1; cases h1; exact hn

/-- **C110, violated** (table16 from 10 to 20) `Get(11)`, not claimed, fails with `no entry found for: 1`, and `Update(11)`
with `entry 1 not created`; 1 is not an id of the table. -/
theorem C110_ranged_violated : ∃ m m', getTxt exR 11 = some m ∧ updateTxt exR 11 = some m' ∧
    m = ascii "no entry found for: " ++ num 1 ∧ m' = ascii "entry " ++ num 1 ++ ascii " not created" ∧
    ¬ Names m 11 ∧ ¬ Names m' 11 := by
  have h1 : getTxt exR 11 = some (ascii "no entry found for: " ++ num 1) := rfl
  have h2 : updateTxt exR 11 = some (ascii "entry " ++ num 1 ++ ascii " not created") := rfl
  have hin : InR (10 : BitVec 16).toNat (20 : BitVec 16).toNat 11 := by unfold InR; decide
  refine ⟨_, _, h1, h2, rfl, rfl, ?_, ?_⟩
  · rw [((C110_ranged_partial exR_reach 11 _).2 (.inl h1)).2 hin]; decide
  · rw [((C110_ranged_partial exR_reach 11 _).2 (.inr h2)).2 hin]; decide

/-! ### C109 -/

theorem validateIDMsg_true {r : RTable P L} (hP : IsPkg P) {id : U64} {m : Text} (h : validateIDMsg r id = some m) :
    ∃ σ, Says m σ ∧ σ.Holds r.start.toNat r.stop.toNat (obs r) := by
  have out : ¬ InR r.start.toNat r.stop.toNat id → ∃ σ, Says (outText r id) σ ∧ σ.Holds r.start.toNat r.stop.toNat (obs r) :=
    fun hin => ⟨.outside id.toNat r.start.toNat r.stop.toNat,
      spells3' (numeral_num _) (numeral_fmtUint _) (numeral_fmtUint _), rfl, rfl, hin⟩
  have hin : ¬ InR r.start.toNat r.stop.toNat id := by
    intro hin
    rw [(validateIDMsg_none r id).2 ((validateID_iff hP.good r id).2 hin)] at h
    cases h
  unfold validateIDMsg at h
  split at h
  · rename_i hc
    cases h
    refine ⟨.tooBig id.toNat (P.maxCheck.getD 0).toNat, spells2' (numeral_num _) (numeral_num _), ?_⟩
    show (P.maxCheck.getD 0).toNat < id.toNat
    rw [← BitVec.lt_def]
    unfold exceeds at hc
    cases hx : P.maxCheck with
    | none => rw [hx] at hc; cases hc
    | some k => rw [hx] at hc; exact of_decide_eq_true hc
  split at h
  · cases h; exact out hin
  split at h
  · cases h; exact out hin
  · cases h

/-- **C109, partial** (table16, table32, table64, ranges that are not the whole type) The error texts of `Claim`,
`Release`, `FindFree` and `ClaimFree` are sentences that are true of the table, and so are those of `Get` and `Update` for
ids out of the range. For an id in the range, `Get` and `Update` speak about its offset in the range, which is true exactly
if the table has nothing claimed under that number (as if the range started at 0). -/
theorem C109_ranged_partial {start stop : BitVec P.W} {r : RTable P L} (h : Reach start stop r) (hp : Proper start stop) (id : U64)
    (m : Text) :
    (claimTxt r id = some m ∨ releaseTxt r id = some m ∨ findFreeTxt r = some m ∨ claimFreeTxt r = some m →
      ∃ σ, Says m σ ∧ σ.Holds start.toNat stop.toNat (obs r)) ∧
    (getTxt r id = some m ∨ updateTxt r id = some m →
      ∃ σ, Says m σ ∧ (¬ InR start.toNat stop.toNat id → σ.Holds start.toNat stop.toNat (obs r)) ∧
        (InR start.toNat stop.toNat id → ∃ i : U64, i.toNat = id.toNat - start.toNat ∧
          (σ.Holds start.toNat stop.toNat (obs r) ↔ obs r i = none))) := by
  have hpk := h.1
  obtain ⟨hP, hi, hf, rfl, rfl⟩ := h.inv hp
  have hobs : ∀ {x : U64}, InR r.start.toNat r.stop.toNat x → obs r x = (r.tab.m.get? (idx r x)).map (fun e => e.data.labels) :=
    fun hx => by rw [obs_eq hP hi, absR_in hx]
  have hclaim : ∀ id, claimTxt r id = some m → ∃ σ, Says m σ ∧ σ.Holds r.start.toNat r.stop.toNat (obs r) := by
    intro id h1
    by_cases hin : InR r.start.toNat r.stop.toNat id
    · rw [(txt_in hP hi hin).2.2.1] at h1
      split at h1
      · cases h1
      · rename_i hn
        cases h1
        refine ⟨.claimed id.toNat, spells1 (numeral_num _), id, rfl, ?_⟩
        rw [hobs hin]
        intro he
        rw [Option.map_eq_none_iff] at he
        rw [he] at hn
        exact hn rfl
    · obtain ⟨m', t0, _, _, t3, _⟩ := txt_out hP hin
      rw [t3] at h1; cases h1
      exact validateIDMsg_true hpk t0
  have hfind : findFreeTxt r = some m → ∃ σ, Says m σ ∧ σ.Holds r.start.toNat r.stop.toNat (obs r) := by
    intro h1
    have hm : m = ascii "no free entry found" := (IdxTable.findFreeMsg_some h1).1
    subst hm
    refine ⟨.idx .noFree, spells0, fun i hav => ?_⟩
    obtain ⟨e, he⟩ := (findFreeTxt_some r).1 ⟨_, h1⟩
    rcases findFree_spec hP hi hf with ⟨x, _, hx⟩ | ⟨hx, _⟩
    · rw [hx] at he; cases he
    · exact hx i ⟨hav.1, by rw [← obs_eq hP hi]; exact hav.2⟩
  refine ⟨?_, ?_⟩
  · rintro (h1 | h1 | h1 | h1)
    · exact hclaim id h1
    · by_cases hin : InR r.start.toNat r.stop.toNat id
      · rw [(txt_in hP hi hin).2.2.2] at h1; cases h1
      · obtain ⟨m', t0, _, _, _, t4⟩ := txt_out hP hin
        rw [t4] at h1; cases h1
        exact validateIDMsg_true hpk t0
    · exact hfind h1
    · unfold claimFreeTxt at h1
      cases hm : findFreeTxt r with
      | some m' => rw [hm] at h1; cases h1; exact hfind hm
      | none =>
        rw [hm] at h1
        cases hx : findFree r with
        | error e => rw [hx] at h1; cases h1
        | ok x => rw [hx] at h1; exact hclaim x h1
  · intro h1
    by_cases hin : InR r.start.toNat r.stop.toNat id
    · have hidx := index_toNat hP r.start r.stop id hin
      obtain ⟨t1, t2, _, _⟩ := txt_in hP hi hin
      rcases h1 with h1 | h1
      · rw [t1] at h1
        split at h1
        · cases h1
          refine ⟨.idx (.notFound (idx r id)), spells1' (numeral_num _), fun hn => absurd hin hn, fun _ => ⟨idx r id, hidx, ?_⟩⟩
          show ¬ (obs r (idx r id) ≠ none) ↔ _
          exact Decidable.not_not
        · cases h1
      · rw [t2] at h1
        split at h1
        · cases h1
          refine ⟨.idx (.notCreated (idx r id)), spells1 (numeral_num _), fun hn => absurd hin hn, fun _ => ⟨idx r id, hidx, ?_⟩⟩
          show ¬ (obs r (idx r id) ≠ none) ↔ _
          exact Decidable.not_not
        · cases h1
    · obtain ⟨m', t0, t1, t2, _, _⟩ := txt_out hP hin
      have : validateIDMsg r id = some m := by
        rcases h1 with h1 | h1
        · rw [t1] at h1; cases h1; exact t0
        · rw [t2] at h1; cases h1; exact t0
      obtain ⟨σ, s1, s2⟩ := validateIDMsg_true hpk this
      exact ⟨σ, s1, fun _ => s2, fun hx => absurd hx hin⟩

/-- the table16 from 2 to 10 with 3 claimed -/
def exErr : RTable w16 String := (run (new 2 10) [.claim 3 "a"]).1
theorem exErr_reach : Reach (P := w16) 2 10 exErr := ⟨Or.inl rfl, [.claim 3 "a"], rfl⟩
theorem exErr_proper : Proper (P := w16) 2 10 := ⟨by decide, by decide⟩

/-- the examples have texts -/
example : claimTxt exErr 3 = some (ascii "claim failed id " ++ num 3 ++ ascii " already claimed") ∧
    releaseTxt exErr 1 = some (ascii "id " ++ num 1 ++ ascii ", does not fit in the range from " ++ fmtUint 2 ++ ascii " to " ++
      fmtUint 10) ∧
    updateTxt exErr 4 = some (ascii "entry " ++ num 2 ++ ascii " not created") := ⟨rfl, rfl, rfl⟩

/-- **C109, violated** (table16 from 2 to 10 with 3 claimed) `Get(5)` fails with `no entry found for: 3` and `Update(5)` with
`entry 3 not created`, although `Get(3)` succeeds. -/
theorem C109_ranged_violated :
    getTxt exErr 5 = some (ascii "no entry found for: " ++ num 3) ∧
    updateTxt exErr 5 = some (ascii "entry " ++ num 3 ++ ascii " not created") ∧
    ∃ e, get exErr 3 = .ok e := ⟨rfl, rfl, _, rfl⟩

/-- **C109, violated** (every state of a table of the whole type) `FindFree` and `ClaimFree` fail with
`no free entry found`, whatever is claimed. -/
theorem C109_full_violated {r : RTable P L} (h : Reach 0 (-1) r) :
    findFreeTxt r = some (ascii "no free entry found") ∧ claimFreeTxt r = some (ascii "no free entry found") := by
  obtain ⟨m, hm⟩ := (findFreeTxt_some r).2 (full_findFree h)
  have : m = ascii "no free entry found" := (IdxTable.findFreeMsg_some hm).1
  subst this
  exact ⟨hm, by unfold claimFreeTxt; rw [hm]⟩

end Verif.Ranged

namespace Verif.IPTable
open Verif.IdxTable (U64 Text numeral_num)
open Verif.GTree (ascii)
variable {R : Type} {parse : String → Option Addr} {lo hi : Addr} {sh : Show}

/-! ### the IP table -/

theorem validateIPMsg_cases (parse : String → Option Addr) (sh : Show) (r : IPTab R) (x : String) :
    (∃ m e, validateIPMsg parse sh r x = some m ∧ validateIP parse r x = .error e) ∨
    (∃ a, parse x = some a ∧ validateIPMsg parse sh r x = none ∧ validateIP parse r x = .ok a) := by
  unfold validateIPMsg validateIP
  cases parse x with
  | none => exact .inl ⟨_, _, rfl, rfl⟩
  | some a =>
    dsimp only
    split
    · exact .inr ⟨a, rfl, rfl, rfl⟩
    · exact .inl ⟨_, _, rfl, rfl⟩

/-- a call of the IP table has an error text exactly if it fails (in every state; any parser) -/
theorem C109_ip_fails (parse : String → Option Addr) (sh : Show) (r : IPTab R) (x : String) (d : R) :
    ((∃ m, getTxt parse sh r x = some m) ↔ ∃ e, get parse r x = .error e) ∧
    ((∃ m, claimTxt parse sh r x = some m) ↔ ∃ e, (claim parse r x d).2 = .error e) ∧
    ((∃ m, releaseTxt parse sh r x = some m) ↔ ∃ e, (release parse r x).2 = .error e) ∧
    ((∃ m, updateTxt parse sh r x = some m) ↔ ∃ e, (update parse r x d).2 = .error e) ∧
    ((∃ m, findFreeTxt r = some m) ↔ ∃ e, findFree r = .err e) := by
  have lifted : ∀ {o : Option Text} {p : IdxTable.Table R × Except IdxTable.Err Unit}, (o = none ↔ p.2 = .ok ()) →
      ((∃ m, o = some m) ↔ ∃ e, (lift r p).2 = .error e) := by
    intro o p h
    unfold lift
    obtain ⟨t, x⟩ := p
    cases x with
    | ok u => rw [h.2 rfl]; simp
    | error e => cases o with
      | none => exact absurd (h.1 rfl) (by simp)
      | some m => simp
  have idx : ∀ {a}, parse x = some a → indexOf parse r x = calculateIndex a r.ipRange.lo := by
    intro a ha; unfold indexOf; rw [ha]; rfl
  refine ⟨?_, ?_, ?_, ?_, ?_⟩
  · unfold getTxt get
    rcases validateIPMsg_cases parse sh r x with ⟨m, e, h1, h2⟩ | ⟨a, ha, h1, h2⟩
    · simp [h1, h2]
    · rw [h1, h2, idx ha]
      dsimp only
      have h := IdxTable.getMsg_none r.tab (calculateIndex a r.ipRange.lo)
      cases hg : IdxTable.get r.tab (calculateIndex a r.ipRange.lo) with
      | ok x => rw [h.2 ⟨x, hg⟩]; simp
      | error e => cases hm : IdxTable.getMsg r.tab (calculateIndex a r.ipRange.lo) with
        | none => obtain ⟨x, hx⟩ := h.1 hm; rw [hg] at hx; cases hx
        | some m => simp
  · unfold claimTxt claim
    rcases validateIPMsg_cases parse sh r x with ⟨m, e, h1, h2⟩ | ⟨a, ha, h1, h2⟩
    · simp [h1, h2]
    · rw [h1, h2, idx ha]
      dsimp only
      split
      · simp
      · exact lifted (IdxTable.addMsg_none r.tab _ _)
  · unfold releaseTxt release
    rcases validateIPMsg_cases parse sh r x with ⟨m, e, h1, h2⟩ | ⟨a, ha, h1, h2⟩
    · simp [h1, h2]
    · rw [h1, h2, idx ha]
      exact lifted (IdxTable.releaseMsg_none r.tab _)
  · unfold updateTxt update
    rcases validateIPMsg_cases parse sh r x with ⟨m, e, h1, h2⟩ | ⟨a, ha, h1, h2⟩
    · simp [h1, h2]
    · rw [h1, h2, idx ha]
      dsimp only
      split
      · simp
      · exact lifted (IdxTable.updateMsg_none r.tab _ _)
  · unfold findFreeTxt findFree
    have h := IdxTable.findFreeMsg_none r.tab
    cases hf : IdxTable.findFree r.tab with
    | ok x =>
      rw [h.2 ⟨x, hf⟩]
      dsimp only
      cases calculateIPFromIndex r.ipRange.lo x <;> simp
    | error e => cases hm : IdxTable.findFreeMsg r.tab with
      | none => obtain ⟨x, hx⟩ := h.1 hm; rw [hf] at hx; cases hx
      | some m => simp

theorem inIP_noZone (lo hi c : Addr) : InIP lo.noZone hi.noZone c ↔ InIP lo hi c := by
  cases lo <;> cases hi <;> cases c <;> exact Iff.rfl

theorem validateIPMsg_true {r : IPTab R} (h : r.ipRange = ipRangeFrom lo hi) (s : AMap R) {x : String} {m : Text}
    (hm : validateIPMsg parse sh r x = some m) :
    Contains m (bytes x) ∧ (∀ c, parse x = some c → ¬ InIP lo hi c) ∧
      ∃ σ, Says sh (bytes x) m σ ∧ σ.Holds lo hi s (parse x) := by
  unfold validateIPMsg at hm
  cases hp : parse x with
  | none =>
    rw [hp] at hm
    cases hm
    exact ⟨⟨_, _, rfl⟩, fun c hc => (by cases hc), .invalid, rfl, rfl⟩
  | some a =>
    rw [hp] at hm
    dsimp only at hm
    split at hm
    · cases hm
    · rename_i hn
      cases hm
      rw [h, contains_iff] at hn
      refine ⟨⟨ascii "ip address ", ascii ", does not fit in the range from " ++ sh r.ipRange.lo ++ ascii " to " ++ sh r.ipRange.hi,
        by simp only [List.append_assoc]⟩, fun c hc => by cases hc; exact hn, .outside r.ipRange.lo r.ipRange.hi, rfl, ?_, a, rfl, hn⟩
      rw [h]
      exact inIP_noZone lo hi

/-- the texts of calls with an address of the range -/
theorem txt_in {r : IPTab R} (h : IInv lo hi r) {x : String} {a : Addr} (hp : parse x = some a) (ha : InIP lo hi a) :
    getTxt parse sh r x =
      (if (r.tab.m.get? (idxA lo a)).isNone then some (ascii "no entry found for: " ++ IdxTable.num (idxA lo a)) else none) ∧
    claimTxt parse sh r x =
      (if (r.tab.m.get? (idxA lo a)).isNone then none else some (ascii "claim failed ip " ++ bytes x ++ ascii " already claimed")) ∧
    releaseTxt parse sh r x = none ∧
    updateTxt parse sh r x =
      (if (r.tab.m.get? (idxA lo a)).isNone then some (ascii "update failed ip " ++ bytes x ++ ascii " not claimed") else none) := by
  have h1 : validateIPMsg parse sh r x = none := by
    rcases validateIPMsg_cases parse sh r x with ⟨m, e, _, h2⟩ | ⟨_, _, h1, _⟩
    · rw [validate_in h hp ha] at h2; cases h2
    · exact h1
  have e : indexOf parse r x = idxA lo a := by
    unfold indexOf; rw [hp, h.lo_eq]; rfl
  have h2 : IdxTable.validateMsg r.tab (idxA lo a) = none := (IdxTable.validateMsg_none ..).2 (h.validate ha)
  refine ⟨?_, ?_, ?_, ?_⟩
  · unfold getTxt IdxTable.getMsg
    rw [h1, e, h2]
    cases r.tab.m.get? (idxA lo a) <;> rfl
  · unfold claimTxt IdxTable.addMsg IdxTable.isFree IdxTable.isFreeB
    rw [h1, e, h2]
    cases r.tab.m.get? (idxA lo a) <;> rfl
  · unfold releaseTxt IdxTable.releaseMsg
    rw [h1, e, h2]
  · unfold updateTxt IdxTable.updateMsg IdxTable.isFree IdxTable.isFreeB
    rw [h1, e, h2]
    cases r.tab.m.get? (idxA lo a) <;> rfl

theorem txt_out {r : IPTab R} (h : r.ipRange = ipRangeFrom lo hi) {x : String} (hx : ∀ a, parse x = some a → ¬ InIP lo hi a) :
    ∃ m, validateIPMsg parse sh r x = some m ∧ getTxt parse sh r x = some m ∧ claimTxt parse sh r x = some m ∧
      releaseTxt parse sh r x = some m ∧ updateTxt parse sh r x = some m := by
  obtain ⟨e, he⟩ := validate_out h hx
  rcases validateIPMsg_cases parse sh r x with ⟨m, e, h1, h2⟩ | ⟨_, _, _, h2⟩
  · exact ⟨m, h1, by unfold getTxt; rw [h1], by unfold claimTxt; rw [h1], by unfold releaseTxt; rw [h1],
      by unfold updateTxt; rw [h1]⟩
  · rw [he] at h2; cases h2

theorem Reach.iinv (hs : MidRange lo hi) {r : IPTab R} (h : Reach parse lo hi r) : IInv lo hi r := by
  obtain ⟨cs, rfl⟩ := h
  have key : ∀ (cs : List (ICall R)) (r : IPTab R), IInv lo hi r → IInv lo hi (run parse r cs).1 := by
    intro cs
    induction cs with
    | nil => exact fun r h => h
    | cons c cs ih =>
      intro r h
      refine ih _ ?_
      cases c with
      | findFree | getAll | getByLabel _ => exact h
      | _ => exact (step_refines_explicit parse r h _ (by simp [Explicit])).2
  exact key cs _ (new_inv hs)

/-- **C109, partial** (IP table, ranges of fewer than `2^64` addresses; `s` are the routes that the specification reaches
by the same calls) The error texts of all calls are sentences that are true of the table. The number in the text of `Get`
for an address of the range is its distance from the first address. -/
theorem C109_ip_partial (hs : SmallRange lo hi) {cs : List (ICall R)} {r : IPTab R} {s : AMap R} (h : After parse lo hi cs r s)
    (x : String) (m : Text)
    (hm : getTxt parse sh r x = some m ∨ claimTxt parse sh r x = some m ∨ releaseTxt parse sh r x = some m ∨
      updateTxt parse sh r x = some m ∨ findFreeTxt r = some m) :
    ∃ σ, Says sh (bytes x) m σ ∧ σ.Holds lo hi s (parse x) := by
  obtain ⟨rfl, hi', _⟩ := h.abs hs
  by_cases hf : findFreeTxt r = some m
  · have hm : m = ascii "no free entry found" := (IdxTable.findFreeMsg_some hf).1
    subst hm
    refine ⟨.noFree, rfl, ?_⟩
    have : ∃ e, findFree r = .err e := by
      have h := IdxTable.findFreeMsg_none r.tab
      unfold findFree
      unfold findFreeTxt at hf
      cases he : IdxTable.findFree r.tab with
      | ok x => rw [h.2 ⟨x, he⟩] at hf; cases hf
      | error e => exact ⟨_, rfl⟩
    obtain ⟨e, he⟩ := this
    rcases findFree_spec hi' (mid_of_small hs).2 with ⟨a, _, h2⟩ | ⟨h1, _⟩
    · rw [he] at h2; cases h2
    · exact h1
  · rcases resolve_cases parse lo hi x with ⟨a, hp, ha⟩ | hx
    · obtain ⟨t1, t2, t3, t4⟩ := txt_in (sh := sh) hi' hp ha
      have habs := hi'.abs_in ha
      rcases hm with hm | hm | hm | hm | hm
      · rw [t1] at hm
        split at hm
        · rename_i hn
          cases hm
          have hidx := idxA_toNat hi'.small ha
          refine ⟨.notFound (idxA lo a).toNat, IdxTable.spells1' (numeral_num _), a, ha, by omega, ?_⟩
          rw [habs, Option.isNone_iff_eq_none.1 hn]; rfl
        · cases hm
      · rw [t2] at hm
        split at hm
        · cases hm
        · rename_i hn
          cases hm
          refine ⟨.claimed, rfl, a, hp, ?_⟩
          rw [habs]
          intro he
          rw [Option.map_eq_none_iff] at he
          rw [he] at hn
          exact hn rfl
      · rw [t3] at hm; cases hm
      · rw [t4] at hm
        split at hm
        · rename_i hn
          cases hm
          refine ⟨.notClaimed, rfl, a, hp, ha, ?_⟩
          rw [habs, Option.isNone_iff_eq_none.1 hn]; rfl
        · cases hm
      · exact absurd hm hf
    · obtain ⟨m', t0, t1, t2, t3, t4⟩ := txt_out (sh := sh) hi'.rng hx
      have : validateIPMsg parse sh r x = some m := by
        rw [t0, ← Option.some.injEq]
        rcases hm with hm | hm | hm | hm | hm
        · rw [← t1, hm]
        · rw [← t2, hm]
        · rw [← t3, hm]
        · rw [← t4, hm]
        · exact absurd hm hf
      exact (validateIPMsg_true hi'.rng _ this).2.2

/-- **C110, partial** (IP table, ranges of at most `2^64` addresses) The error texts of `Claim`, `Release` and `Update`
contain the text that was passed as address, and so do those of `Get` for what is not an address of the range. For addresses of
the range, the text of `Get` names the distance from the first address instead. -/
theorem C110_ip_partial (hs : MidRange lo hi) {r : IPTab R} (h : Reach parse lo hi r) (x : String) (m : Text) :
    (claimTxt parse sh r x = some m ∨ releaseTxt parse sh r x = some m ∨ updateTxt parse sh r x = some m → Contains m (bytes x)) ∧
    (getTxt parse sh r x = some m →
      (Contains m (bytes x) ∧ ∀ a, parse x = some a → ¬ InIP lo hi a) ∨
      ∃ a, parse x = some a ∧ InIP lo hi a ∧ ∀ n, IdxTable.Names m n ↔ n = num a - num lo) := by
  have hi' := h.iinv hs
  rcases resolve_cases parse lo hi x with ⟨a, hp, ha⟩ | hx
  · obtain ⟨t1, t2, t3, t4⟩ := txt_in (sh := sh) hi' hp ha
    refine ⟨?_, ?_⟩
    · rintro (hm | hm | hm)
      · rw [t2] at hm
        split at hm <;> cases hm
        exact ⟨_, _, rfl⟩
      · rw [t3] at hm; cases hm
      · rw [t4] at hm
        split at hm <;> cases hm
        exact ⟨_, _, rfl⟩
    · intro hm
      refine .inr ⟨a, hp, ha, fun n => ?_⟩
      rw [← (idxA_toNat hs ha).1]
      rw [t1] at hm
      split at hm <;> cases hm
      have := IdxTable.names_single (B := []) (A := ascii "no entry found for: ") (numeral_num (idxA lo a))
        (fun c hc => IdxTable.nonDigit_iff.1 (List.all_eq_true.1
          (show (ascii "no entry found for: ").all IdxTable.nonDigit = true by decide) c hc)) (by simp) n
      rwa [List.append_nil] at this
  · obtain ⟨m', t0, t1, t2, t3, t4⟩ := txt_out (sh := sh) hi'.rng hx
    have hc := (validateIPMsg_true hi'.rng (fun _ => none) t0).1
    refine ⟨?_, ?_⟩
    · rintro (hm | hm | hm)
      · rw [t2] at hm; cases hm; exact hc
      · rw [t3] at hm; cases hm; exact hc
      · rw [t4] at hm; cases hm; exact hc
    · intro hm
      rw [t1] at hm; cases hm
      exact .inl ⟨hc, hx⟩

/-- the example has texts -/
example : claimTxt exParse sh exI "10.0.0.0" = some (ascii "claim failed ip " ++ bytes "10.0.0.0" ++ ascii " already claimed") ∧
    getTxt exParse sh exI "::1" = some (ascii "ip address " ++ bytes "::1" ++ ascii ", does not fit in the range from " ++
      sh (.v4 0x0a000000) ++ ascii " to " ++ sh (.v4 0x0a000003)) := ⟨rfl, rfl⟩

/-- **C110, violated** (10.0.0.0-10.0.0.3) `Get("10.0.0.1")`, not claimed, fails with `no entry found for: 1`. -/
theorem C110_ip_violated : ∃ m, getTxt exParse sh exI "10.0.0.1" = some m ∧ m = ascii "no entry found for: " ++ IdxTable.num 1 ∧
    ¬ Contains m (bytes "10.0.0.1") := by
  refine ⟨_, rfl, rfl, ?_⟩
  rintro ⟨p, u, he⟩
  have hdot : (46 : UInt8) ∈ ascii "no entry found for: " ++ IdxTable.num 1 := by
    change ascii "no entry found for: " ++ IdxTable.num 1 = _ at he
    rw [he]
    exact List.mem_append_left _ (List.mem_append_right _ (by decide))
  rcases List.mem_append.1 hdot with h | h
  · revert h; decide
  · have := IdxTable.numeral_digits (numeral_num 1) _ h
    revert this
    unfold IdxTable.IsDigit
    decide

/-- **C109, violated** (IPv6 ranges of more than `2^64` addresses) After `Claim` of the first address of an empty table, `Claim` of
the address `2^64` higher fails, with a text that says that this address is claimed. -/
theorem C109_ip_violated {f t : BitVec 128} {z z' : String} (hbig : f.toNat + 2 ^ 64 ≤ t.toNat) {r : IPTab R}
    (h : Reach parse (.v6 f z) (.v6 t z') r) {x y : String} (hx : parse x = some (.v6 f ""))
    (hy : parse y = some (.v6 (f + 0x10000000000000000#128) "")) {d : R} (hc : (claim parse r x d).2 = .ok ()) :
    Addr.v6 f "" ≠ .v6 (f + 0x10000000000000000#128) "" ∧ isFree parse r y = true ∧
    claimTxt parse sh (claim parse r x d).1 y = some (ascii "claim failed ip " ++ bytes y ++ ascii " already claimed") := by
  obtain ⟨⟨hne, i1, i2⟩, _, _, hfree, _⟩ := C22_shared_slot_violated hbig h hx hy
  obtain ⟨hr, _⟩ := h.rng
  have ht := t.isLt
  have hadd : (f + 0x10000000000000000#128).toNat = f.toNat + 2 ^ 64 := by
    rw [BitVec.toNat_add, show BitVec.toNat 0x10000000000000000#128 = 2 ^ 64 by decide]; omega
  have v1 : validateIP parse r x = .ok (.v6 f "") := by
    unfold validateIP; rw [hx, hr]; simp only; rw [if_pos ((contains_iff _ _ _).2 i1)]
  have hidx : calculateIndex (.v6 f "") r.ipRange.lo =
      calculateIndex (.v6 (f + 0x10000000000000000#128) "") r.ipRange.lo := by
    rw [hr]
    show calculateIndex (.v6 f "") (.v6 f "") = calculateIndex (.v6 (f + 0x10000000000000000#128) "") (.v6 f "")
    unfold calculateIndex
    apply BitVec.eq_of_toNat_eq
    rw [BitVec.toNat_ofNat, BitVec.toNat_ofNat, ipToInt_v6, ipToInt_v6, hadd]
    omega
  have hx' : isFree parse r x = true := by
    unfold isFree
    rw [v1]
    dsimp only
    unfold claim at hc
    rw [v1] at hc
    dsimp only at hc
    split at hc
    · cases hc
    · rename_i hn; simpa using hn
  have hrng : (claim parse r x d).1.ipRange = r.ipRange := by
    unfold claim
    rw [v1]
    dsimp only
    split <;> rfl
  have hclaimed : IdxTable.isFree (claim parse r x d).1.tab (calculateIndex (.v6 f "") r.ipRange.lo) = false := by
    unfold claim at hc ⊢
    rw [v1] at hc ⊢
    dsimp only at hc ⊢
    split at hc
    · cases hc
    · rename_i hn
      rw [if_neg hn]
      have hb : IdxTable.isFreeB r.tab (calculateIndex (.v6 f "") r.ipRange.lo) = true := by
        unfold IdxTable.isFree at hn; simpa using hn
      unfold lift IdxTable.claim IdxTable.add at hc ⊢
      dsimp only at hc ⊢
      cases hv : IdxTable.validate r.tab (calculateIndex (.v6 f "") r.ipRange.lo) with
      | error e => rw [hv] at hc; cases hc
      | ok u =>
        simp only [hb, Bool.not_true, Bool.false_eq_true, if_false]
        unfold IdxTable.isFree IdxTable.isFreeB
        simp [GoMap.get?_set]
  refine ⟨hne, by rw [← hfree]; exact hx', ?_⟩
  have v2 : validateIPMsg parse sh (claim parse r x d).1 y = none := by
    unfold validateIPMsg
    rw [hy, hrng, hr]
    exact if_pos ((contains_iff _ _ _).2 i2)
  have e2 : indexOf parse (claim parse r x d).1 y = calculateIndex (.v6 f "") r.ipRange.lo := by
    unfold indexOf; rw [hy, hrng, hidx]; rfl
  unfold claimTxt
  rw [v2, e2, hclaimed]
  rfl

/-- **C109, violated** (IPv6 ranges of exactly `2^64` addresses) `FindFree` says that there is no free address in every state. -/
theorem C109_slash64_violated {f t : BitVec 128} {z z' : String} (h64 : t.toNat = f.toNat + (2 ^ 64 - 1)) {r : IPTab R}
    (h : Reach parse (.v6 f z) (.v6 t z') r) : findFreeTxt r = some (ascii "no free entry found") := by
  obtain ⟨e, he⟩ := C65_slash64_findFree_violated h64 h
  have h := IdxTable.findFreeMsg_none r.tab
  unfold findFreeTxt
  cases hm : IdxTable.findFreeMsg r.tab with
  | none =>
    obtain ⟨x, hx⟩ := h.1 hm
    unfold findFree at he
    rw [hx] at he
    dsimp only at he
    split at he <;> cases he
  | some m => rw [(IdxTable.findFreeMsg_some hm).1]

end Verif.IPTable
