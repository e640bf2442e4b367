import Verif.IdxTable.HistProps
import Verif.Ranged.Props

/-! C96 and C97 for the ranged tables. -/

namespace Verif.Ranged
open Verif.IdxTable (U64 Same)
variable {P : Width} {L : Type}

/-- no sequence of calls tells the two tables apart -/
def Alike (r₁ r₂ : RTable P L) : Prop := ∀ cs : List (RCall L), (run r₁ cs).2 = (run r₂ cs).2

/-- same range, same contents -/
structure RSame (r₁ r₂ : RTable P L) : Prop where
  tab : Same r₁.tab r₂.tab
  start : r₁.start = r₂.start
  stop : r₁.stop = r₂.stop

theorem RSame.validateID {r₁ r₂ : RTable P L} (h : RSame r₁ r₂) (id : U64) : validateID r₁ id = validateID r₂ id := by
  unfold Ranged.validateID; rw [h.start, h.stop]

theorem RSame.lift {r₁ r₂ : RTable P L} (h : RSame r₁ r₂) {p₁ p₂ : IdxTable.Table (TEntry L) × Except IdxTable.Err Unit}
    (h1 : Same p₁.1 p₂.1) (h2 : p₁.2 = p₂.2) : RSame (lift r₁ p₁).1 (lift r₂ p₂).1 ∧ (lift r₁ p₁).2 = (lift r₂ p₂).2 := by
  unfold Ranged.lift
  rw [h2]
  exact ⟨⟨h1, h.start, h.stop⟩, rfl⟩

theorem RSame.claim {r₁ r₂ : RTable P L} (h : RSame r₁ r₂) (id : U64) (l : L) :
    RSame (claim r₁ id l).1 (claim r₂ id l).1 ∧ (claim r₁ id l).2 = (claim r₂ id l).2 := by
  unfold Ranged.claim
  rw [h.validateID, h.start]
  have hf : ∀ k, IdxTable.isFree r₁.tab k = IdxTable.isFree r₂.tab k := h.tab.isFreeB
  split
  · exact ⟨h, rfl⟩
  · simp only [hf]
    split
    · exact ⟨h, rfl⟩
    · exact h.lift (h.tab.add _).1 (h.tab.add _).2

theorem RSame.findFree {r₁ r₂ : RTable P L} (h : RSame r₁ r₂) : findFree r₁ = findFree r₂ := by
  unfold Ranged.findFree; rw [h.tab.findFree, h.start]

theorem RSame.outEntry {r₁ r₂ : RTable P L} (h : RSame r₁ r₂) : outEntry r₁ = outEntry r₂ := by
  funext idx l
  unfold Ranged.outEntry; rw [h.start]

theorem RSame.getAllLoop {r₁ r₂ : RTable P L} (h : RSame r₁ r₂) : ∀ es, getAllLoop r₁ es = getAllLoop r₂ es
  | [] => rfl
  | none :: _ => rfl
  | some e :: es => by unfold Ranged.getAllLoop; rw [h.getAllLoop es, h.outEntry]

theorem RSame.getByLabelLoop {r₁ r₂ : RTable P L} (h : RSame r₁ r₂) (sel : L → Bool) :
    ∀ es, getByLabelLoop r₁ sel es = getByLabelLoop r₂ sel es
  | [] => rfl
  | none :: _ => rfl
  | some e :: es => by unfold Ranged.getByLabelLoop; rw [h.getByLabelLoop sel es, h.outEntry]

theorem RSame.step {r₁ r₂ : RTable P L} (h : RSame r₁ r₂) (c : RCall L) :
    RSame (step r₁ c).1 (step r₂ c).1 ∧ (step r₁ c).2 = (step r₂ c).2 := by
  cases c with
  | get id => exact ⟨h, by simp only [Ranged.step, Ranged.get, h.validateID, h.start, h.tab.getE]⟩
  | claim id l => exact ⟨(h.claim id l).1, congrArg replyUnit (h.claim id l).2⟩
  | claimFree l =>
    simp only [Ranged.step, claimFree]
    rw [h.findFree]
    split
    · exact ⟨h, rfl⟩
    · rename_i id _
      obtain ⟨h1, h2⟩ := h.claim id l
      revert h1 h2
      generalize Ranged.claim r₁ id l = p₁
      generalize Ranged.claim r₂ id l = p₂
      obtain ⟨u₁, q₁⟩ := p₁
      obtain ⟨u₂, q₂⟩ := p₂
      rintro h1 h2
      simp only at h1 h2
      subst h2
      cases q₁ <;> exact ⟨h1, rfl⟩
  | release id =>
    simp only [Ranged.step, release]
    rw [h.validateID, h.start]
    split
    · exact ⟨h, rfl⟩
    · obtain ⟨h1, h2⟩ := h.lift (h.tab.delete _).1 (h.tab.delete _).2
      exact ⟨h1, congrArg replyUnit h2⟩
  | update id l =>
    simp only [Ranged.step, update]
    rw [h.validateID, h.start]
    split
    · exact ⟨h, rfl⟩
    · obtain ⟨h1, h2⟩ := h.lift (h.tab.updateE _).1 (h.tab.updateE _).2
      exact ⟨h1, congrArg replyUnit h2⟩
  | size => exact ⟨h, congrArg RReply.nat h.tab.sizeOf⟩
  | has id =>
    refine ⟨h, congrArg RReply.bool ?_⟩
    unfold Ranged.has IdxTable.has
    rw [h.validateID, h.start]
    simp only [h.tab.get]
  | isFree id =>
    refine ⟨h, congrArg RReply.bool ?_⟩
    unfold Ranged.isFree IdxTable.isFree IdxTable.isFreeB
    rw [h.validateID, h.start]
    simp only [h.tab.get]
  | findFree => exact ⟨h, by simp only [Ranged.step, h.findFree]⟩
  | getAll =>
    refine ⟨h, congrArg replyEntries ?_⟩
    unfold Ranged.getAll
    rw [h.tab.getAll, h.getAllLoop]
  | getByLabel sel =>
    refine ⟨h, congrArg replyEntries ?_⟩
    unfold Ranged.getByLabel
    rw [h.tab.getAll, h.getByLabelLoop]

theorem RSame.alike {r₁ r₂ : RTable P L} (h : RSame r₁ r₂) : Alike r₁ r₂ := by
  intro cs
  induction cs generalizing r₁ r₂ with
  | nil => rfl
  | cons c cs ih =>
    obtain ⟨h1, h2⟩ := h.step c
    simp only [run]
    rw [h2, ih h1]

/-! ## what is stored can be read -/

/-- the range and the size are those of `r₀`, and what is stored is what `Claim` and `Update` store under ids of the range -/
structure HInv (r₀ r : RTable P L) : Prop where
  start : r.start = r₀.start
  stop : r.stop = r₀.stop
  size : r.tab.size = r₀.tab.size
  stored : ∀ k e, r.tab.m.get? k = some e → IdxTable.validate r₀.tab k = .ok () ∧
    (∃ id, validateID r₀ id = .ok () ∧ calculateIndex (id.setWidth P.W) r₀.start = k) ∧ ∃ l, e = ⟨k, storedEntry P k l⟩

theorem HInv.set {r₀ r : RTable P L} (h : HInv r₀ r) {id k : U64} {l : L} (hk : k = calculateIndex (id.setWidth P.W) r.start)
    (hi : validateID r id = .ok ()) (hv : IdxTable.validate r.tab k = .ok ()) :
    HInv r₀ { r with tab := { r.tab with m := r.tab.m.set k ⟨k, storedEntry P k l⟩ } } := by
  refine ⟨h.start, h.stop, h.size, fun k' e he => ?_⟩
  simp only [GoMap.get?_set] at he
  split at he
  · rename_i hk'
    cases he
    subst hk'
    refine ⟨?_, ⟨id, ?_, ?_⟩, l, rfl⟩
    · unfold IdxTable.validate at hv ⊢; rw [← h.size]; exact hv
    · unfold validateID at hi ⊢; rw [← h.start, ← h.stop]; exact hi
    · rw [hk, h.start]
  · exact h.stored k' e he

theorem HInv.claim {r₀ r : RTable P L} (h : HInv r₀ r) (id : U64) (l : L) : HInv r₀ (claim r id l).1 := by
  unfold Ranged.claim
  cases hi : validateID r id with
  | error => exact h
  | ok u =>
    simp only
    split
    · exact h
    · unfold Ranged.lift IdxTable.claim IdxTable.add
      simp only
      cases hv : IdxTable.validate r.tab (calculateIndex (id.setWidth P.W) r.start) with
      | error => exact h
      | ok u =>
        simp only
        split
        · exact h
        · exact h.set rfl hi hv

theorem HInv.step {r₀ r : RTable P L} (h : HInv r₀ r) (c : RCall L) : HInv r₀ (step r c).1 := by
  cases c with
  | claim id l => exact h.claim id l
  | claimFree l =>
    simp only [Ranged.step, claimFree]
    split
    · exact h
    · rename_i id _
      have := h.claim id l
      split
      · rename_i he; rw [he] at this; exact this
      · rename_i he; rw [he] at this; exact this
  | release id =>
    simp only [Ranged.step, release]
    split
    · exact h
    · unfold Ranged.lift IdxTable.release IdxTable.delete
      simp only
      split
      · exact h
      · refine ⟨h.start, h.stop, h.size, fun k' e he => ?_⟩
        simp only [GoMap.get?_del] at he
        split at he
        · cases he
        · exact h.stored k' e he
  | update id l =>
    simp only [Ranged.step, update]
    cases hi : validateID r id with
    | error => exact h
    | ok u =>
      unfold Ranged.lift IdxTable.update IdxTable.updateE
      simp only
      cases hv : IdxTable.validate r.tab (calculateIndex (id.setWidth P.W) r.start) with
      | error => exact h
      | ok u =>
        simp only
        split
        · exact h
        · exact h.set rfl hi hv
  | _ => exact h

theorem run_hinv {r₀ : RTable P L} (cs : List (RCall L)) : ∀ {r}, HInv r₀ r → HInv r₀ (run r cs).1 := by
  induction cs with
  | nil => exact fun h => h
  | cons c cs ih => exact fun h => ih (h.step c)

theorem new_hinv (start stop : BitVec P.W) : HInv (new start stop : RTable P L) (new start stop) :=
  ⟨rfl, rfl, rfl, fun k e he => by cases he⟩

theorem get_reply {r₀ r : RTable P L} (h : HInv r₀ r) {id : U64} (hi : validateID r₀ id = .ok ())
    (hv : IdxTable.validate r₀.tab (calculateIndex (id.setWidth P.W) r₀.start) = .ok ()) {l : L} :
    (step r (.get id)).2 = .labels l ↔ ∃ e, r.tab.m.get? (calculateIndex (id.setWidth P.W) r₀.start) = some e ∧ e.data.labels = l := by
  have hi' : validateID r id = .ok () := by
    unfold validateID at hi ⊢; rw [h.start, h.stop]; exact hi
  have hv' : IdxTable.validate r.tab (calculateIndex (id.setWidth P.W) r₀.start) = .ok () := by
    unfold IdxTable.validate at hv ⊢; rw [h.size]; exact hv
  simp only [Ranged.step, Ranged.get, IdxTable.get, hi', h.start, hv']
  rcases Option.eq_none_or_eq_some (r.tab.m.get? (calculateIndex (id.setWidth P.W) r₀.start)) with hk | ⟨e, hk⟩
  · simp [hk]
  · simp [hk]

/-- C96 for the ranged tables: two tables of the same range, whatever it is, reached by any two histories, whose `Get`
replies are the same for all ids, give the same replies to all sequences of calls. -/
theorem C96_ranged (start stop : BitVec P.W) (cs₁ cs₂ : List (RCall L))
    (hget : ∀ id, (step (run (new start stop : RTable P L) cs₁).1 (.get id)).2 =
      (step (run (new start stop) cs₂).1 (.get id)).2) :
    Alike (run (new start stop : RTable P L) cs₁).1 (run (new start stop) cs₂).1 := by
  have i1 := run_hinv cs₁ (new_hinv (L := L) start stop)
  have i2 := run_hinv cs₂ (new_hinv (L := L) start stop)
  have half : ∀ {r r' : RTable P L}, HInv (new start stop) r → HInv (new start stop) r' →
      (∀ id, (step r (.get id)).2 = (step r' (.get id)).2) → ∀ k e, r.tab.m.get? k = some e → r'.tab.m.get? k = some e := by
    intro r r' h h' hg k e he
    obtain ⟨hv, ⟨id, hi, rfl⟩, l, rfl⟩ := h.stored k e he
    have := (get_reply h hi hv (l := l)).2 ⟨_, he, rfl⟩
    rw [hg] at this
    obtain ⟨e', he', hl⟩ := (get_reply h' hi hv).1 this
    obtain ⟨_, _, l', rfl⟩ := h'.stored _ _ he'
    have hll : l' = l := hl
    rw [he', hll]
  exact RSame.alike ⟨⟨i1.size.trans i2.size.symm, fun k => Option.ext fun e =>
    ⟨half i1 i2 hget k e, half i2 i1 (fun id => (hget id).symm) k e⟩⟩, i1.start.trans i2.start.symm, i1.stop.trans i2.stop.symm⟩

/-- the range 10..20 of table16, two histories with the same result: the hypothesis of `C96_ranged` -/
example : ∀ id, (step (run (new 10 20 : RTable w16 Bool) [.claim 11 true, .claim 15 false]).1 (.get id)).2 =
    (step (run (new 10 20 : RTable w16 Bool) [.claim 10 true, .claim 15 true, .claim 11 true, .update 15 false, .release 10]).1 (.get id)).2 := by
  intro id
  have key : ∀ r₁ r₂ : RTable w16 Bool, r₁.start = r₂.start → r₁.stop = r₂.stop → r₁.tab.size = r₂.tab.size →
      (∀ k, r₁.tab.m.get? k = r₂.tab.m.get? k) → (step r₁ (.get id)).2 = (step r₂ (.get id)).2 :=
    fun r₁ r₂ h1 h2 h3 h4 => (RSame.step ⟨⟨h3, h4⟩, h1, h2⟩ (.get id)).2
  refine key _ _ rfl rfl rfl fun k => ?_
  show Option.map Prod.snd (List.find? (fun p => p.1 = k) [((1 : U64), (⟨1, ⟨1, 16, true⟩⟩ : IdxTable.Entry (TEntry Bool))), (5, ⟨5, ⟨5, 16, false⟩⟩)]) =
    Option.map Prod.snd (List.find? (fun p => p.1 = k) [((5 : U64), (⟨5, ⟨5, 16, false⟩⟩ : IdxTable.Entry (TEntry Bool))), (1, ⟨1, ⟨1, 16, true⟩⟩)])
  by_cases h1 : k = 1
  · subst h1; rfl
  · by_cases h5 : k = 5
    · subst h5; rfl
    · have e1 : ¬ (1 : U64) = k := fun h => h1 h.symm
      have e5 : ¬ (5 : U64) = k := fun h => h5 h.symm
      simp only [List.find?_cons, e1, e5, decide_false]

/-! ## C97 -/

/-- the id that a call is about -/
def RCall.about : RCall L → Option U64
  | .get id | .claim id _ | .release id | .update id _ | .has id | .isFree id => some id
  | _ => none

/-- the call of the index table about `k` that a call of a ranged table makes -/
def RCall.idx (P : Width) (k : U64) : RCall L → IdxTable.Call (TEntry L)
  | .get _ => .get k
  | .claim _ l => .claim k (storedEntry P k l)
  | .release _ => .release k
  | .update _ l => .update k (storedEntry P k l)
  | .has _ => .has k
  | _ => .isFree k

/-- the reply if the id is not in the range -/
def RCall.refused : RCall L → RReply L
  | .has _ | .isFree _ => .bool false
  | _ => .err

/-- the reply, from that of the index table -/
def fromIdx : IdxTable.Reply (TEntry L) → RReply L
  | .ok => .ok
  | .entry e => .labels e.data.labels
  | .bool b => .bool b
  | _ => .err

theorem about_out {c : RCall L} {id : U64} (hc : c.about = some id) (r : RTable P L) (hi : validateID r id ≠ .ok ()) :
    step r c = (r, c.refused) := by
  cases hv : validateID r id with
  | ok => exact absurd hv hi
  | error e =>
    cases c <;> cases hc <;> simp [step, get, claim, release, update, has, isFree, hv, replyUnit, RCall.refused]

theorem about_in {c : RCall L} {id : U64} (hc : c.about = some id) (r : RTable P L) (hi : validateID r id = .ok ()) :
    (c.idx P (calculateIndex (id.setWidth P.W) r.start)).about = some (calculateIndex (id.setWidth P.W) r.start) ∧
    (step r c).2 = fromIdx (IdxTable.step r.tab (c.idx P (calculateIndex (id.setWidth P.W) r.start))).2 ∧
    (step r c).1 = { r with tab := (IdxTable.step r.tab (c.idx P (calculateIndex (id.setWidth P.W) r.start))).1 } := by
  have rep : ∀ x : Except IdxTable.Err Unit, (replyUnit (match x with | .ok () => .ok () | .error e => .error (.idx e)) : RReply L) =
      fromIdx (IdxTable.replyUnit x) := by
    intro x; rcases x with _ | ⟨⟨⟩⟩ <;> rfl
  cases c with
  | get id' =>
    cases hc
    refine ⟨rfl, ?_, rfl⟩
    simp only [step, get, hi, RCall.idx, IdxTable.step]
    cases IdxTable.get r.tab (calculateIndex (id.setWidth P.W) r.start) <;> rfl
  | claim id' l =>
    cases hc
    refine ⟨rfl, ?_⟩
    simp only [step, claim, hi, RCall.idx, IdxTable.step]
    cases hf : IdxTable.isFree r.tab (calculateIndex (id.setWidth P.W) r.start) with
    | true => exact ⟨rep _, rfl⟩
    | false =>
      have hf' : IdxTable.isFreeB r.tab (calculateIndex (id.setWidth P.W) r.start) = false := hf
      simp only [IdxTable.claim, IdxTable.add, hf']
      cases IdxTable.validate r.tab (calculateIndex (id.setWidth P.W) r.start) <;> exact ⟨rfl, rfl⟩
  | release id' =>
    cases hc
    refine ⟨rfl, ?_⟩
    simp only [step, release, hi, RCall.idx, IdxTable.step]
    exact ⟨rep _, rfl⟩
  | update id' l =>
    cases hc
    refine ⟨rfl, ?_⟩
    simp only [step, update, hi, RCall.idx, IdxTable.step]
    exact ⟨rep _, rfl⟩
  | has id' =>
    cases hc
    exact ⟨rfl, by simp [step, has, hi, RCall.idx, IdxTable.step, fromIdx], rfl⟩
  | isFree id' =>
    cases hc
    exact ⟨rfl, by simp [step, isFree, hi, RCall.idx, IdxTable.step, fromIdx], rfl⟩
  | _ => cases hc

/-- different ids of the range have different indices -/
theorem index_ne (hP : IsPkg P) {r : RTable P L} {i j : U64} (hi : validateID r i = .ok ()) (hj : validateID r j = .ok ())
    (hne : i ≠ j) : calculateIndex (i.setWidth P.W) r.start ≠ calculateIndex (j.setWidth P.W) r.start := by
  intro h
  have h1 := (validateID_iff hP.good r i).1 hi
  have h2 := (validateID_iff hP.good r j).1 hj
  have h' := congrArg BitVec.toNat h
  rw [index_toNat hP.good r.start r.stop i h1, index_toNat hP.good r.start r.stop j h2] at h'
  unfold InR at h1 h2
  exact hne (BitVec.eq_of_toNat_eq (by omega))

/-- C97 for the ranged tables: calls about two different ids have the same replies in either order, and no later call
tells the difference. -/
theorem C97_ranged_commute (hP : IsPkg P) (r : RTable P L) {c₁ c₂ : RCall L} {i j : U64} (h₁ : c₁.about = some i)
    (h₂ : c₂.about = some j) (hne : i ≠ j) :
    (step (step r c₁).1 c₂).2 = (step r c₂).2 ∧ (step (step r c₂).1 c₁).2 = (step r c₁).2 ∧
    Alike (step (step r c₁).1 c₂).1 (step (step r c₂).1 c₁).1 := by
  by_cases hi : validateID r i = .ok ()
  · by_cases hj : validateID r j = .ok ()
    · obtain ⟨a0, a1, a2⟩ := about_in h₁ r hi
      obtain ⟨b0, b1, b2⟩ := about_in h₂ r hj
      obtain ⟨_, c1, c2⟩ := about_in h₂ (step r c₁).1 (by rw [a2]; exact hj)
      obtain ⟨_, d1, d2⟩ := about_in h₁ (step r c₂).1 (by rw [b2]; exact hi)
      obtain ⟨e1, e2, e3⟩ := IdxTable.commute_same r.tab a0 b0 (index_ne hP hi hj hne)
      rw [c1, d1, c2, d2, a2, b2, a1, b1]
      exact ⟨congrArg fromIdx e1, congrArg fromIdx e2, RSame.alike ⟨e3, rfl, rfl⟩⟩
    · have h1 := about_out h₂ r hj
      have h2 : step (step r c₁).1 c₂ = ((step r c₁).1, c₂.refused) := by
        apply about_out h₂
        rw [(about_in h₁ r hi).2.2]; exact hj
      rw [h1, h2]
      exact ⟨rfl, rfl, fun _ => rfl⟩
  · have h1 := about_out h₁ r hi
    rw [h1]
    by_cases hj : validateID r j = .ok ()
    · have h2 : step (step r c₂).1 c₁ = ((step r c₂).1, c₁.refused) := by
        apply about_out h₁
        rw [(about_in h₂ r hj).2.2]; exact hi
      rw [h2]
      exact ⟨rfl, rfl, fun _ => rfl⟩
    · rw [about_out h₂ r hj, h1]
      exact ⟨rfl, rfl, fun _ => rfl⟩

/-- C97 for the ranged tables: releasing what was just claimed undoes the claim. -/
theorem C97_ranged_undo (r : RTable P L) (id : U64) (l : L) (h : (step r (.claim id l)).2 = .ok) :
    (step (step r (.claim id l)).1 (.release id)).2 = .ok ∧ Alike (step (step r (.claim id l)).1 (.release id)).1 r := by
  by_cases hi : validateID r id = .ok ()
  · obtain ⟨_, a1, a2⟩ := about_in (c := .claim id l) rfl r hi
    obtain ⟨_, b1, b2⟩ := about_in (c := .release id) rfl (step r (.claim id l)).1 (by rw [a2]; exact hi)
    rw [a1] at h
    rw [b1, b2, a2]
    have h' : (IdxTable.step r.tab ((RCall.claim id l).idx P (calculateIndex (id.setWidth P.W) r.start))).2 = .ok := by
      cases hx : (IdxTable.step r.tab ((RCall.claim id l).idx P (calculateIndex (id.setWidth P.W) r.start))).2 <;>
        rw [hx] at h <;> first | rfl | cases h
    obtain ⟨e1, e2⟩ := IdxTable.undo_same r.tab _ _ h'
    exact ⟨congrArg fromIdx e1, RSame.alike ⟨e2, rfl, rfl⟩⟩
  · rw [about_out (c := .claim id l) rfl r hi] at h
    cases h

/-- the hypotheses of C97 -/
example : (RCall.claim 12 true).about = some 12 ∧ (RCall.claim 13 true).about = some 13 ∧
    (step (run (new 10 20 : RTable w16 Bool) [.claim 11 true]).1 (.claim 12 true)).2 = .ok := ⟨rfl, rfl, rfl⟩

end Verif.Ranged
