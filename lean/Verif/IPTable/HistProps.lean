import Verif.IdxTable.HistProps
import Verif.IPTable.Props

/-! C96 and C97 for the IP table. -/

namespace Verif.IPTable
open Verif.IdxTable (U64 Same)
variable {R : Type} {parse : String → Option Addr}

/-- no sequence of calls tells the two tables apart -/
def Alike (parse : String → Option Addr) (r₁ r₂ : IPTab R) : Prop :=
  ∀ cs : List (ICall R), (run parse r₁ cs).2 = (run parse r₂ cs).2

/-- same range, same contents -/
structure ISame (r₁ r₂ : IPTab R) : Prop where
  tab : Same r₁.tab r₂.tab
  rng : r₁.ipRange = r₂.ipRange

theorem ISame.validateIP {r₁ r₂ : IPTab R} (h : ISame r₁ r₂) (x : String) : validateIP parse r₁ x = validateIP parse r₂ x := by
  unfold IPTable.validateIP; rw [h.rng]

theorem ISame.lift {r₁ r₂ : IPTab R} (h : ISame r₁ r₂) {p₁ p₂ : IdxTable.Table R × Except IdxTable.Err Unit}
    (h1 : Same p₁.1 p₂.1) (h2 : p₁.2 = p₂.2) : ISame (lift r₁ p₁).1 (lift r₂ p₂).1 ∧ (lift r₁ p₁).2 = (lift r₂ p₂).2 := by
  unfold IPTable.lift
  rw [h2]
  exact ⟨⟨h1, h.rng⟩, rfl⟩

theorem ISame.step {r₁ r₂ : IPTab R} (h : ISame r₁ r₂) (c : ICall R) :
    ISame (step parse r₁ c).1 (step parse r₂ c).1 ∧ (step parse r₁ c).2 = (step parse r₂ c).2 := by
  have hf : ∀ k, IdxTable.isFree r₁.tab k = IdxTable.isFree r₂.tab k := h.tab.isFreeB
  cases c with
  | get x => exact ⟨h, by simp only [IPTable.step, IPTable.get, h.validateIP, h.rng, h.tab.getE]⟩
  | claim x d =>
    simp only [IPTable.step, claim]
    rw [h.validateIP, h.rng]
    split
    · exact ⟨h, rfl⟩
    · simp only [hf]
      split
      · exact ⟨h, rfl⟩
      · obtain ⟨h1, h2⟩ := h.lift (h.tab.add _).1 (h.tab.add _).2
        exact ⟨h1, congrArg replyUnit h2⟩
  | release x =>
    simp only [IPTable.step, release]
    rw [h.validateIP, h.rng]
    split
    · exact ⟨h, rfl⟩
    · obtain ⟨h1, h2⟩ := h.lift (h.tab.delete _).1 (h.tab.delete _).2
      exact ⟨h1, congrArg replyUnit h2⟩
  | update x d =>
    simp only [IPTable.step, update]
    rw [h.validateIP, h.rng]
    split
    · exact ⟨h, rfl⟩
    · simp only [hf]
      split
      · exact ⟨h, rfl⟩
      · obtain ⟨h1, h2⟩ := h.lift (h.tab.updateE _).1 (h.tab.updateE _).2
        exact ⟨h1, congrArg replyUnit h2⟩
  | size => exact ⟨h, congrArg IReply.nat h.tab.sizeOf⟩
  | has x =>
    refine ⟨h, congrArg IReply.bool ?_⟩
    unfold IPTable.has IdxTable.has
    rw [h.validateIP, h.rng]
    simp only [h.tab.get]
  | isFree x =>
    refine ⟨h, congrArg IReply.bool ?_⟩
    unfold IPTable.isFree
    rw [h.validateIP, h.rng]
    simp only [hf]
  | findFree => exact ⟨h, by simp only [IPTable.step, findFree, h.tab.findFree, h.rng]⟩
  | getAll => exact ⟨h, by simp only [IPTable.step, getAll, h.tab.getAll]⟩
  | getByLabel sel => exact ⟨h, by simp only [IPTable.step, getByLabel, h.tab.getAll]⟩

theorem ISame.alike {r₁ r₂ : IPTab R} (h : ISame r₁ r₂) : Alike parse r₁ r₂ := by
  intro cs
  induction cs generalizing r₁ r₂ with
  | nil => rfl
  | cons c cs ih =>
    obtain ⟨h1, h2⟩ := h.step (parse := parse) c
    simp only [run]
    rw [h2, ih h1]

/-! ## calls about one address -/

/-- the address that a call is about, as text -/
def ICall.about : ICall R → Option String
  | .get x | .claim x _ | .release x | .update x _ | .has x | .isFree x => some x
  | _ => none

/-- the call of the index table about `k` that a call of the IP table makes -/
def ICall.idx (k : U64) : ICall R → IdxTable.Call R
  | .get _ => .get k
  | .claim _ d => .claim k d
  | .release _ => .release k
  | .update _ d => .update k d
  | .has _ => .has k
  | _ => .isFree k

/-- the reply if the address is not in the range -/
def ICall.refused : ICall R → IReply R
  | .has _ | .isFree _ => .bool false
  | _ => .err

/-- the reply, from that of the index table -/
def fromIdx : IdxTable.Reply R → IReply R
  | .ok => .ok
  | .entry e => .route e.data
  | .bool b => .bool b
  | _ => .err

theorem about_out {c : ICall R} {x : String} (hc : c.about = some x) (r : IPTab R) (hi : ∀ ip, validateIP parse r x ≠ .ok ip) :
    step parse r c = (r, c.refused) := by
  cases hv : validateIP parse r x with
  | ok ip => exact absurd hv (hi ip)
  | error e =>
    cases c <;> cases hc <;> simp [step, get, claim, release, update, has, isFree, hv, replyUnit, ICall.refused]

theorem about_in {c : ICall R} {x : String} (hc : c.about = some x) (r : IPTab R) {ip : Addr} (hi : validateIP parse r x = .ok ip) :
    (c.idx (calculateIndex ip r.ipRange.lo)).about = some (calculateIndex ip r.ipRange.lo) ∧
    (step parse r c).2 = fromIdx (IdxTable.step r.tab (c.idx (calculateIndex ip r.ipRange.lo))).2 ∧
    (step parse r c).1 = { r with tab := (IdxTable.step r.tab (c.idx (calculateIndex ip r.ipRange.lo))).1 } := by
  have rep : ∀ x : Except IdxTable.Err Unit, (replyUnit (match x with | .ok () => .ok () | .error e => .error (.idx e)) : IReply R) =
      fromIdx (IdxTable.replyUnit x) := by
    intro x; rcases x with _ | ⟨⟨⟩⟩ <;> rfl
  cases c with
  | get id' =>
    cases hc
    refine ⟨rfl, ?_, rfl⟩
    simp only [step, get, hi, ICall.idx, IdxTable.step]
    cases IdxTable.get r.tab (calculateIndex ip r.ipRange.lo) <;> rfl
  | claim id' l =>
    cases hc
    refine ⟨rfl, ?_⟩
    simp only [step, claim, hi, ICall.idx, IdxTable.step]
    cases hf : IdxTable.isFree r.tab (calculateIndex ip r.ipRange.lo) with
    | true => exact ⟨rep _, rfl⟩
    | false =>
      have hf' : IdxTable.isFreeB r.tab (calculateIndex ip r.ipRange.lo) = false := hf
      simp only [IdxTable.claim, IdxTable.add, hf']
      cases IdxTable.validate r.tab (calculateIndex ip r.ipRange.lo) <;> exact ⟨rfl, rfl⟩
  | release id' =>
    cases hc
    refine ⟨rfl, ?_⟩
    simp only [step, release, hi, ICall.idx, IdxTable.step]
    exact ⟨rep _, rfl⟩
  | update id' l =>
    cases hc
    refine ⟨rfl, ?_⟩
    simp only [step, update, hi, ICall.idx, IdxTable.step]
    cases hf : IdxTable.isFree r.tab (calculateIndex ip r.ipRange.lo) with
    | false => exact ⟨rep _, rfl⟩
    | true =>
      have hf' : IdxTable.isFreeB r.tab (calculateIndex ip r.ipRange.lo) = true := hf
      simp only [IdxTable.update, IdxTable.updateE, hf']
      cases IdxTable.validate r.tab (calculateIndex ip r.ipRange.lo) <;> exact ⟨rfl, rfl⟩
  | has id' =>
    cases hc
    exact ⟨rfl, by simp [step, has, hi, ICall.idx, IdxTable.step, fromIdx], rfl⟩
  | isFree id' =>
    cases hc
    exact ⟨rfl, by simp [step, isFree, hi, ICall.idx, IdxTable.step, fromIdx], rfl⟩
  | _ => cases hc

/-! ## what is stored can be read -/

/-- the range and the size are those of `r₀`, and what is stored is stored under an address of the range -/
structure HInv (parse : String → Option Addr) (r₀ r : IPTab R) : Prop where
  rng : r.ipRange = r₀.ipRange
  size : r.tab.size = r₀.tab.size
  stored : ∀ k e, r.tab.m.get? k = some e → IdxTable.validate r₀.tab k = .ok () ∧
    (∃ x ip, validateIP parse r₀ x = .ok ip ∧ calculateIndex ip r₀.ipRange.lo = k) ∧ e.id = k

theorem HInv.step {r₀ r : IPTab R} (h : HInv parse r₀ r) (c : ICall R) : HInv parse r₀ (step parse r c).1 := by
  have hset : ∀ {x : String} {ip : Addr} {d : R}, validateIP parse r x = .ok ip →
      IdxTable.validate r.tab (calculateIndex ip r.ipRange.lo) = .ok () →
      HInv parse r₀ { r with tab := { r.tab with m := r.tab.m.set (calculateIndex ip r.ipRange.lo) ⟨calculateIndex ip r.ipRange.lo, d⟩ } } := by
    intro x ip d hi hv
    refine ⟨h.rng, h.size, fun k' e he => ?_⟩
    simp only [GoMap.get?_set] at he
    split at he
    · rename_i hk'
      cases he
      subst hk'
      refine ⟨?_, ⟨x, ip, ?_, ?_⟩, rfl⟩
      · unfold IdxTable.validate at hv ⊢; rw [← h.size]; exact hv
      · unfold validateIP at hi ⊢; rw [← h.rng]; exact hi
      · rw [h.rng]
    · exact h.stored k' e he
  cases c with
  | claim x d =>
    simp only [IPTable.step, claim]
    cases hi : validateIP parse r x with
    | error => exact h
    | ok ip =>
      simp only
      split
      · exact h
      · unfold IPTable.lift IdxTable.claim IdxTable.add
        simp only
        cases hv : IdxTable.validate r.tab (calculateIndex ip r.ipRange.lo) with
        | error => exact h
        | ok u =>
          simp only
          split
          · exact h
          · exact hset hi hv
  | release x =>
    simp only [IPTable.step, release]
    split
    · exact h
    · unfold IPTable.lift IdxTable.release IdxTable.delete
      simp only
      split
      · exact h
      · refine ⟨h.rng, h.size, fun k' e he => ?_⟩
        simp only [GoMap.get?_del] at he
        split at he
        · cases he
        · exact h.stored k' e he
  | update x d =>
    simp only [IPTable.step, update]
    cases hi : validateIP parse r x with
    | error => exact h
    | ok ip =>
      simp only
      split
      · exact h
      · unfold IPTable.lift IdxTable.update IdxTable.updateE
        simp only
        cases hv : IdxTable.validate r.tab (calculateIndex ip r.ipRange.lo) with
        | error => exact h
        | ok u =>
          simp only
          split
          · exact h
          · exact hset hi hv
  | _ => exact h

theorem run_hinv {r₀ : IPTab R} (cs : List (ICall R)) : ∀ {r}, HInv parse r₀ r → HInv parse r₀ (run parse r cs).1 := by
  induction cs with
  | nil => exact fun h => h
  | cons c cs ih => exact fun h => ih (h.step c)

theorem new_hinv (lo hi : Addr) : HInv parse (new lo hi : IPTab R) (new lo hi) :=
  ⟨rfl, rfl, fun k e he => by cases he⟩

theorem get_reply {r₀ r : IPTab R} (h : HInv parse r₀ r) {x : String} {ip : Addr} (hi : validateIP parse r₀ x = .ok ip)
    (hv : IdxTable.validate r₀.tab (calculateIndex ip r₀.ipRange.lo) = .ok ()) {d : R} :
    (step parse r (.get x)).2 = .route d ↔ ∃ e, r.tab.m.get? (calculateIndex ip r₀.ipRange.lo) = some e ∧ e.data = d := by
  have hi' : validateIP parse r x = .ok ip := by
    unfold validateIP at hi ⊢; rw [h.rng]; exact hi
  have hv' : IdxTable.validate r.tab (calculateIndex ip r₀.ipRange.lo) = .ok () := by
    unfold IdxTable.validate at hv ⊢; rw [h.size]; exact hv
  simp only [IPTable.step, IPTable.get, IdxTable.get, hi', h.rng, hv']
  rcases Option.eq_none_or_eq_some (r.tab.m.get? (calculateIndex ip r₀.ipRange.lo)) with hk | ⟨e, hk⟩
  · simp [hk]
  · simp [hk]

/-- C96 for the IP table: two tables of the same range, whatever it is, reached by any two histories, whose `Get` replies
are the same for all texts, give the same replies to all sequences of calls. -/
theorem C96_ip (parse : String → Option Addr) (lo hi : Addr) (cs₁ cs₂ : List (ICall R))
    (hget : ∀ x, (step parse (run parse (new lo hi : IPTab R) cs₁).1 (.get x)).2 =
      (step parse (run parse (new lo hi) cs₂).1 (.get x)).2) :
    Alike parse (run parse (new lo hi : IPTab R) cs₁).1 (run parse (new lo hi) cs₂).1 := by
  have i1 := run_hinv cs₁ (new_hinv (R := R) (parse := parse) lo hi)
  have i2 := run_hinv cs₂ (new_hinv (R := R) (parse := parse) lo hi)
  have half : ∀ {r r' : IPTab R}, HInv parse (new lo hi) r → HInv parse (new lo hi) r' →
      (∀ x, (step parse r (.get x)).2 = (step parse r' (.get x)).2) → ∀ k e, r.tab.m.get? k = some e → r'.tab.m.get? k = some e := by
    intro r r' h h' hg k e he
    obtain ⟨hv, ⟨x, ip, hi, rfl⟩, hid⟩ := h.stored k e he
    have := (get_reply h hi hv (d := e.data)).2 ⟨_, he, rfl⟩
    rw [hg] at this
    obtain ⟨e', he', hl⟩ := (get_reply h' hi hv).1 this
    obtain ⟨_, _, hid'⟩ := h'.stored _ _ he'
    have : e' = e := by
      cases e; cases e'
      simp only at hl hid hid'
      rw [hl, hid, hid']
    rw [he', this]
  exact ISame.alike ⟨⟨i1.size.trans i2.size.symm, fun k => Option.ext fun e =>
    ⟨half i1 i2 hget k e, half i2 i1 (fun x => (hget x).symm) k e⟩⟩, i1.rng.trans i2.rng.symm⟩

/-- the hypothesis of `C96_ip`: two different histories of the range 10.0.0.0-10.0.0.3 -/
example : ∀ x, (step exParse exI (.get x)).2 =
    (step exParse (run exParse (new (.v4 0x0a000000) (.v4 0x0a000003))
      [.claim "10.0.0.1" "z", .claim "10.0.0.0" "b", .release "10.0.0.1", .update "10.0.0.0" "a"]).1 (.get x)).2 :=
  fun _ => rfl

/-! ## C97 -/

/-- calls about two texts that do not have the same index -/
theorem commute_idx (parse : String → Option Addr) (r : IPTab R) {c₁ c₂ : ICall R} {x y : String} (h₁ : c₁.about = some x)
    (h₂ : c₂.about = some y) (hne : ∀ ip jp, validateIP parse r x = .ok ip → validateIP parse r y = .ok jp →
      calculateIndex ip r.ipRange.lo ≠ calculateIndex jp r.ipRange.lo) :
    (step parse (step parse r c₁).1 c₂).2 = (step parse r c₂).2 ∧ (step parse (step parse r c₂).1 c₁).2 = (step parse r c₁).2 ∧
    Alike parse (step parse (step parse r c₁).1 c₂).1 (step parse (step parse r c₂).1 c₁).1 := by
  by_cases hi : ∃ ip, validateIP parse r x = .ok ip
  · obtain ⟨ip, hi⟩ := hi
    by_cases hj : ∃ ip, validateIP parse r y = .ok ip
    · obtain ⟨jp, hj⟩ := hj
      obtain ⟨a0, a1, a2⟩ := about_in h₁ r hi
      obtain ⟨b0, b1, b2⟩ := about_in h₂ r hj
      obtain ⟨_, c1, c2⟩ := about_in (parse := parse) (ip := jp) h₂ (step parse r c₁).1 (by rw [a2]; exact hj)
      obtain ⟨_, d1, d2⟩ := about_in (parse := parse) (ip := ip) h₁ (step parse r c₂).1 (by rw [b2]; exact hi)
      have hk := hne ip jp hi hj
      obtain ⟨e1, e2, e3⟩ := IdxTable.commute_same r.tab a0 b0 hk
      rw [c1, d1, c2, d2, a2, b2, a1, b1]
      exact ⟨congrArg fromIdx e1, congrArg fromIdx e2, ISame.alike ⟨e3, rfl⟩⟩
    · have hj' : ∀ ip, validateIP parse r y ≠ .ok ip := fun ip h => hj ⟨ip, h⟩
      have h1 := about_out h₂ r hj'
      have h2 : step parse (step parse r c₁).1 c₂ = ((step parse r c₁).1, c₂.refused) := by
        apply about_out h₂
        rw [(about_in h₁ r hi).2.2]; exact hj'
      rw [h1, h2]
      exact ⟨rfl, rfl, fun _ => rfl⟩
  · have hi' : ∀ ip, validateIP parse r x ≠ .ok ip := fun ip h => hi ⟨ip, h⟩
    have h1 := about_out h₁ r hi'
    rw [h1]
    have h2 : step parse (step parse r c₂).1 c₁ = ((step parse r c₂).1, c₁.refused) := by
      apply about_out h₁
      intro ip h
      apply hi' ip
      have := (step_range (parse := parse) r c₂).1
      unfold validateIP at h ⊢
      rw [this] at h
      exact h
    rw [h2]
    exact ⟨rfl, rfl, fun _ => rfl⟩

/-- C97 for the IP table, partial: calls about two texts that do not denote the same address have the same replies in
either order, and no later call tells the difference, if the range has at most `2^64` addresses. Missing: larger IPv6
ranges, where it is false (`C97_ip_commute_violated`). -/
theorem C97_ip_commute_partial (parse : String → Option Addr) {lo hi : Addr} (hs : MidRange lo hi) (r : IPTab R)
    (hr : r.ipRange = ipRangeFrom lo hi) {c₁ c₂ : ICall R} {x y : String} (h₁ : c₁.about = some x) (h₂ : c₂.about = some y)
    (hne : parse x ≠ parse y) :
    (step parse (step parse r c₁).1 c₂).2 = (step parse r c₂).2 ∧ (step parse (step parse r c₂).1 c₁).2 = (step parse r c₁).2 ∧
    Alike parse (step parse (step parse r c₁).1 c₂).1 (step parse (step parse r c₂).1 c₁).1 := by
  have mem : ∀ {x ip}, validateIP parse r x = .ok ip → parse x = some ip ∧ InIP lo hi ip := by
    intro x ip h
    unfold validateIP at h
    rw [hr] at h
    cases hp : parse x with
    | none => rw [hp] at h; cases h
    | some a =>
      rw [hp] at h
      simp only at h
      split at h
      · rename_i hc; cases h; exact ⟨rfl, (contains_iff _ _ _).1 hc⟩
      · cases h
  refine commute_idx parse r h₁ h₂ fun ip jp hi hj h => ?_
  obtain ⟨p1, q1⟩ := mem hi
  obtain ⟨p2, q2⟩ := mem hj
  refine hne (p1.trans (Eq.trans ?_ p2.symm))
  rw [hr] at h
  rw [idxA_inj hs q1 q2 h]

/-- a parser of two addresses of the range ::-0:0:0:2:: that share a slot -/
def twoParse : String → Option Addr
  | "::" => some (.v6 0 "")
  | "0:0:0:1::" => some (.v6 0x10000000000000000 "")
  | _ => none

/-- C97 is violated in the range ::-0:0:0:2::, where the first claim of `::` and `0:0:0:1::` succeeds and the second one
fails. -/
theorem C97_ip_commute_violated :
    ∃ (parse : String → Option Addr) (lo hi : Addr) (x y : String) (a b : Addr),
      InIP lo hi a ∧ InIP lo hi b ∧ a ≠ b ∧ parse x = some a ∧ parse y = some b ∧
      ∀ d e : R, (step parse (step parse (new lo hi) (.claim x d)).1 (.claim y e)).2 ≠ (step parse (new lo hi) (.claim y e)).2 := by
  refine ⟨twoParse, .v6 0 "", .v6 0x20000000000000000 "", "::", "0:0:0:1::", .v6 0 "", .v6 0x10000000000000000 "",
    ⟨by decide, by decide, rfl⟩, ⟨by decide, by decide, rfl⟩, by decide, rfl, rfl, fun d e h => ?_⟩
  have s1 : (step twoParse (new (.v6 0 "") (.v6 0x20000000000000000 "")) (.claim "::" d)).1 =
      (⟨⟨1, (GoMap.empty : GoMap U64 (IdxTable.Entry R)).set 0 ⟨0, d⟩⟩, ipRangeFrom (.v6 0 "") (.v6 0x20000000000000000 "")⟩ : IPTab R) := rfl
  have hc : (ipRangeFrom (.v6 0 "") (.v6 0x20000000000000000 "")).contains (.v6 0x10000000000000000 "") = true := rfl
  have hv : ∀ t : IdxTable.Table R, validateIP twoParse ⟨t, ipRangeFrom (.v6 0 "") (.v6 0x20000000000000000 "")⟩ "0:0:0:1::" =
      .ok (.v6 0x10000000000000000 "") := by
    intro t
    have hp : twoParse "0:0:0:1::" = some (.v6 0x10000000000000000 "") := rfl
    unfold validateIP
    rw [hp]
    exact if_pos hc
  have hx : calculateIndex (.v6 0x10000000000000000 "") (ipRangeFrom (.v6 0 "") (.v6 0x20000000000000000 "")).lo = 0 := rfl
  have h1 : (step twoParse (step twoParse (new (.v6 0 "") (.v6 0x20000000000000000 "")) (.claim "::" d)).1 (.claim "0:0:0:1::" e)).2 = .err := by
    rw [s1]
    simp only [step, claim, hv, hx]
    rfl
  have h2 : (step twoParse (new (.v6 0 "") (.v6 0x20000000000000000 "")) (.claim "0:0:0:1::" e)).2 = .ok := by
    simp only [step, claim, new, hv, hx]
    rfl
  rw [h1, h2] at h
  cases h

/-- C97 for the IP table: releasing what was just claimed undoes the claim, in every range. -/
theorem C97_ip_undo (parse : String → Option Addr) (r : IPTab R) (x : String) (d : R) (h : (step parse r (.claim x d)).2 = .ok) :
    (step parse (step parse r (.claim x d)).1 (.release x)).2 = .ok ∧
    Alike parse (step parse (step parse r (.claim x d)).1 (.release x)).1 r := by
  by_cases hi : ∃ ip, validateIP parse r x = .ok ip
  · obtain ⟨ip, hi⟩ := hi
    obtain ⟨_, a1, a2⟩ := about_in (c := .claim x d) rfl r hi
    obtain ⟨_, b1, b2⟩ := about_in (parse := parse) (ip := ip) (c := .release x) rfl (step parse r (.claim x d)).1 (by rw [a2]; exact hi)
    rw [a1] at h
    rw [b1, b2, a2]
    have h' : (IdxTable.step r.tab ((ICall.claim x d).idx (calculateIndex ip r.ipRange.lo))).2 = .ok := by
      cases hx : (IdxTable.step r.tab ((ICall.claim x d).idx (calculateIndex ip r.ipRange.lo))).2 <;>
        rw [hx] at h <;> first | rfl | cases h
    obtain ⟨e1, e2⟩ := IdxTable.undo_same r.tab _ _ h'
    exact ⟨congrArg fromIdx e1, ISame.alike ⟨e2, rfl⟩⟩
  · rw [about_out (c := .claim x d) rfl r (fun ip h => hi ⟨ip, h⟩)] at h
    cases h

/-- the hypotheses of C97 -/
example : (ICall.claim "10.0.0.1" "x").about = some "10.0.0.1" ∧ exParse "10.0.0.1" ≠ exParse "10.0.0.0" ∧
    exI.ipRange = ipRangeFrom (.v4 0x0a000000) (.v4 0x0a000003) ∧ (step exParse exI (.claim "10.0.0.1" "x")).2 = .ok :=
  ⟨rfl, by decide, rfl, rfl⟩

end Verif.IPTable
