import Verif.IPTable.Refine

/-!
C22–C26 and C65: the IP table (`pkg/iptable`).

`parse` (`netip.ParseAddr`) is an arbitrary function throughout.
-/

namespace Verif.IPTable
open Verif.IdxTable (U64)
variable {R : Type} {parse : String → Option Addr} {lo hi : Addr}

/-- `r` is a state of `New(lo, hi)` after some history of calls -/
def Reach (parse : String → Option Addr) (lo hi : Addr) (r : IPTab R) : Prop :=
  ∃ cs, r = (run parse (new lo hi) cs).1

/-- `r` is the state of `New(lo, hi)` after the history `cs`, and `s` the partial map from addresses
to routes that the specification reaches by the same calls and replies -/
def After (parse : String → Option Addr) (lo hi : Addr) (cs : List (ICall R)) (r : IPTab R)
    (s : AMap R) : Prop :=
  r = (run parse (new lo hi) cs).1 ∧
  IRun parse lo hi (fun _ => none) cs (run parse (new lo hi : IPTab R) cs).2 s

/-- a parser of three literals -/
def exParse : String → Option Addr
  | "10.0.0.0" => some (.v4 0x0a000000)
  | "10.0.0.1" => some (.v4 0x0a000001)
  | "::1" => some (.v6 1 "")
  | "fe80::1%eth0" => some (.v6 0xfe800000000000000000000000000001 "eth0")
  | _ => none

/-- the table of 10.0.0.0-10.0.0.3 with 10.0.0.0 claimed -/
def exI : IPTab String := (run exParse (new (.v4 0x0a000000) (.v4 0x0a000003))
  [.claim "10.0.0.0" "a"]).1
theorem exI_small : SmallRange (.v4 0x0a000000) (.v4 0x0a000003) := by unfold SmallRange; decide

theorem abs_new : absI (new lo hi : IPTab R) = fun _ => none := by
  funext a
  unfold absI
  split
  · simp [new, IdxTable.newTable]
  · rfl

theorem lists_unique {s : AMap R} {l m : List Addr}
    (hl : ListsIP s l) (hm : ListsIP s m) : l = m := by
  have hp : l.Perm m := by
    rw [List.perm_ext_iff_of_nodup]
    · intro a; rw [hl.2, hm.2]
    · exact hl.1.imp (fun h he => by subst he; omega)
    · exact hm.1.imp (fun h he => by subst he; omega)
  apply hp.eq_of_pairwise _ hl.1 hm.1
  intro a b _ _ h1 h2
  omega

/-! ## C23 -/

/-- C23: every history on the table of a range of fewer than `2^64` addresses has the replies of a
partial map from the addresses of the range to routes. -/
theorem C23_ip_partial_map (hs : SmallRange lo hi) (cs : List (ICall R)) :
    ∃ s, IRun parse lo hi (fun _ => none) cs (run parse (new lo hi : IPTab R) cs).2 s := by
  obtain ⟨h1, h2⟩ := mid_of_small hs
  have := (run_refines parse (new lo hi : IPTab R) (new_inv h1) h2 cs).1
  rw [abs_new] at this
  exact ⟨_, this⟩

theorem step_in {s s' : AMap R} {c r} (hin : ∀ a, s a ≠ none → InIP lo hi a)
    (h : IStep parse lo hi s c s' r) : ∀ a, s' a ≠ none → InIP lo hi a := by
  cases c with
  | claim x d =>
    rcases h with ⟨a, _, h2, rfl, _⟩ | ⟨_, rfl, _⟩
    · intro b hb
      unfold AMap.put at hb
      by_cases hab : b = a
      · subst hab; exact h2.1
      · rw [if_neg hab] at hb; exact hin b hb
    · exact hin
  | release x =>
    rcases h with ⟨a, _, h2, rfl, _⟩ | ⟨_, rfl, _⟩
    · intro b hb
      unfold AMap.drop at hb
      by_cases hab : b = a
      · subst hab; exact h2
      · rw [if_neg hab] at hb; exact hin b hb
    · exact hin
  | update x d =>
    rcases h with ⟨a, _, h2, rfl, _⟩ | ⟨_, rfl, _⟩
    · intro b hb
      unfold AMap.put at hb
      by_cases hab : b = a
      · subst hab; exact hin _ h2
      · rw [if_neg hab] at hb; exact hin b hb
    · exact hin
  | get _ | has _ | isFree _ | size | findFree | getAll | getByLabel _ => rw [h.1]; exact hin

/-- The partial map of C23 is deterministic, so C23 fixes every reply. -/
theorem C23_spec_deterministic {s s₁ s₂ : AMap R} {c : ICall R} {r₁ r₂ : IReply R}
    (hin : ∀ a, s a ≠ none → InIP lo hi a)
    (h₁ : IStep parse lo hi s c s₁ r₁) (h₂ : IStep parse lo hi s c s₂ r₂) : s₁ = s₂ ∧ r₁ = r₂ := by
  cases c with
  | get x =>
    obtain ⟨rfl, h₁⟩ := h₁
    obtain ⟨rfl, h₂⟩ := h₂
    refine ⟨rfl, ?_⟩
    rcases h₁ with ⟨a, d, hp, hd, rfl⟩ | ⟨hn, rfl⟩ <;> rcases h₂ with ⟨b, e, hq, he, rfl⟩ | ⟨hm, rfl⟩
    · rw [hp] at hq; cases hq; rw [hd] at he; cases he; rfl
    · have := hm a hp; rw [hd] at this; cases this
    · have := hn b hq; rw [he] at this; cases this
    · rfl
  | claim x d =>
    rcases h₁ with ⟨a, hp, hd, rfl, rfl⟩ | ⟨hn, rfl, rfl⟩ <;>
      rcases h₂ with ⟨b, hq, he, rfl, rfl⟩ | ⟨hm, rfl, rfl⟩
    · rw [hp] at hq; cases hq; exact ⟨rfl, rfl⟩
    · exact absurd hd (hm a hp)
    · exact absurd he (hn b hq)
    · exact ⟨rfl, rfl⟩
  | release x =>
    rcases h₁ with ⟨a, hp, hd, rfl, rfl⟩ | ⟨hn, rfl, rfl⟩ <;>
      rcases h₂ with ⟨b, hq, he, rfl, rfl⟩ | ⟨hm, rfl, rfl⟩
    · rw [hp] at hq; cases hq; exact ⟨rfl, rfl⟩
    · exact absurd hd (hm a hp)
    · exact absurd he (hn b hq)
    · exact ⟨rfl, rfl⟩
  | update x d =>
    rcases h₁ with ⟨a, hp, hd, rfl, rfl⟩ | ⟨hn, rfl, rfl⟩ <;>
      rcases h₂ with ⟨b, hq, he, rfl, rfl⟩ | ⟨hm, rfl, rfl⟩
    · rw [hp] at hq; cases hq; exact ⟨rfl, rfl⟩
    · exact absurd (hm a hp) hd
    · exact absurd (hn b hq) he
    · exact ⟨rfl, rfl⟩
  | size =>
    obtain ⟨rfl, l, hl, rfl⟩ := h₁
    obtain ⟨rfl, m, hm, rfl⟩ := h₂
    rw [lists_unique hl hm]; exact ⟨rfl, rfl⟩
  | has x =>
    obtain ⟨rfl, b, hb, rfl⟩ := h₁
    obtain ⟨rfl, b', hb', rfl⟩ := h₂
    rw [Bool.eq_iff_iff.2 (hb.trans hb'.symm)]; exact ⟨rfl, rfl⟩
  | isFree x =>
    obtain ⟨rfl, b, hb, rfl⟩ := h₁
    obtain ⟨rfl, b', hb', rfl⟩ := h₂
    rw [Bool.eq_iff_iff.2 (hb.trans hb'.symm)]; exact ⟨rfl, rfl⟩
  | findFree =>
    obtain ⟨rfl, h₁⟩ := h₁
    obtain ⟨rfl, h₂⟩ := h₂
    refine ⟨rfl, ?_⟩
    rcases h₁ with ⟨a, ha, rfl⟩ | ⟨hn, rfl⟩ <;> rcases h₂ with ⟨b, hb, rfl⟩ | ⟨hm, rfl⟩
    · have := ha.2 b hb.1
      have := hb.2 a ha.1
      rw [num_inj ha.1.1 hb.1.1 (by omega)]
    · exact absurd ha.1 (hm a)
    · exact absurd hb.1 (hn b)
    · rfl
  | getAll =>
    obtain ⟨rfl, l, hl, rfl⟩ := h₁
    obtain ⟨rfl, m, hm, rfl⟩ := h₂
    rw [lists_unique hl hm]; exact ⟨rfl, rfl⟩
  | getByLabel sel =>
    obtain ⟨rfl, l, hl, rfl⟩ := h₁
    obtain ⟨rfl, m, hm, rfl⟩ := h₂
    rw [lists_unique hl hm]; exact ⟨rfl, rfl⟩

/-- along a whole history -/
theorem C23_run_deterministic {cs : List (ICall R)} {s s₁ s₂ : AMap R} {rs₁ rs₂ : List (IReply R)}
    (hin : ∀ a, s a ≠ none → InIP lo hi a)
    (h₁ : IRun parse lo hi s cs rs₁ s₁) (h₂ : IRun parse lo hi s cs rs₂ s₂) :
    rs₁ = rs₂ ∧ s₁ = s₂ := by
  induction h₁ generalizing rs₂ s₂ with
  | nil => cases h₂; exact ⟨rfl, rfl⟩
  | cons hs _ ih =>
    cases h₂ with
    | cons ht hr =>
      obtain ⟨rfl, rfl⟩ := C23_spec_deterministic hin hs ht
      obtain ⟨rfl, rfl⟩ := ih (step_in hin hs) hr
      exact ⟨rfl, rfl⟩

theorem After.abs (hs : SmallRange lo hi) {cs : List (ICall R)} {r : IPTab R} {s : AMap R}
    (h : After parse lo hi cs r s) : s = absI r ∧ IInv lo hi r ∧ NotFull lo hi := by
  obtain ⟨h1, h2⟩ := mid_of_small hs
  obtain ⟨rfl, hr⟩ := h
  have := run_refines parse (new lo hi : IPTab R) (new_inv h1) h2 cs
  rw [abs_new] at this
  exact ⟨(C23_run_deterministic (fun a h => absurd rfl h) hr this.1).2, this.2, h2⟩

theorem exI_after : ∃ s, After exParse (.v4 0x0a000000) (.v4 0x0a000003) [.claim "10.0.0.0" "a"]
    exI s := by
  obtain ⟨s, h⟩ := C23_ip_partial_map (parse := exParse) exI_small [ICall.claim "10.0.0.0" "a"]
  exact ⟨s, rfl, h⟩

example : has exParse exI "10.0.0.0" = true ∧ has exParse exI "10.0.0.1" = false := by decide

/-! ## C22 -/

/-- C22, part that holds: in a range of fewer than `2^64` addresses, claiming, updating or releasing
one address changes the outcome of `Get`, `Has` and `IsFree` for no other address. Missing: the
larger IPv6 ranges, where it is false (`C22_shared_slot_violated`). -/
theorem C22_distinct_slots_partial (hs : SmallRange lo hi) {r : IPTab R} (h : Reach parse lo hi r)
    {x y : String} {a b : Addr} (hx : parse x = some a) (hy : parse y = some b) (hab : a ≠ b) (d : R)
    (r' : IPTab R)
    (hr' : r' = (claim parse r x d).1 ∨ r' = (update parse r x d).1 ∨ r' = (release parse r x).1) :
    get parse r' y = get parse r y ∧ has parse r' y = has parse r y ∧
    isFree parse r' y = isFree parse r y := by
  obtain ⟨cs, rfl⟩ := h
  obtain ⟨h1, h2⟩ := mid_of_small hs
  have hinv := (run_refines parse (new lo hi : IPTab R) (new_inv h1) h2 cs).2
  generalize hr : (run parse (new lo hi : IPTab R) cs).1 = r at *
  have key : ∀ r' : IPTab R, r'.ipRange = r.ipRange → r'.tab.size = r.tab.size →
      (∀ i, InIP lo hi a → i ≠ idxA lo a → r'.tab.m.get? i = r.tab.m.get? i) →
      (¬ InIP lo hi a → r'.tab.m = r.tab.m) →
      get parse r' y = get parse r y ∧ has parse r' y = has parse r y ∧
        isFree parse r' y = isFree parse r y := by
    intro r' hrng hsz hin hout
    have hv : validateIP parse r' y = validateIP parse r y := by
      unfold validateIP; rw [hrng]
    by_cases hb : InIP lo hi b
    · have hv' := validate_in hinv hy hb
      have hm : r'.tab.m.get? (calculateIndex b r.ipRange.lo) =
          r.tab.m.get? (calculateIndex b r.ipRange.lo) := by
        by_cases ha : InIP lo hi a
        · apply hin _ ha
          rw [hinv.lo_eq]
          intro he
          exact hab (idxA_inj h1 ha hb he.symm)
        · rw [hout ha]
      refine ⟨?_, ?_, ?_⟩
      · simp only [get, hv, hv', IdxTable.get, IdxTable.validate, hsz, hrng, hm]
      · simp only [has, hv, hv', IdxTable.has, hrng, hm]
      · simp only [isFree, hv, hv', IdxTable.isFree, IdxTable.isFreeB, hrng, hm]
    · obtain ⟨e, he⟩ := validate_out (parse := parse) hinv.rng (x := y)
        (fun c hc => by rw [hy] at hc; cases hc; exact hb)
      refine ⟨?_, ?_, ?_⟩
      · simp only [get, hv, he]
      · simp only [has, hv, he]
      · simp only [isFree, hv, he]
  have hset : ∀ e : IdxTable.Entry R, ∀ i, i ≠ idxA lo a →
      (r.tab.m.set (idxA lo a) e).get? i = r.tab.m.get? i := by
    intro e i hi; rw [GoMap.get?_set, if_neg hi]
  by_cases ha : InIP lo hi a
  · have hv := validate_in hinv hx ha
    have hvi := hinv.validate ha
    have hlo := hinv.lo_eq
    rcases hr' with rfl | rfl | rfl
    · simp only [claim, hv]
      split
      · exact ⟨rfl, rfl, rfl⟩
      · rename_i hfree
        have hn : r.tab.m.get? (idxA lo a) = none := by
          have : calculateIndex a r.ipRange.lo = idxA lo a := by rw [hlo]; rfl
          rw [this] at hfree
          simpa [IdxTable.isFree, IdxTable.isFreeB] using hfree
        have : lift r (IdxTable.claim r.tab (calculateIndex a r.ipRange.lo) d) =
            (setTab r (idxA lo a) ⟨idxA lo a, d⟩, .ok ()) := by
          have hidx : calculateIndex a r.ipRange.lo = idxA lo a := by rw [hlo]; rfl
          rw [hidx]
          simp only [IdxTable.claim, IdxTable.add, hvi, IdxTable.isFreeB, hn, Option.isNone_none,
            lift]
          rfl
        rw [this]
        exact key _ rfl rfl (fun i _ hi => hset _ i hi) (fun hn => absurd ha hn)
    · simp only [update, hv]
      split
      · exact ⟨rfl, rfl, rfl⟩
      · rename_i hfree
        have hn : IdxTable.isFreeB r.tab (idxA lo a) = false := by
          have : calculateIndex a r.ipRange.lo = idxA lo a := by rw [hlo]; rfl
          rw [this] at hfree
          simpa [IdxTable.isFree] using hfree
        have : lift r (IdxTable.update r.tab (calculateIndex a r.ipRange.lo) d) =
            (setTab r (idxA lo a) ⟨idxA lo a, d⟩, .ok ()) := by
          have hidx : calculateIndex a r.ipRange.lo = idxA lo a := by rw [hlo]; rfl
          rw [hidx]
          simp only [IdxTable.update, IdxTable.updateE, hvi, hn, lift]
          rfl
        rw [this]
        exact key _ rfl rfl (fun i _ hi => hset _ i hi) (fun hn => absurd ha hn)
    · have : release parse r x =
          ({ r with tab := { r.tab with m := r.tab.m.del (idxA lo a) } }, .ok ()) := by
        have hidx : calculateIndex a r.ipRange.lo = idxA lo a := by rw [hlo]; rfl
        simp only [release, hv, hidx, IdxTable.release, IdxTable.delete, hvi, lift]
      rw [this]
      exact key _ rfl rfl (fun i _ hi => by
        show (r.tab.m.del (idxA lo a)).get? i = _
        rw [GoMap.get?_del, if_neg hi]) (fun hn => absurd ha hn)
  · obtain ⟨e, he⟩ := validate_out (parse := parse) hinv.rng (x := x)
      (fun c hc => by rw [hx] at hc; cases hc; exact ha)
    rcases hr' with rfl | rfl | rfl
    · simp only [claim, he, and_self]
    · simp only [update, he, and_self]
    · simp only [release, he, and_self]

example : isFree exParse (claim exParse exI "10.0.0.1" "b").1 "10.0.0.0" = false := by decide

theorem step_range (r : IPTab R) (c : ICall R) :
    (step parse r c).1.ipRange = r.ipRange ∧ (step parse r c).1.tab.size = r.tab.size := by
  cases c with
  | claim x d =>
    simp only [step, claim]
    split
    · exact ⟨rfl, rfl⟩
    · split
      · exact ⟨rfl, rfl⟩
      · refine ⟨rfl, ?_⟩
        simp only [lift, IdxTable.claim, IdxTable.add]
        split <;> (try split) <;> rfl
  | release x =>
    simp only [step, release]
    split
    · exact ⟨rfl, rfl⟩
    · refine ⟨rfl, ?_⟩
      simp only [lift, IdxTable.release, IdxTable.delete]
      split <;> rfl
  | update x d =>
    simp only [step, update]
    split
    · exact ⟨rfl, rfl⟩
    · split
      · exact ⟨rfl, rfl⟩
      · refine ⟨rfl, ?_⟩
        simp only [lift, IdxTable.update, IdxTable.updateE]
        split <;> (try split) <;> rfl
  | get _ | has _ | isFree _ | size | findFree | getAll | getByLabel _ => exact ⟨rfl, rfl⟩

theorem run_range (r : IPTab R) (cs : List (ICall R)) :
    (run parse r cs).1.ipRange = r.ipRange ∧ (run parse r cs).1.tab.size = r.tab.size := by
  induction cs generalizing r with
  | nil => exact ⟨rfl, rfl⟩
  | cons c cs ih =>
    obtain ⟨h1, h2⟩ := step_range (parse := parse) r c
    obtain ⟨h3, h4⟩ := ih (step parse r c).1
    exact ⟨h3.trans h1, h4.trans h2⟩

theorem Reach.rng {r : IPTab R} (h : Reach parse lo hi r) :
    r.ipRange = ipRangeFrom lo hi ∧ r.tab.size = numIPs lo hi := by
  obtain ⟨cs, rfl⟩ := h
  exact run_range (new lo hi) cs

/-- C22 is violated, in every IPv6 range of more than `2^64` addresses and every state: the first
address and the one `2^64` higher are different addresses of the range, but no call distinguishes
them. -/
theorem C22_shared_slot_violated {f t : BitVec 128} {z z' : String}
    (hbig : f.toNat + 2 ^ 64 ≤ t.toNat) {r : IPTab R} (h : Reach parse (.v6 f z) (.v6 t z') r)
    {x y : String} (hx : parse x = some (.v6 f "")) (hy : parse y = some (.v6 (f + 0x10000000000000000#128) "")) :
    (Addr.v6 f "" ≠ .v6 (f + 0x10000000000000000#128) "" ∧
      InIP (.v6 f z) (.v6 t z') (.v6 f "") ∧ InIP (.v6 f z) (.v6 t z') (.v6 (f + 0x10000000000000000#128) "")) ∧
    get parse r x = get parse r y ∧ has parse r x = has parse r y ∧
    isFree parse r x = isFree parse r y ∧
    (∀ d, claim parse r x d = claim parse r y d) ∧ (∀ d, update parse r x d = update parse r y d) ∧
    release parse r x = release parse r y := by
  have ht := t.isLt
  have hc : BitVec.toNat 0x10000000000000000#128 = 2 ^ 64 := by decide
  have hadd : (f + 0x10000000000000000#128).toNat = f.toNat + 2 ^ 64 := by
    rw [BitVec.toNat_add, hc]; omega
  have i1 : InIP (.v6 f z) (.v6 t z') (.v6 f "") := ⟨Nat.le_refl _, by omega, rfl⟩
  have i2 : InIP (.v6 f z) (.v6 t z') (.v6 (f + 0x10000000000000000#128) "") := ⟨by omega, by omega, rfl⟩
  have hne : Addr.v6 f "" ≠ .v6 (f + 0x10000000000000000#128) "" := by
    intro he
    injection he with he
    have := congrArg BitVec.toNat he
    omega
  obtain ⟨hr, _⟩ := h.rng
  have v1 : validateIP parse r x = .ok (.v6 f "") := by
    unfold validateIP; rw [hx, hr]; simp only; rw [if_pos ((contains_iff _ _ _).2 i1)]
  have v2 : validateIP parse r y = .ok (.v6 (f + 0x10000000000000000#128) "") := by
    unfold validateIP; rw [hy, hr]; simp only; rw [if_pos ((contains_iff _ _ _).2 i2)]
  have hidx : calculateIndex (.v6 f "") r.ipRange.lo =
      calculateIndex (.v6 (f + 0x10000000000000000#128) "") r.ipRange.lo := by
    rw [hr]
    show calculateIndex (.v6 f "") (.v6 f "") = calculateIndex (.v6 (f + 0x10000000000000000#128) "") (.v6 f "")
    unfold calculateIndex
    apply BitVec.eq_of_toNat_eq
    rw [BitVec.toNat_ofNat, BitVec.toNat_ofNat, ipToInt_v6, ipToInt_v6, hadd]
    omega
  refine ⟨⟨hne, i1, i2⟩, ?_, ?_, ?_, ?_, ?_, ?_⟩
  · simp only [get, v1, v2, hidx]
  · simp only [has, v1, v2, hidx]
  · simp only [isFree, v1, v2, hidx]
  · intro d; simp only [claim, v1, v2, hidx]
  · intro d; simp only [update, v1, v2, hidx]
  · simp only [release, v1, v2, hidx]

/-- the case `::` – `::2:0:0:0:0`: claiming `::` makes `::1:0:0:0:0` claimed -/
example :
    let parse : String → Option Addr := fun s =>
      if s = "::" then some (.v6 0 "") else if s = "::1:0:0:0:0" then some (.v6 0x10000000000000000#128 "") else none
    let r : IPTab String := new (.v6 0 "") (.v6 0x20000000000000000#128 "")
    (claim parse r "::" "a").2 = .ok () ∧
    has parse (claim parse r "::" "a").1 "::1:0:0:0:0" = true := by decide

/-! ## C24 -/

/-- C24: `FindFree` returns an address `a` exactly when `a` is the lowest unclaimed address of the
range (so in the family of the range); it fails exactly when no address is unclaimed; and it never
panics. -/
theorem C24_findFree_lowest (hs : SmallRange lo hi) {cs : List (ICall R)} {r : IPTab R} {s : AMap R}
    (h : After parse lo hi cs r s) :
    (∀ a, findFree r = .addr a ↔ LeastIP lo hi s a) ∧
    ((∃ e, findFree r = .err e) ↔ ∀ a, InIP lo hi a → s a ≠ none) ∧
    findFree r ≠ .panic := by
  obtain ⟨rfl, hinv, hf⟩ := h.abs hs
  rcases findFree_spec hinv hf with ⟨a, hl, he⟩ | ⟨hn, e, he⟩
  · refine ⟨?_, ?_, by rw [he]; simp⟩
    · intro b
      rw [he]
      constructor
      · intro h; cases h; exact hl
      · intro hb
        have := hl.2 b hb.1
        have := hb.2 a hl.1
        rw [num_inj hl.1.1 hb.1.1 (by omega)]
    · rw [he]
      constructor
      · rintro ⟨e, h⟩; cases h
      · intro h; exact absurd hl.1.2 (h a hl.1.1)
  · refine ⟨?_, ?_, by rw [he]; simp⟩
    · intro b
      rw [he]
      constructor
      · intro h; cases h
      · intro hb; exact absurd hb.1 (hn b)
    · rw [he]
      constructor
      · rintro _ a ha hna; exact hn a ⟨ha, hna⟩
      · intro _; exact ⟨e, rfl⟩

example : ∃ s, After exParse (.v4 0x0a000000) (.v4 0x0a000003) [.claim "10.0.0.0" "a"] exI s :=
  exI_after

/-! ## C25 -/

/-- C25: for every range (valid or not, of any size), every reachable state and every string that
is not an unzoned address of the range, `Claim`, `Update`, `Release` and `Get` fail, `Has` and
`IsFree` are false and the table is unchanged. -/
theorem C25_out_of_range_rejected {r : IPTab R} (h : Reach parse lo hi r) {x : String}
    (hx : ∀ a, parse x = some a → ¬ InIP lo hi a) (d : R) :
    ((∃ e, (claim parse r x d).2 = .error e) ∧ (claim parse r x d).1 = r) ∧
    ((∃ e, (update parse r x d).2 = .error e) ∧ (update parse r x d).1 = r) ∧
    ((∃ e, (release parse r x).2 = .error e) ∧ (release parse r x).1 = r) ∧
    (∃ e, get parse r x = .error e) ∧ has parse r x = false ∧ isFree parse r x = false := by
  obtain ⟨e, he⟩ := validate_out h.rng.1 hx
  refine ⟨⟨⟨e, ?_⟩, ?_⟩, ⟨⟨e, ?_⟩, ?_⟩, ⟨⟨e, ?_⟩, ?_⟩, ⟨e, ?_⟩, ?_, ?_⟩ <;>
    simp only [claim, update, release, get, has, isFree, he]

/-- unparsable, zoned, other family and out of range strings all qualify -/
example : ∀ x ∈ ["fe80::1%eth0", "nonsense", "10.0.0.1"], ∀ a, exParse x = some a →
    ¬ InIP (.v6 0 "") (.v6 (-1) "") a := by
  intro x hx a ha
  simp only [List.mem_cons, List.not_mem_nil, or_false] at hx
  rcases hx with rfl | rfl | rfl
  · simp only [exParse, Option.some.injEq] at ha; subst ha; simp [InIP]
  · simp [exParse] at ha
  · simp only [exParse, Option.some.injEq] at ha; subst ha; simp [InIP]

/-! ## C26 -/

/-- C26: `GetAll` returns the routes of the claimed addresses in ascending address order, one per
claimed address, and `GetByLabel` those the selector accepts, in the same order; neither panics. -/
theorem C26_getAll_sorted (hs : SmallRange lo hi) {cs : List (ICall R)} {r : IPTab R} {s : AMap R}
    (h : After parse lo hi cs r s) :
    ∃ as, ListsIP s as ∧ getAll r = some (as.filterMap s) ∧
      (as.filterMap s).length = as.length ∧
      ∀ sel, getByLabel r sel = some ((as.filterMap s).filter sel) := by
  obtain ⟨rfl, hinv, hf⟩ := h.abs hs
  have hl := lists_addrs hinv
  refine ⟨_, hl, getAll_eq' hinv (hinv.counts hf), ?_, getByLabel_eq hinv (hinv.counts hf)⟩
  have : ∀ l : List Addr, (∀ a ∈ l, absI r a ≠ none) →
      (l.filterMap (absI r)).length = l.length := by
    intro l hl
    induction l with
    | nil => rfl
    | cons a l ih =>
      have ha := hl a (by simp)
      obtain ⟨d, hd⟩ := Option.ne_none_iff_exists'.1 ha
      rw [List.filterMap_cons, hd]
      simp [ih (fun b hb => hl b (by simp [hb]))]
  exact this _ (fun a ha => (hl.2 a).1 ha)

example : SmallRange (.v4 0x0a000000) (.v4 0x0a000003) ∧
    (∃ s, After exParse (.v4 0x0a000000) (.v4 0x0a000003) [.claim "10.0.0.0" "a"] exI s) ∧ has exParse exI "10.0.0.0" = true :=
  ⟨exI_small, exI_after.imp fun _ h => h, by decide⟩

/-! ## C65 -/

/-- C65 is violated by every range of exactly `2^64` addresses (an IPv6 /64 subnet) in every state:
`FindFree` fails. -/
theorem C65_slash64_findFree_violated {f t : BitVec 128} {z z' : String}
    (h64 : t.toNat = f.toNat + (2 ^ 64 - 1)) {r : IPTab R}
    (h : Reach parse (.v6 f z) (.v6 t z') r) : ∃ e, findFree r = .err e := by
  obtain ⟨_, hsz⟩ := h.rng
  have h0 : r.tab.size = 0 := by
    rw [hsz]
    unfold numIPs
    apply BitVec.eq_of_toNat_eq
    simp only [ipToInt_v6]
    have hd : ((t.toNat : Int) - (f.toNat : Int)).natAbs = 2 ^ 64 - 1 := by omega
    rw [if_neg (by omega), BitVec.toNat_add, BitVec.toNat_ofNat, hd]
    rfl
  have hk : IdxTable.freeKeys r.tab = [] := by
    rw [List.eq_nil_iff_forall_not_mem]
    intro i hi
    rw [IdxTable.mem_freeKeys, h0, BitVec.lt_def] at hi
    simp at hi
  refine ⟨.idx .noFree, ?_⟩
  have := IdxTable.findFree_eq r.tab
  rw [hk] at this
  simp only [findFree, this]

/-- the table of such a subnet starts with all addresses free -/
theorem C65_slash64_has_free {f t : BitVec 128} {z z' : String} {x : String} {a : Addr}
    (hx : parse x = some a) (ha : InIP (.v6 f z) (.v6 t z') a) :
    isFree parse (new (.v6 f z) (.v6 t z') : IPTab R) x = true := by
  have : validateIP parse (new (.v6 f z) (.v6 t z') : IPTab R) x = .ok a := by
    unfold validateIP; rw [hx]; simp only
    exact if_pos ((contains_iff _ _ _).2 ha)
  simp only [isFree, this]
  simp [new, IdxTable.newTable, IdxTable.isFree, IdxTable.isFreeB]

/-- 2001:db8::/64 -/
example : (0x20010db800000000ffffffffffffffff#128).toNat =
    (0x20010db8000000000000000000000000#128).toNat + (2 ^ 64 - 1) := by decide

/-- a history of the calls other than `FindFree`, `GetAll`, `GetByLabel` -/
theorem run_refines_explicit (r : IPTab R) (h : IInv lo hi r) (cs : List (ICall R))
    (hc : ∀ c ∈ cs, Explicit c) :
    IRun parse lo hi (absI r) cs (run parse r cs).2 (absI (run parse r cs).1) := by
  induction cs generalizing r with
  | nil => exact .nil _
  | cons c cs ih =>
    obtain ⟨h1, h2⟩ := step_refines_explicit parse r h c (hc c (by simp))
    exact .cons h1 (ih _ h2 (fun c' hc' => hc c' (by simp [hc'])))

/-- C65, part that holds: with at most `2^64` addresses, histories of the calls `Get`, `Claim`,
`Release`, `Update`, `Has`, `IsFree` and `Size` still have the replies of a partial map. Missing:
`FindFree`, which always fails at `2^64` addresses, and the two listing calls. -/
theorem C65_slash64_partial (hs : MidRange lo hi) (cs : List (ICall R))
    (hc : ∀ c ∈ cs, Explicit c) :
    ∃ s, IRun parse lo hi (fun _ => none) cs (run parse (new lo hi : IPTab R) cs).2 s := by
  have := run_refines_explicit (parse := parse) (new lo hi : IPTab R) (new_inv hs) cs hc
  rw [abs_new] at this
  exact ⟨_, this⟩

example : MidRange (.v6 0x20010db8000000000000000000000000#128 "")
    (.v6 0x20010db800000000ffffffffffffffff#128 "") := by unfold MidRange; decide

end Verif.IPTable
