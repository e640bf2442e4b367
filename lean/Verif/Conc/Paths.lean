import Verif.Conc.Safe
import Verif.Conc.Claims
import Verif.Conc.Tables
import Verif.Ranged.Refine
import Verif.IPTable.Refine

/-! The calls that a ranged table or an IP table makes to its index table. -/

namespace Verif.Conc
open Verif.IdxTable (U64 Table Entry Call Reply step)
variable {κ κ₀ σ ρ ρ₀ β α : Type}

theorem path_call {c : κ₀} {k : ρ₀ → Client κ₀ ρ₀ σ ρ} {l : List (κ₀ × ρ₀)} {y : ρ}
    (h : (Client.call c k).Path l (.ret y)) : ∃ r l', l = (c, r) :: l' ∧ (k r).Path l' (.ret y) := by
  cases h with
  | call h => exact ⟨_, _, rfl, h⟩

theorem path_call' {c : κ₀} {k : ρ₀ → Client κ₀ ρ₀ σ ρ} {l : List (κ₀ × ρ₀)} {d : Client κ₀ ρ₀ σ ρ}
    (h : (Client.call c k).Path l d) : (l = [] ∧ d = .call c k) ∨ ∃ r l', l = (c, r) :: l' ∧ (k r).Path l' d := by
  cases h with
  | nil => exact .inl ⟨rfl, rfl⟩
  | call h => exact .inr ⟨_, _, rfl, h⟩

theorem path_ret {r : ρ} {l : List (κ₀ × ρ₀)} {d : Client κ₀ ρ₀ σ ρ} (h : (Client.ret r).Path l d) :
    l = [] ∧ d = .ret r := by
  cases h with
  | nil => exact ⟨rfl, rfl⟩

theorem Client.Uses.path {S : κ₀ → Prop} {pk : Prop} {d d' : Client κ₀ ρ₀ σ ρ} {l : List (κ₀ × ρ₀)}
    (h : d.Path l d') : d.Uses S pk → ∀ x ∈ l, S x.1 := by
  induction h with
  | nil => intro _ x hx; cases hx
  | call _ ih =>
    intro hu x hx
    cases hu with
    | call h1 h2 =>
      rcases List.mem_cons.1 hx with rfl | hx
      · exact h1
      · exact ih (h2 _) x hx
  | peek _ ih =>
    intro hu
    cases hu with
    | peek h1 h2 => exact ih (h2 _)

/-- not a release -/
def NoRelease (c : Call α) : Prop := ∀ i, c ≠ .release i

section Ranged
open Verif.Ranged
variable {P : Width} {L : Type}

theorem uses_rclaimC {S : Call (TEntry L) → Prop} {pk : Prop} (r : RTable P L) (id : U64) (l : L)
    {k : Bool → RClient L} (h1 : ∀ i, S (.isFree i)) (h2 : ∀ i e, S (.claim i e)) (hk : ∀ b, (k b).Uses S pk) :
    (rclaimC r id l k).Uses S pk := by
  unfold rclaimC
  split
  · exact hk _
  · refine .call (h1 _) ?_
    intro r
    split
    · refine .call (h2 _ _) ?_
      intro r
      split
      · exact hk _
      · exact hk _
    · exact hk _

theorem uses_rfindFreeC {S : Call (TEntry L) → Prop} {pk : Prop} (r : RTable P L)
    {k : Option U64 → RClient L} (h1 : S .findFree) (hk : ∀ b, (k b).Uses S pk) : (rfindFreeC r k).Uses S pk := by
  refine .call h1 ?_
  intro r
  split
  · exact hk _
  · exact hk _

theorem uses_rbyLabelC {S : Call (TEntry L) → Prop} {pk : Prop} (r : RTable P L) (sel : L → Bool) (hp : pk) :
    ∀ ks acc, (rbyLabelC r sel ks acc).Uses S pk
  | [], acc => .ret _
  | k :: ks, acc => by
    refine .peek hp fun t => ?_
    split
    · exact .ret _
    · split
      · exact uses_rbyLabelC r sel hp ks _
      · exact uses_rbyLabelC r sel hp ks _

/-- the calls made below a call of the ranged table -/
theorem uses_rcode (r : RTable P L) (c : RCall L) (S : Call (TEntry L) → Prop) (pk : Prop)
    (hget : ∀ i, S (.get i)) (hfree : ∀ i, S (.isFree i)) (hclaim : ∀ i e, S (.claim i e)) (hfind : S .findFree)
    (hupd : ∀ i e, S (.update i e)) (hsize : S .size) (hhas : ∀ i, S (.has i))
    (hrel : (∃ id, c = .release id) → ∀ i, S (.release i))
    (hall : c = .getAll → S .getAll) (hit : (∃ sel, c = .getByLabel sel) → S .iterate ∧ pk) :
    (rcode r c).Uses S pk := by
  cases c with
  | get id =>
    simp only [rcode]
    split
    · exact .ret _
    · refine .call (hget _) fun r => ?_
      split <;> exact .ret _
  | claim id l =>
    simp only [rcode]
    exact uses_rclaimC r id l hfree hclaim (fun _ => .ret _)
  | claimFree l =>
    simp only [rcode]
    refine uses_rfindFreeC r hfind ?_
    rintro (_ | id)
    · exact .ret _
    · exact uses_rclaimC r id l hfree hclaim (fun _ => .ret _)
  | release id =>
    simp only [rcode]
    split
    · exact .ret _
    · refine .call (hrel ⟨_, rfl⟩ _) fun r => ?_
      split <;> exact .ret _
  | update id l =>
    simp only [rcode]
    split
    · exact .ret _
    · refine .call (hupd _ _) fun r => ?_
      split <;> exact .ret _
  | size =>
    refine .call hsize fun r => ?_
    split <;> exact .ret _
  | has id =>
    simp only [rcode]
    split
    · exact .ret _
    · refine .call (hhas _) fun r => ?_
      split <;> exact .ret _
  | isFree id =>
    simp only [rcode]
    split
    · exact .ret _
    · refine .call (hfree _) fun r => ?_
      split <;> exact .ret _
  | findFree =>
    simp only [rcode]
    refine uses_rfindFreeC r hfind ?_
    rintro (_ | id)
    · exact .ret _
    · exact .ret _
  | getAll =>
    refine .call hsize fun _ => .call (hall rfl) fun r => ?_
    split <;> exact .ret _
  | getByLabel sel =>
    refine .call hsize fun _ => .call (hit ⟨_, rfl⟩).1 fun r => ?_
    split
    · exact uses_rbyLabelC _ sel (hit ⟨_, rfl⟩).2 _ _
    · exact .ret _

theorem path_rclaimC {r : RTable P L} {id : U64} {l : L} {k : Bool → RClient L}
    {G : List (Call (TEntry L) × Reply (TEntry L))} {y : RReply L} (h : (rclaimC r id l k).Path G (.ret y)) :
    (∃ G', (k false).Path G' (.ret y)) ∨
    (validateID r id = .ok () ∧ (∃ G', (k true).Path G' (.ret y)) ∧
      ∃ e, (Call.claim (calculateIndex (id.setWidth P.W) r.start) e, Reply.ok) ∈ G) := by
  unfold rclaimC at h
  cases hv : validateID r id with
  | error e => rw [hv] at h; exact .inl ⟨_, h⟩
  | ok u =>
    rw [hv] at h
    obtain ⟨r1, G1, rfl, h1⟩ := path_call h
    try simp only at h1
    split at h1
    · obtain ⟨r2, G2, rfl, h2⟩ := path_call h1
      try simp only at h2
      split at h2
      · exact .inr ⟨rfl, ⟨_, h2⟩, _, List.mem_cons_of_mem _ (List.mem_cons_self ..)⟩
      · exact .inl ⟨_, h2⟩
    · exact .inl ⟨_, h1⟩

/-- a successful claim of a ranged table is one of the index table -/
theorem path_rclaims (hP : Good P) {r : RTable P L} {c : RCall L} {id : U64}
    {G : List (Call (TEntry L) × Reply (TEntry L))} {y : RReply L} (h : (rcode r c).Path G (.ret y))
    (hc : RClaims id c y) : validateID r id = .ok () ∧
      ∃ e, (Call.claim (calculateIndex (id.setWidth P.W) r.start) e, Reply.ok) ∈ G := by
  cases c with
  | claim i l =>
    obtain ⟨rfl, rfl⟩ := hc
    simp only [rcode] at h
    rcases path_rclaimC h with ⟨_, h1⟩ | ⟨hv, _, h2⟩
    · have := (path_ret h1).2
      cases this
    · exact ⟨hv, h2⟩
  | claimFree l =>
    obtain ⟨e, rfl, rfl⟩ := hc
    simp only [rcode] at h
    obtain ⟨r1, G1, rfl, h1⟩ := path_call h
    try simp only at h1
    have key : ∀ i, (rclaimC r i l fun b => .ret (if b then .entry (storedEntry P i l) else .err)).Path G1
        (.ret (.entry e)) → validateID r e.id = .ok () ∧
      ∃ x, (Call.claim (calculateIndex (e.id.setWidth P.W) r.start) x, Reply.ok) ∈ G1 := by
      intro i h1
      rcases path_rclaimC h1 with ⟨_, h2⟩ | ⟨hv, ⟨_, h2⟩, h3⟩
      · have := (path_ret h2).2
        cases this
      · have := (path_ret h2).2
        simp only [if_true] at this
        injection this with this
        injection this with this
        subst this
        have hi := (validateID_iff hP r i).1 hv
        have : (storedEntry P i l).id = i := by
          apply BitVec.eq_of_toNat_eq
          have h4 := r.stop.isLt
          show ((i.setWidth P.W).setWidth 64).toNat = _
          rw [setWidth_toNat hP, narrow_toNat (P := P) i (by unfold Ranged.InR at hi; omega)]
        rw [this]
        exact ⟨hv, h3⟩
    split at h1
    · obtain ⟨hv, x, hx⟩ := key _ h1
      exact ⟨hv, x, List.mem_cons_of_mem _ hx⟩
    · have := (path_ret h1).2
      cases this
  | _ => cases hc

/-- a release of the index table below a ranged table -/
theorem path_rreleases (hP : Good P) {r : RTable P L} {id : U64} (hid : validateID r id = .ok ()) {c : RCall L}
    {G : List (Call (TEntry L) × Reply (TEntry L))} {d : RClient L} {x : Call (TEntry L)} {y : Reply (TEntry L)}
    (h : (rcode r c).Path G d) (hx : (x, y) ∈ G)
    (hr : Releases (calculateIndex (id.setWidth P.W) r.start) x y) :
    (∃ r', RReleases id c r') ∧ ∀ r', d = .ret r' → RReleases id c r' := by
  by_cases hc : ∃ i, c = .release i
  · obtain ⟨i, rfl⟩ := hc
    simp only [rcode] at h
    cases hv : validateID r i with
    | error e =>
      rw [hv] at h
      obtain ⟨rfl, _⟩ := path_ret h
      cases hx
    | ok u =>
      rw [hv] at h
      rcases path_call' h with ⟨rfl, _⟩ | ⟨r1, G1, rfl, h1⟩
      · cases hx
      · have hG1 : G1 = [] := by
          try simp only at h1
          split at h1 <;> exact (path_ret h1).1
        subst hG1
        simp only [List.mem_cons, List.not_mem_nil, or_false] at hx
        injection hx with hx1 hx2
        subst hx1 hx2
        obtain ⟨hi, rfl⟩ := hr
        have hii : i = id := by
          have h2 := (validateID_iff hP r i).1 hv
          have h3 := (validateID_iff hP r id).1 hid
          have h4 := index_toNat hP r.start r.stop i h2
          have h5 := index_toNat hP r.start r.stop id h3
          rw [hi] at h4
          apply BitVec.eq_of_toNat_eq
          unfold Ranged.InR at h2 h3
          omega
        refine ⟨⟨.ok, hii, rfl⟩, ?_⟩
        intro r' hr'
        subst hr'
        have := (path_ret h1).2
        cases this
        exact ⟨hii, rfl⟩
  · have hu : (rcode r c).Uses NoRelease True := by
      refine uses_rcode r c _ _ ?_ ?_ ?_ ?_ ?_ ?_ ?_ (fun h => absurd h hc) ?_ ?_
      all_goals first | (intros; intro i h; cases h; done) | skip
      exact fun _ => ⟨fun i h => (by cases h), trivial⟩
    have := Client.Uses.path h hu _ hx
    cases x with
    | release i => exact absurd rfl (this i)
    | _ => cases hr

end Ranged

section IP
open Verif.IPTable
variable {R : Type} {parse : String → Option Addr}

theorem uses_ibyLabelC {S : Call R → Prop} {pk : Prop} (sel : R → Bool) (hp : pk) :
    ∀ ks acc, (ibyLabelC sel ks acc).Uses S pk
  | [], acc => .ret _
  | k :: ks, acc => by
    refine .peek hp fun t => ?_
    split
    · exact .ret _
    · split
      · refine .peek hp fun t => ?_
        split
        · exact .ret _
        · exact uses_ibyLabelC sel hp ks _
      · exact uses_ibyLabelC sel hp ks _

/-- the calls made below a call of the IP table -/
theorem uses_icode (r : IPTab R) (c : ICall R) (S : Call R → Prop) (pk : Prop)
    (hget : ∀ i, S (.get i)) (hfree : ∀ i, S (.isFree i)) (hclaim : ∀ i e, S (.claim i e)) (hfind : S .findFree)
    (hupd : ∀ i e, S (.update i e)) (hsize : S .size) (hhas : ∀ i, S (.has i))
    (hrel : (∃ x, c = .release x) → ∀ i, S (.release i))
    (hall : c = .getAll → S .getAll) (hit : (∃ sel, c = .getByLabel sel) → S .iterate ∧ pk) :
    (icode parse r c).Uses S pk := by
  cases c with
  | get x =>
    simp only [icode]
    split
    · exact .ret _
    · refine .call (hget _) fun r => ?_
      split <;> exact .ret _
  | claim x d =>
    simp only [icode]
    split
    · exact .ret _
    · refine .call (hfree _) fun r => ?_
      split
      · refine .call (hclaim _ _) fun r => ?_
        split <;> exact .ret _
      · exact .ret _
  | release x =>
    simp only [icode]
    split
    · exact .ret _
    · refine .call (hrel ⟨_, rfl⟩ _) fun r => ?_
      split <;> exact .ret _
  | update x d =>
    simp only [icode]
    split
    · exact .ret _
    · refine .call (hfree _) fun r => ?_
      split
      · refine .call (hupd _ _) fun r => ?_
        split <;> exact .ret _
      · exact .ret _
  | size =>
    refine .call hsize fun r => ?_
    split <;> exact .ret _
  | has x =>
    simp only [icode]
    split
    · exact .ret _
    · refine .call (hhas _) fun r => ?_
      split <;> exact .ret _
  | isFree x =>
    simp only [icode]
    split
    · exact .ret _
    · refine .call (hfree _) fun r => ?_
      split <;> exact .ret _
  | findFree =>
    refine .call hfind fun r => ?_
    split
    · split <;> exact .ret _
    · exact .ret _
  | getAll =>
    refine .call (hall rfl) fun r => ?_
    split <;> exact .ret _
  | getByLabel sel =>
    refine .call (hit ⟨_, rfl⟩).1 fun r => ?_
    split
    · exact uses_ibyLabelC sel (hit ⟨_, rfl⟩).2 _ _
    · exact .ret _

/-- a successful claim of an IP table is one of the index table -/
theorem path_iclaims {r : IPTab R} {c : ICall R} {a : Addr} {G : List (Call R × Reply R)} {y : IReply R}
    (h : (icode parse r c).Path G (.ret y)) (hc : IClaims parse a c y) :
    r.ipRange.contains a = true ∧ ∃ e, (Call.claim (calculateIndex a r.ipRange.lo) e, Reply.ok) ∈ G := by
  cases c with
  | claim x d =>
    obtain ⟨hp, rfl⟩ := hc
    simp only [icode] at h
    by_cases hin : r.ipRange.contains a = true
    · have hv : validateIP parse r x = .ok a := by simp [validateIP, hp, hin]
      rw [hv] at h
      refine ⟨hin, ?_⟩
      obtain ⟨r1, G1, rfl, h1⟩ := path_call h
      try simp only at h1
      split at h1
      · obtain ⟨r2, G2, rfl, h2⟩ := path_call h1
        try simp only at h2
        split at h2
        · exact ⟨d, by simp⟩
        · have := (path_ret h2).2
          cases this
      · have := (path_ret h1).2
        cases this
    · have hv : validateIP parse r x = .error .outOfRange := by simp [validateIP, hp, hin]
      rw [hv] at h
      have := (path_ret h).2
      cases this
  | _ => cases hc

/-- a release of the index table below an IP table -/
theorem path_ireleases {lo hi : Addr} (hs : MidRange lo hi) {r : IPTab R} (hrr : r.ipRange = ipRangeFrom lo hi) {a : Addr}
    (ha : r.ipRange.contains a = true) {c : ICall R} {G : List (Call R × Reply R)} {d : IClient R} {x : Call R}
    {y : Reply R} (h : (icode parse r c).Path G d) (hx : (x, y) ∈ G)
    (hr : Releases (calculateIndex a r.ipRange.lo) x y) :
    (∃ r', IReleases parse a c r') ∧ ∀ r', d = .ret r' → IReleases parse a c r' := by
  by_cases hc : ∃ z, c = .release z
  · obtain ⟨z, rfl⟩ := hc
    simp only [icode] at h
    cases hp : parse z with
    | none =>
      have hv : validateIP parse r z = .error .invalid := by simp [validateIP, hp]
      rw [hv] at h
      obtain ⟨rfl, _⟩ := path_ret h
      cases hx
    | some b =>
      by_cases hin : r.ipRange.contains b = true
      · have hv : validateIP parse r z = .ok b := by simp [validateIP, hp, hin]
        rw [hv] at h
        rcases path_call' h with ⟨rfl, _⟩ | ⟨r1, G1, rfl, h1⟩
        · cases hx
        · have hG1 : G1 = [] := by
            try simp only at h1
            split at h1 <;> exact (path_ret h1).1
          subst hG1
          simp only [List.mem_cons, List.not_mem_nil, or_false] at hx
          injection hx with hx1 hx2
          subst hx1 hx2
          obtain ⟨hi, rfl⟩ := hr
          have hab : b = a := by
            rw [hrr] at ha hin hi
            exact idxA_inj hs ((contains_iff _ _ _).1 hin) ((contains_iff _ _ _).1 ha) hi
          subst hab
          refine ⟨⟨.ok, hp, rfl⟩, ?_⟩
          intro r' hr'
          subst hr'
          have := (path_ret h1).2
          cases this
          exact ⟨hp, rfl⟩
      · have hv : validateIP parse r z = .error .outOfRange := by simp [validateIP, hp, hin]
        rw [hv] at h
        obtain ⟨rfl, _⟩ := path_ret h
        cases hx
  · have hu : (icode parse r c).Uses NoRelease True := by
      refine uses_icode r c _ _ ?_ ?_ ?_ ?_ ?_ ?_ ?_ (fun h => absurd h hc) ?_ ?_
      all_goals first | (intros; intro i h; cases h; done) | skip
      exact fun _ => ⟨fun i h => (by cases h), trivial⟩
    have := Client.Uses.path h hu _ hx
    cases x with
    | release i => exact absurd rfl (this i)
    | _ => cases hr

end IP
end Verif.Conc
