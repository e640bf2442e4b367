import Verif.Conc.Lin
import Verif.Conc.LabelProps

/-!
C79: linearizability of the ranged tables and the IP table.
-/

namespace Verif.Conc
open Verif.IdxTable (U64 Table Entry Call Reply)

section Ranged
open Verif.Ranged
variable {P : Width} {L : Type}

/-- the second half of `Claim` -/
def rclaim2 (r : RTable P L) (id : U64) (l : L) (k : Bool → RClient L) : RClient L :=
  .call (.claim (calculateIndex (id.setWidth P.W) r.start) (storedEntry P (calculateIndex (id.setWidth P.W) r.start) l)) fun
    | .ok => k true
    | _ => k false

def replyClaim : Bool → RClient L := fun b => .ret (if b then .ok else .err)
def replyFree (P : Width) (id : U64) (l : L) : Bool → RClient L :=
  fun b => .ret (if b then .entry (storedEntry P id l) else .err)

/-- a call that has not taken effect, and what it still has to do; `Q` holds if `FindFree` can succeed -/
inductive RPend (Q : Prop) (r : RTable P L) : RCall L → RClient L → Prop
  | start (c) : RPend Q r c (rcode r c)
  | claim {id l} : validateID r id = .ok () → RPend Q r (.claim id l) (rclaim2 r id l replyClaim)
  | free {id l} : Q → RPend Q r (.claimFree l) (rclaimC r id l (replyFree P id l))
  | free2 {id l} : Q → validateID r id = .ok () → RPend Q r (.claimFree l) (rclaim2 r id l (replyFree P id l))
  | freeErr {l} : RPend Q r (.claimFree l) (.ret .err)
  | all : RPend Q r .getAll (.call .getAll fun
    | .entries es => .ret (replyEntries (getAllLoop r es))
    | _ => .ret .err)
  | label {sel d} : d.Uses (fun c => c = .size ∨ c = .iterate) True → RPend Q r (.getByLabel sel) d

/-- what a call may do, on tables -/
def RSt (start stop : BitVec P.W) (m : Table (TEntry L)) (c : RCall L) (m' : Table (TEntry L)) (r : RReply L) : Prop :=
  RStepW start.toNat stop.toNat P.storedLen P.outLen (absR (⟨m, start, stop⟩ : RTable P L)) c
    (absR (⟨m', start, stop⟩ : RTable P L)) r

theorem RStepW.of {start stop len1 len2 : Nat} {s s' : LMap L} {c : RCall L} {r : RReply L}
    (h : RStep start stop len1 len2 s c s' r) : RStepW start stop len1 len2 s c s' r := by
  cases c with
  | claimFree l =>
    rcases h with ⟨i, h1, h2, h3⟩ | ⟨_, h2, h3⟩
    · exact .inl ⟨i, h1.1, h2, h3⟩
    · exact .inr ⟨h2, h3⟩
  | getByLabel sel => exact h.1
  | _ => exact h

section
variable {start stop : BitVec P.W}

theorem rst_of_step (hP : Good P) (hf : stop.toNat - start.toNat + 1 < 2 ^ P.W) {m m' : Table (TEntry L)} {c : RCall L}
    {r : RReply L} (hJ : RInv (⟨m, start, stop⟩ : RTable P L))
    (hs : Ranged.step (⟨m, start, stop⟩ : RTable P L) c = (⟨m', start, stop⟩, r)) :
    RInv (⟨m', start, stop⟩ : RTable P L) ∧ RSt start stop m c m' r := by
  obtain ⟨h1, h2, _⟩ := step_refines hP _ hJ hf c
  rw [hs] at h1 h2
  exact ⟨h2, .of h1⟩

/-- the second half of `Claim` decides -/
theorem claim2_step {m : Table (TEntry L)} {id : U64} {l : L}
    (hv : validateID (⟨m, start, stop⟩ : RTable P L) id = .ok ()) :
    let i := calculateIndex (id.setWidth P.W) start
    let q := IdxTable.step m (.claim i (storedEntry P i l))
    (q.2 = .ok ∧ Ranged.step (⟨m, start, stop⟩ : RTable P L) (.claim id l) = (⟨q.1, start, stop⟩, .ok)) ∨
    (q.2 ≠ .ok ∧ q.1 = m ∧ Ranged.step (⟨m, start, stop⟩ : RTable P L) (.claim id l) = (⟨m, start, stop⟩, .err)) := by
  intro i q
  simp only [Ranged.step, Ranged.claim, hv]
  simp only [q, IdxTable.step, IdxTable.claim, IdxTable.add, Ranged.lift, IdxTable.isFree]
  by_cases hfree : IdxTable.isFreeB m i = true
  · have h1 : IdxTable.isFreeB m (calculateIndex (id.setWidth P.W) start) = true := hfree
    simp only [h1, i]
    cases hval : IdxTable.validate m (calculateIndex (id.setWidth P.W) start) with
    | ok u => left; simp [IdxTable.replyUnit, Ranged.replyUnit]
    | error e => right; simp [IdxTable.replyUnit, Ranged.replyUnit]
  · have h1 : IdxTable.isFreeB m (calculateIndex (id.setWidth P.W) start) = false := by simpa using hfree
    right
    simp only [h1, i]
    cases hval : IdxTable.validate m (calculateIndex (id.setWidth P.W) start) with
    | ok u => simp [IdxTable.replyUnit, Ranged.replyUnit]
    | error e => simp [IdxTable.replyUnit, Ranged.replyUnit]

/-- `ClaimFree` with a claim that succeeds -/
theorem free2_rst (hP : Good P) (hf : stop.toNat - start.toNat + 1 < 2 ^ P.W) {m m' : Table (TEntry L)} {id : U64} {l : L}
    (hJ : RInv (⟨m, start, stop⟩ : RTable P L))
    (hv : validateID (⟨m, start, stop⟩ : RTable P L) id = .ok ())
    (hs : Ranged.step (⟨m, start, stop⟩ : RTable P L) (.claim id l) = (⟨m', start, stop⟩, .ok)) :
    RInv (⟨m', start, stop⟩ : RTable P L) ∧ RSt start stop m (.claimFree l) m' (.entry (storedEntry P id l)) := by
  obtain ⟨h1, h2, _⟩ := step_refines hP _ hJ hf (.claim id l)
  rw [hs] at h1 h2
  refine ⟨h2, ?_⟩
  have hin := (validateID_iff hP _ _).1 hv
  have hid : storedEntry P id l = ⟨id, P.storedLen, l⟩ := by
    unfold storedEntry
    congr 1
    apply BitVec.eq_of_toNat_eq
    have h3 := stop.isLt
    have h4 : id.toNat ≤ stop.toNat := hin.2
    rw [setWidth_toNat hP, narrow_toNat (P := P) _ (by omega)]
  rcases h1 with ⟨h3, h4, _⟩ | ⟨_, _, h5⟩
  · exact .inl ⟨id, h3, h4, by rw [hid]⟩
  · cases h5

theorem rcode_label (r : RTable P L) (sel : L → Bool) :
    (rcode r (.getByLabel sel)).Uses (fun c => c = .size ∨ c = .iterate) True := by
  refine .call (.inl rfl) fun _ => .call (.inr rfl) fun x => ?_
  split
  · exact uses_rbyLabelC r sel trivial _ _
  · exact .ret _

theorem getAllLoop_tab (t m : Table (TEntry L)) : ∀ es, getAllLoop (⟨t, start, stop⟩ : RTable P L) es =
    getAllLoop (⟨m, start, stop⟩ : RTable P L) es
  | [] => rfl
  | none :: _ => rfl
  | some e :: es => by simp only [getAllLoop, getAllLoop_tab t m es]; rfl

/-- what the linearization points use of the specification `St` of the calls -/
structure RPts (start stop : BitVec P.W) (Q : Prop)
    (St : Table (TEntry L) → RCall L → Table (TEntry L) → RReply L → Prop) : Prop where
  step : ∀ {m m' : Table (TEntry L)} {c r}, RInv (⟨m, start, stop⟩ : RTable P L) →
    Ranged.step (⟨m, start, stop⟩ : RTable P L) c = (⟨m', start, stop⟩, r) →
    RInv (⟨m', start, stop⟩ : RTable P L) ∧ St m c m' r
  find : ∀ {m : Table (TEntry L)} {i}, RInv (⟨m, start, stop⟩ : RTable P L) → IdxTable.findFree m = .ok i → Q
  free : ∀ {m m' : Table (TEntry L)} {id l}, Q → RInv (⟨m, start, stop⟩ : RTable P L) →
    validateID (⟨m, start, stop⟩ : RTable P L) id = .ok () →
    Ranged.step (⟨m, start, stop⟩ : RTable P L) (.claim id l) = (⟨m', start, stop⟩, .ok) →
    RInv (⟨m', start, stop⟩ : RTable P L) ∧ St m (.claimFree l) m' (.entry (storedEntry P id l))
  freeErr : ∀ {m : Table (TEntry L)} {l}, St m (.claimFree l) m .err
  label : ∀ {m : Table (TEntry L)} {sel r}, St m (.getByLabel sel) m r

/-- the linearization points of the ranged tables -/
theorem rpend_lin {Q : Prop} {St : Table (TEntry L) → RCall L → Table (TEntry L) → RReply L → Prop}
    (hS : RPts start stop Q St) (t : Table (TEntry L)) (see : Table (TEntry L) → Table (TEntry L) → Prop) :
    LinPts (rcode (⟨t, start, stop⟩ : RTable P L)) IdxTable.step see (fun m => RInv (⟨m, start, stop⟩ : RTable P L))
      St (RPend Q ⟨t, start, stop⟩) where
  start := .start
  call := by
    intro c x k m hp hJ
    -- an atomic call at which the call takes effect as in the sequential model
    have fin : ∀ r, Ranged.step (⟨m, start, stop⟩ : RTable P L) c = (⟨(IdxTable.step m x).1, start, stop⟩, r) →
        k (IdxTable.step m x).2 = .ret r → RInv (⟨(IdxTable.step m x).1, start, stop⟩ : RTable P L) ∧
          (((IdxTable.step m x).1 = m ∧ RPend Q ⟨t, start, stop⟩ c (k (IdxTable.step m x).2)) ∨
            ∃ r, St m c (IdxTable.step m x).1 r ∧ k (IdxTable.step m x).2 = .ret r) := by
      intro r h1 h2
      obtain ⟨h3, h4⟩ := hS.step hJ h1
      exact ⟨h3, .inr ⟨r, h4, h2⟩⟩
    generalize hd : Client.call x k = d at hp
    cases hp with
    | start c =>
      cases c with
      | get id =>
        simp only [rcode] at hd
        split at hd
        · cases hd
        · rename_i hv
          have hv' : validateID (⟨m, start, stop⟩ : RTable P L) id = .ok () := hv
          cases hd
          cases hg : IdxTable.get m (calculateIndex (id.setWidth P.W) start) with
          | ok e =>
            exact fin (.labels e.data.labels) (by simp [Ranged.step, Ranged.get, hv', hg, IdxTable.step])
              (by simp [IdxTable.step, hg, IdxTable.replyEntry])
          | error e =>
            exact fin .err (by simp [Ranged.step, Ranged.get, hv', hg, IdxTable.step])
              (by simp [IdxTable.step, hg, IdxTable.replyEntry])
      | claim id l =>
        simp only [rcode, rclaimC] at hd
        split at hd
        · cases hd
        · rename_i hv
          have hv' : validateID (⟨m, start, stop⟩ : RTable P L) id = .ok () := hv
          cases hd
          cases hfr : IdxTable.isFree m (calculateIndex (id.setWidth P.W) start) with
          | true =>
            refine ⟨hJ, .inl ⟨rfl, ?_⟩⟩
            simp only [IdxTable.step, hfr]
            exact .claim hv
          | false =>
            exact fin .err (by simp [Ranged.step, Ranged.claim, hv', hfr, IdxTable.step, Ranged.replyUnit])
              (by simp [IdxTable.step, hfr])
      | claimFree l =>
        simp only [rcode, rfindFreeC] at hd
        cases hd
        refine ⟨hJ, .inl ⟨rfl, ?_⟩⟩
        cases hff : IdxTable.findFree m with
        | ok i => simp only [IdxTable.step, hff, IdxTable.replyId]; exact .free (hS.find hJ hff)
        | error e => simp only [IdxTable.step, hff, IdxTable.replyId]; exact .freeErr
      | release id =>
        simp only [rcode] at hd
        split at hd
        · cases hd
        · rename_i hv
          have hv' : validateID (⟨m, start, stop⟩ : RTable P L) id = .ok () := hv
          cases hd
          cases hg : (IdxTable.release m (calculateIndex (id.setWidth P.W) start)).2 with
          | ok e =>
            exact fin .ok (by simp [Ranged.step, Ranged.release, Ranged.lift, hv', hg, IdxTable.step, Ranged.replyUnit])
              (by simp [IdxTable.step, hg, IdxTable.replyUnit])
          | error e =>
            exact fin .err (by simp [Ranged.step, Ranged.release, Ranged.lift, hv', hg, IdxTable.step, Ranged.replyUnit])
              (by simp [IdxTable.step, hg, IdxTable.replyUnit])
      | update id l =>
        simp only [rcode] at hd
        split at hd
        · cases hd
        · rename_i hv
          have hv' : validateID (⟨m, start, stop⟩ : RTable P L) id = .ok () := hv
          cases hd
          cases hg : (IdxTable.update m (calculateIndex (id.setWidth P.W) start)
              (storedEntry P (calculateIndex (id.setWidth P.W) start) l)).2 with
          | ok e =>
            exact fin .ok (by simp [Ranged.step, Ranged.update, Ranged.lift, hv', hg, IdxTable.step, Ranged.replyUnit])
              (by simp [IdxTable.step, hg, IdxTable.replyUnit])
          | error e =>
            exact fin .err (by simp [Ranged.step, Ranged.update, Ranged.lift, hv', hg, IdxTable.step, Ranged.replyUnit])
              (by simp [IdxTable.step, hg, IdxTable.replyUnit])
      | size =>
        simp only [rcode] at hd
        cases hd
        exact fin (.nat (IdxTable.sizeOf m)) rfl rfl
      | has id =>
        simp only [rcode] at hd
        split at hd
        · cases hd
        · rename_i hv
          have hv' : validateID (⟨m, start, stop⟩ : RTable P L) id = .ok () := hv
          cases hd
          exact fin (.bool (IdxTable.has m (calculateIndex (id.setWidth P.W) start)))
            (by simp [Ranged.step, Ranged.has, hv', IdxTable.step]) (by simp [IdxTable.step])
      | isFree id =>
        simp only [rcode] at hd
        split at hd
        · cases hd
        · rename_i hv
          have hv' : validateID (⟨m, start, stop⟩ : RTable P L) id = .ok () := hv
          cases hd
          exact fin (.bool (IdxTable.isFree m (calculateIndex (id.setWidth P.W) start)))
            (by simp [Ranged.step, Ranged.isFree, hv', IdxTable.step]) (by simp [IdxTable.step])
      | findFree =>
        simp only [rcode, rfindFreeC] at hd
        cases hd
        cases hff : IdxTable.findFree m with
        | ok i =>
          exact fin (.id ((calculateIDFromIndex start i).setWidth 64))
            (by simp [Ranged.step, Ranged.findFree, hff, IdxTable.step]) (by simp [IdxTable.step, hff, IdxTable.replyId])
        | error e =>
          exact fin .err
            (by simp [Ranged.step, Ranged.findFree, hff, IdxTable.step]) (by simp [IdxTable.step, hff, IdxTable.replyId])
      | getAll =>
        simp only [rcode] at hd
        cases hd
        exact ⟨hJ, .inl ⟨rfl, .all⟩⟩
      | getByLabel sel =>
        have hu := rcode_label (⟨t, start, stop⟩ : RTable P L) sel
        rw [← hd] at hu
        cases hu with
        | call h1 h2 => rcases h1 with rfl | rfl <;> exact ⟨hJ, .inl ⟨rfl, .label (h2 _)⟩⟩
    | @claim id l hv =>
      have hv' : validateID (⟨m, start, stop⟩ : RTable P L) id = .ok () := hv
      unfold rclaim2 at hd
      cases hd
      rcases claim2_step (l := l) hv' with ⟨h1, h2⟩ | ⟨h1, h2, h3⟩
      · exact fin .ok h2 (by simp only; rw [h1]; rfl)
      · refine fin .err (by rw [h3, h2]) ?_
        simp only
        rfl
    | @free id l hq =>
      unfold rclaimC at hd
      split at hd
      · cases hd
      · rename_i hv
        cases hd
        refine ⟨hJ, .inl ⟨rfl, ?_⟩⟩
        cases hfr : IdxTable.isFree m (calculateIndex (id.setWidth P.W) start) with
        | true => simp only [IdxTable.step, hfr]; exact .free2 hq hv
        | false => simp only [IdxTable.step, hfr]; exact .freeErr
    | @free2 id l hq hv =>
      have hv' : validateID (⟨m, start, stop⟩ : RTable P L) id = .ok () := hv
      unfold rclaim2 at hd
      cases hd
      rcases claim2_step (l := l) hv' with ⟨h1, h2⟩ | ⟨h1, h2, h3⟩
      · obtain ⟨h4, h5⟩ := hS.free hq hJ hv' h2
        exact ⟨h4, .inr ⟨_, h5, by simp only; rw [h1]; rfl⟩⟩
      · refine ⟨by rw [h2]; exact hJ, .inl ⟨h2, ?_⟩⟩
        simp only
        exact .freeErr
    | freeErr => cases hd
    | all =>
      cases hd
      refine fin (replyEntries (getAll (⟨m, start, stop⟩ : RTable P L))) rfl ?_
      simp only [IdxTable.step]
      rw [getAllLoop_tab t m]
      rfl
    | label hu =>
      rw [← hd] at hu
      cases hu with
      | call h1 h2 => rcases h1 with rfl | rfl <;> exact ⟨hJ, .inl ⟨rfl, .label (h2 _)⟩⟩
  peek := by
    intro c k m s hp hJ _
    generalize hd : Client.peek k = d at hp
    cases hp with
    | start c =>
      cases c with
      | getByLabel sel =>
        have hu := rcode_label (⟨t, start, stop⟩ : RTable P L) sel
        rw [← hd] at hu
        cases hu with
        | peek _ h2 => exact .label (h2 _)
      | size => cases hd
      | getAll => cases hd
      | findFree => cases hd
      | claimFree l => cases hd
      | _ =>
        simp only [rcode, rclaimC] at hd
        split at hd <;> cases hd
    | claim hv => cases hd
    | free _ =>
      unfold rclaimC at hd
      split at hd <;> cases hd
    | free2 _ hv => cases hd
    | freeErr => cases hd
    | all => cases hd
    | label hu =>
      rw [← hd] at hu
      cases hu with
      | peek _ h2 => exact .label (h2 _)
  ret := by
    intro c r m hp hJ
    generalize hd : Client.ret r = d at hp
    have fin : ∀ r', Ranged.step (⟨m, start, stop⟩ : RTable P L) c = (⟨m, start, stop⟩, r') → r = r' →
        St m c m r := by
      rintro r' h1 rfl
      exact (hS.step hJ h1).2
    cases hp with
    | start c =>
      cases c with
      | get id =>
        simp only [rcode] at hd
        split at hd
        · rename_i e hv
          have hv' : validateID (⟨m, start, stop⟩ : RTable P L) id = .error e := hv
          cases hd
          exact fin .err (by simp [Ranged.step, Ranged.get, hv']) rfl
        · cases hd
      | claim id l =>
        simp only [rcode, rclaimC] at hd
        split at hd
        · rename_i e hv
          have hv' : validateID (⟨m, start, stop⟩ : RTable P L) id = .error e := hv
          cases hd
          exact fin .err (by simp [Ranged.step, Ranged.claim, hv', Ranged.replyUnit]) rfl
        · cases hd
      | release id =>
        simp only [rcode] at hd
        split at hd
        · rename_i e hv
          have hv' : validateID (⟨m, start, stop⟩ : RTable P L) id = .error e := hv
          cases hd
          exact fin .err (by simp [Ranged.step, Ranged.release, hv', Ranged.replyUnit]) rfl
        · cases hd
      | update id l =>
        simp only [rcode] at hd
        split at hd
        · rename_i e hv
          have hv' : validateID (⟨m, start, stop⟩ : RTable P L) id = .error e := hv
          cases hd
          exact fin .err (by simp [Ranged.step, Ranged.update, hv', Ranged.replyUnit]) rfl
        · cases hd
      | has id =>
        simp only [rcode] at hd
        split at hd
        · rename_i e hv
          have hv' : validateID (⟨m, start, stop⟩ : RTable P L) id = .error e := hv
          cases hd
          exact fin (.bool false) (by simp [Ranged.step, Ranged.has, hv']) rfl
        · cases hd
      | isFree id =>
        simp only [rcode] at hd
        split at hd
        · rename_i e hv
          have hv' : validateID (⟨m, start, stop⟩ : RTable P L) id = .error e := hv
          cases hd
          exact fin (.bool false) (by simp [Ranged.step, Ranged.isFree, hv']) rfl
        · cases hd
      | size => cases hd
      | findFree => cases hd
      | claimFree l => cases hd
      | getAll => cases hd
      | getByLabel sel => cases hd
    | claim hv => cases hd
    | free _ =>
      unfold rclaimC at hd
      split at hd
      · cases hd
        exact hS.freeErr
      · cases hd
    | free2 _ hv => cases hd
    | freeErr =>
      cases hd
      exact hS.freeErr
    | all => cases hd
    | label hu => exact hS.label

/-- the specification of a table that is not full -/
theorem rpts (hP : Good P) (hf : stop.toNat - start.toNat + 1 < 2 ^ P.W) : RPts (L := L) start stop True (RSt start stop) where
  step := rst_of_step hP hf
  find _ _ := trivial
  free _ := free2_rst hP hf
  freeErr := .inr ⟨rfl, rfl⟩
  label := rfl

/-- the order of the calls, as a run of the specification -/
theorem srun_spec {m m' : Table (TEntry L)} {G : List (Nat × RCall L × RReply L)} (h : SRuns (RSt start stop) m G m') :
    RRunW start.toNat stop.toNat P.storedLen P.outLen (absR (⟨m, start, stop⟩ : RTable P L)) (G.map (·.2.1))
      (G.map (·.2.2)) (absR (⟨m', start, stop⟩ : RTable P L)) := by
  induction h with
  | nil => exact .nil _
  | cons hs _ ih => exact .cons hs ih

/-- Every history of concurrent calls of a ranged table is linearizable, if `ClaimFree` is allowed to choose any
available id and to fail at any time, and `GetByLabel` to reply anything. -/
theorem C79_ranged_weak_partial (hP : IsPkg P) (hp : Proper start stop) {g : Cfg (RCall L) (Table (TEntry L)) (RReply L)} {H}
    (h : Exec (rprog start stop) (new start stop : RTable P L).tab g H) :
    LinearizableBy (fun cs rs => ∃ s, RRunW start.toNat stop.toNat P.W (max P.W 32) (fun _ => none) cs rs s) H := by
  obtain ⟨a, G, ha, _⟩ := sim sections h
  have hg := hP.good
  obtain ⟨Q, h1, h2⟩ := (rpend_lin (rpts hg hp.2) (new start stop : RTable P L).tab _).order
    (m₀ := (new start stop : RTable P L).tab) (new_inv hg start stop (BitVec.le_def.2 hp.1)) ha
  have h3 := srun_spec h2
  have he : absR (new start stop : RTable P L) = fun _ => none := by
    funext i
    unfold absR
    split
    · simp [new, IdxTable.newTable]
    · rfl
  have hl : P.storedLen = P.W := by rcases hP with rfl | rfl | rfl <;> rfl
  have he' : absR (⟨(new start stop : RTable P L).tab, start, stop⟩ : RTable P L) = fun _ => none := he
  rw [he', hl, hP.outLen] at h3
  exact ⟨Q, h1.nodup, ⟨_, h3⟩, h1.inv, h1.ret, h1.order⟩

/-- the calls other than `ClaimFree` and `GetByLabel` -/
def RPlain : RCall L → Prop
  | .claimFree _ | .getByLabel _ => False
  | _ => True

theorem RRunW.strict {a b len1 len2 : Nat} {s s' : LMap L} {cs : List (RCall L)} {rs : List (RReply L)}
    (h : RRunW a b len1 len2 s cs rs s') (hc : ∀ c ∈ cs, RPlain c) : RRun a b len1 len2 s cs rs s' := by
  induction h with
  | nil => exact .nil _
  | @cons s s' s'' c cs r rs hs _ ih =>
    refine .cons ?_ (ih fun c hc' => hc c (List.mem_cons_of_mem _ hc'))
    have := hc c (List.mem_cons_self ..)
    cases c with
    | claimFree l => exact this.elim
    | getByLabel sel => exact this.elim
    | _ => exact hs

/-- C79 for the ranged tables, for histories without `ClaimFree` and `GetByLabel`. -/
theorem C79_ranged_linearizable_partial (hP : IsPkg P) (hp : Proper start stop)
    {g : Cfg (RCall L) (Table (TEntry L)) (RReply L)} {H}
    (h : Exec (rprog start stop) (new start stop : RTable P L).tab g H)
    (hno : ∀ n c, Ev.inv n c ∈ H → RPlain c) :
    LinearizableBy (fun cs rs => ∃ s, RRun start.toNat stop.toNat P.W (max P.W 32) (fun _ => none) cs rs s) H := by
  obtain ⟨Q, h1, ⟨s, h2⟩, h3, h4, h5⟩ := C79_ranged_weak_partial hP hp h
  refine ⟨Q, h1, ⟨s, h2.strict ?_⟩, h3, h4, h5⟩
  intro c hc
  obtain ⟨x, hx, rfl⟩ := List.mem_map.1 hc
  exact hno _ _ (h3 x hx)

theorem RRun.split {a b len1 len2 : Nat} {s s' : LMap L} : ∀ {cs : List (RCall L)} {rs : List (RReply L)} {cs' rs'},
    cs.length = rs.length → RRun a b len1 len2 s (cs ++ cs') (rs ++ rs') s' →
    ∃ s₁, RRun a b len1 len2 s cs rs s₁ ∧ RRun a b len1 len2 s₁ cs' rs' s'
  | [], [], _, _, _, h => ⟨s, .nil _, h⟩
  | c :: cs, r :: rs, _, _, hl, h => by
    cases h with
    | cons h1 h2 =>
      obtain ⟨s₁, h3, h4⟩ := RRun.split (by simpa using hl) h2
      exact ⟨s₁, .cons h1 h3, h4⟩

theorem rrun_claims {a b len1 len2 : Nat} {s s' : LMap String} {cs : List (RCall String)} {rs : List (RReply String)}
    (h : RRun a b len1 len2 s cs rs s') (hc : ∀ c ∈ cs, c = .claim 10 "b") (hs : s 15 = none) : s' 15 = none := by
  induction h with
  | nil => exact hs
  | cons h1 _ ih =>
    refine ih (fun c hc' => hc c (List.mem_cons_of_mem _ hc')) ?_
    have := hc _ (List.mem_cons_self ..)
    subst this
    rcases h1 with ⟨_, rfl, _⟩ | ⟨_, rfl, _⟩
    · exact hs
    · exact hs

/-- C79 fails for the ranged tables: in this execution `ClaimFree` fails, although at most one of the eleven ids is
claimed at any time. -/
theorem C79_ranged_claimFree_violated : ∃ g H, Exec (rprog (P := w16) 10 20) exR.tab g H ∧
    ¬ LinearizableBy (fun cs rs => ∃ s, RRun 10 20 16 32 (fun _ => none) cs rs s) H := by
  obtain ⟨g, hg⟩ := C76_claimFree_fails_violated
  refine ⟨g, _, hg, ?_⟩
  rintro ⟨Q, hnd, ⟨s, hs⟩, hinv, hret, _⟩
  obtain ⟨c, hc⟩ := hret 0 .err (by simp)
  obtain ⟨Q1, Q2, rfl⟩ := List.append_of_mem hc
  have hc0 : c = .claimFree "a" := by
    have := hinv _ hc
    simpa using this
  subst hc0
  have h1 : ∀ x ∈ Q1, x.2.1 = .claim 10 "b" := by
    intro x hx
    have h2 := hinv x (List.mem_append_left _ hx)
    have h3 : x.1 ≠ 0 := by
      intro h0
      rw [List.map_append, List.nodup_append] at hnd
      exact hnd.2.2 _ (List.mem_map.2 ⟨x, hx, h0⟩) 0 (by simp) rfl
    simp only [List.mem_cons, Ev.inv.injEq, reduceCtorEq, List.not_mem_nil, or_false] at h2
    rcases h2 with h2 | h2
    · exact absurd h2.1 h3
    · exact h2.2
  rw [List.map_append, List.map_append] at hs
  obtain ⟨s₁, h2, h3⟩ := RRun.split (by simp) hs
  have h4 := rrun_claims h2 (by
    intro c hc
    obtain ⟨x, hx, rfl⟩ := List.mem_map.1 hc
    exact h1 x hx) rfl
  cases h3 with
  | cons h5 _ =>
    rcases h5 with ⟨_, _, _, h6⟩ | ⟨h6, _⟩
    · cases h6
    · exact h6 15 ⟨by unfold Ranged.InR; decide, h4⟩

/-- C79 fails for `GetByLabel` of the ranged tables, which panics. -/
theorem C79_ranged_getByLabel_violated : ∃ g H, Exec (rprog (P := w16) 10 20) exR.tab g H ∧
    ¬ LinearizableBy (fun cs rs => ∃ s, RRun 10 20 16 32 (fun _ => none) cs rs s) H := by
  obtain ⟨g, hg⟩ := C75_ranged_panic_violated
  refine ⟨g, _, hg, ?_⟩
  rintro ⟨Q, hnd, ⟨s, hs⟩, hinv, hret, _⟩
  obtain ⟨c, hc⟩ := hret 0 .panic (by simp)
  obtain ⟨Q1, Q2, rfl⟩ := List.append_of_mem hc
  have hc0 : ∃ sel, c = .getByLabel sel := by
    have := hinv _ hc
    exact ⟨fun _ => true, by simpa using this⟩
  obtain ⟨sel, rfl⟩ := hc0
  rw [List.map_append, List.map_append] at hs
  obtain ⟨s₁, h2, h3⟩ := RRun.split (by simp) hs
  cases h3 with
  | cons h5 _ =>
    obtain ⟨_, es, _, h6⟩ := h5
    cases h6

/-- An execution that meets the hypotheses of `C79_ranged_linearizable_partial`: two claims of the same id overlap, and
the one that starts first fails after it has seen that the id is free. -/
example : ∃ g, Exec (rprog (P := w16) 10 20) exR.tab g
    [.inv 0 (.claim 10 "a"), .inv 1 (.claim 10 "b"), .ret 1 .ok, .ret 0 .err] := by
  have h0 : AExec (rcode exR) IdxTable.step Eq exR.tab ⟨exR.tab, []⟩ [] [] := .init
  have h1 := ((h0.doInv (.claim 10 "a")).doCall 0 rfl rfl).doInv (.claim 10 "b")
  have h2 := ((h1.doCall 1 rfl rfl).doCall 1 rfl rfl).doRet 1 rfl
  have h3 := (h2.doCall 0 rfl rfl).doRet 0 rfl
  exact ⟨_, realize sections h3⟩

example : Proper (P := w16) 10 20 := Ranged.exR_proper

end
end Ranged

section IP
open Verif.IPTable
variable {R : Type} {parse : String → Option Addr} {lo hi : Addr}

/-- the second half of `Claim` -/
def iclaim2 (i : U64) (d : R) : IClient R :=
  .call (.claim i d) fun
    | .ok => .ret .ok
    | _ => .ret .err

/-- the second half of `Update` -/
def iupdate2 (i : U64) (d : R) : IClient R :=
  .call (.update i d) fun
    | .ok => .ret .ok
    | _ => .ret .err

/-- a call that has not taken effect, and what it still has to do -/
inductive IPend (parse : String → Option Addr) (r : IPTab R) : ICall R → IClient R → Prop
  | start (c) : IPend parse r c (icode parse r c)
  | claim {x d ip} : validateIP parse r x = .ok ip →
      IPend parse r (.claim x d) (iclaim2 (calculateIndex ip r.ipRange.lo) d)
  | update {x d ip} : validateIP parse r x = .ok ip →
      IPend parse r (.update x d) (iupdate2 (calculateIndex ip r.ipRange.lo) d)
  | label {sel d} : d.Uses (fun c => c = .iterate) True → IPend parse r (.getByLabel sel) d

/-- what a call may do, on tables -/
def ISt (parse : String → Option Addr) (lo hi : Addr) (m : Table R) (c : ICall R) (m' : Table R) (r : IReply R) : Prop :=
  IStepW parse lo hi (absI (⟨m, ipRangeFrom lo hi⟩ : IPTab R)) c (absI (⟨m', ipRangeFrom lo hi⟩ : IPTab R)) r

theorem IStepW.of {s s' : AMap R} {c : ICall R} {r : IReply R} (h : IStep parse lo hi s c s' r) :
    IStepW parse lo hi s c s' r := by
  cases c with
  | getByLabel sel => exact h.1
  | _ => exact h

theorem ist_of_step (hf : IPTable.NotFull lo hi) {m m' : Table R} {c : ICall R} {r : IReply R}
    (hJ : IInv lo hi (⟨m, ipRangeFrom lo hi⟩ : IPTab R))
    (hs : IPTable.step parse (⟨m, ipRangeFrom lo hi⟩ : IPTab R) c = (⟨m', ipRangeFrom lo hi⟩, r)) :
    IInv lo hi (⟨m', ipRangeFrom lo hi⟩ : IPTab R) ∧ ISt parse lo hi m c m' r := by
  obtain ⟨h1, h2⟩ := IPTable.step_refines parse _ hJ hf c
  rw [hs] at h1 h2
  exact ⟨h2, .of h1⟩

theorem icode_label (r : IPTab R) (sel : R → Bool) :
    (icode parse r (.getByLabel sel)).Uses (fun c => c = .iterate) True := by
  refine .call rfl fun x => ?_
  split
  · exact uses_ibyLabelC sel trivial _ _
  · exact .ret _

theorem iclaim2_step {m : Table R} {x : String} {ip : Addr} {d : R}
    (hv : validateIP parse (⟨m, ipRangeFrom lo hi⟩ : IPTab R) x = .ok ip) :
    let q := IdxTable.step m (.claim (calculateIndex ip (ipRangeFrom lo hi).lo) d)
    (q.2 = .ok ∧ IPTable.step parse (⟨m, ipRangeFrom lo hi⟩ : IPTab R) (.claim x d) = (⟨q.1, ipRangeFrom lo hi⟩, .ok)) ∨
    (q.2 ≠ .ok ∧ q.1 = m ∧
      IPTable.step parse (⟨m, ipRangeFrom lo hi⟩ : IPTab R) (.claim x d) = (⟨m, ipRangeFrom lo hi⟩, .err)) := by
  intro q
  simp only [IPTable.step, IPTable.claim, hv]
  simp only [q, IdxTable.step, IdxTable.claim, IdxTable.add, IPTable.lift, IdxTable.isFree]
  cases hfree : IdxTable.isFreeB m (calculateIndex ip (ipRangeFrom lo hi).lo) with
  | true =>
    cases hval : IdxTable.validate m (calculateIndex ip (ipRangeFrom lo hi).lo) with
    | ok u => left; simp [IdxTable.replyUnit, IPTable.replyUnit]
    | error e => right; simp [IdxTable.replyUnit, IPTable.replyUnit]
  | false =>
    right
    cases hval : IdxTable.validate m (calculateIndex ip (ipRangeFrom lo hi).lo) with
    | ok u => simp [IdxTable.replyUnit, IPTable.replyUnit]
    | error e => simp [IdxTable.replyUnit, IPTable.replyUnit]

theorem iupdate2_step {m : Table R} {x : String} {ip : Addr} {d : R}
    (hv : validateIP parse (⟨m, ipRangeFrom lo hi⟩ : IPTab R) x = .ok ip) :
    let q := IdxTable.step m (.update (calculateIndex ip (ipRangeFrom lo hi).lo) d)
    (q.2 = .ok ∧ IPTable.step parse (⟨m, ipRangeFrom lo hi⟩ : IPTab R) (.update x d) = (⟨q.1, ipRangeFrom lo hi⟩, .ok)) ∨
    (q.2 ≠ .ok ∧ q.1 = m ∧
      IPTable.step parse (⟨m, ipRangeFrom lo hi⟩ : IPTab R) (.update x d) = (⟨m, ipRangeFrom lo hi⟩, .err)) := by
  intro q
  simp only [IPTable.step, IPTable.update, hv]
  simp only [q, IdxTable.step, IdxTable.update, IdxTable.updateE, IPTable.lift, IdxTable.isFree]
  cases hfree : IdxTable.isFreeB m (calculateIndex ip (ipRangeFrom lo hi).lo) with
  | false =>
    cases hval : IdxTable.validate m (calculateIndex ip (ipRangeFrom lo hi).lo) with
    | ok u => left; simp [IdxTable.replyUnit, IPTable.replyUnit]
    | error e => right; simp [IdxTable.replyUnit, IPTable.replyUnit]
  | true =>
    right
    cases hval : IdxTable.validate m (calculateIndex ip (ipRangeFrom lo hi).lo) with
    | ok u => simp [IdxTable.replyUnit, IPTable.replyUnit]
    | error e => simp [IdxTable.replyUnit, IPTable.replyUnit]

/-- what the linearization points use of an invariant `J` and a specification `St` of the calls -/
structure IPts (parse : String → Option Addr) (lo hi : Addr) (J : Table R → Prop)
    (St : Table R → ICall R → Table R → IReply R → Prop) : Prop where
  step : ∀ {m m' : Table R} {c r}, J m →
    IPTable.step parse (⟨m, ipRangeFrom lo hi⟩ : IPTab R) c = (⟨m', ipRangeFrom lo hi⟩, r) → J m' ∧ St m c m' r
  label : ∀ {m : Table R} {sel r}, St m (.getByLabel sel) m r

/-- the linearization points of the IP table -/
theorem ipend_lin {J : Table R → Prop} {St : Table R → ICall R → Table R → IReply R → Prop}
    (hS : IPts parse lo hi J St) (t : Table R) (see : Table R → Table R → Prop) :
    LinPts (icode parse (⟨t, ipRangeFrom lo hi⟩ : IPTab R)) IdxTable.step see J St
      (IPend parse ⟨t, ipRangeFrom lo hi⟩) where
  start := .start
  call := by
    intro c x k m hp hJ
    have fin : ∀ r, IPTable.step parse (⟨m, ipRangeFrom lo hi⟩ : IPTab R) c = (⟨(IdxTable.step m x).1, ipRangeFrom lo hi⟩, r) →
        k (IdxTable.step m x).2 = .ret r → J (IdxTable.step m x).1 ∧
          (((IdxTable.step m x).1 = m ∧ IPend parse ⟨t, ipRangeFrom lo hi⟩ c (k (IdxTable.step m x).2)) ∨
            ∃ r, St m c (IdxTable.step m x).1 r ∧ k (IdxTable.step m x).2 = .ret r) := by
      intro r h1 h2
      obtain ⟨h3, h4⟩ := hS.step hJ h1
      exact ⟨h3, .inr ⟨r, h4, h2⟩⟩
    generalize hd : Client.call x k = d at hp
    cases hp with
    | start c =>
      cases c with
      | get y =>
        simp only [icode] at hd
        split at hd
        · cases hd
        · rename_i ip hv
          have hv' : validateIP parse (⟨m, ipRangeFrom lo hi⟩ : IPTab R) y = .ok ip := hv
          cases hd
          cases hg : IdxTable.get m (calculateIndex ip (ipRangeFrom lo hi).lo) with
          | ok e =>
            exact fin (.route e.data) (by simp [IPTable.step, IPTable.get, hv', hg, IdxTable.step])
              (by simp [IdxTable.step, hg, IdxTable.replyEntry])
          | error e =>
            exact fin .err (by simp [IPTable.step, IPTable.get, hv', hg, IdxTable.step])
              (by simp [IdxTable.step, hg, IdxTable.replyEntry])
      | claim y d =>
        simp only [icode] at hd
        split at hd
        · cases hd
        · rename_i ip hv
          have hv' : validateIP parse (⟨m, ipRangeFrom lo hi⟩ : IPTab R) y = .ok ip := hv
          cases hd
          cases hfr : IdxTable.isFree m (calculateIndex ip (ipRangeFrom lo hi).lo) with
          | true =>
            refine ⟨hJ, .inl ⟨rfl, ?_⟩⟩
            simp only [IdxTable.step, hfr]
            exact .claim hv
          | false =>
            exact fin .err (by simp [IPTable.step, IPTable.claim, hv', hfr, IdxTable.step, IPTable.replyUnit])
              (by simp [IdxTable.step, hfr])
      | release y =>
        simp only [icode] at hd
        split at hd
        · cases hd
        · rename_i ip hv
          have hv' : validateIP parse (⟨m, ipRangeFrom lo hi⟩ : IPTab R) y = .ok ip := hv
          cases hd
          cases hg : (IdxTable.release m (calculateIndex ip (ipRangeFrom lo hi).lo)).2 with
          | ok e =>
            exact fin .ok (by simp [IPTable.step, IPTable.release, IPTable.lift, hv', hg, IdxTable.step, IPTable.replyUnit])
              (by simp [IdxTable.step, hg, IdxTable.replyUnit])
          | error e =>
            exact fin .err (by simp [IPTable.step, IPTable.release, IPTable.lift, hv', hg, IdxTable.step, IPTable.replyUnit])
              (by simp [IdxTable.step, hg, IdxTable.replyUnit])
      | update y d =>
        simp only [icode] at hd
        split at hd
        · cases hd
        · rename_i ip hv
          have hv' : validateIP parse (⟨m, ipRangeFrom lo hi⟩ : IPTab R) y = .ok ip := hv
          cases hd
          cases hfr : IdxTable.isFree m (calculateIndex ip (ipRangeFrom lo hi).lo) with
          | false =>
            refine ⟨hJ, .inl ⟨rfl, ?_⟩⟩
            simp only [IdxTable.step, hfr]
            exact .update hv
          | true =>
            exact fin .err (by simp [IPTable.step, IPTable.update, hv', hfr, IdxTable.step, IPTable.replyUnit])
              (by simp [IdxTable.step, hfr])
      | size =>
        simp only [icode] at hd
        cases hd
        exact fin (.nat (IdxTable.sizeOf m)) rfl rfl
      | has y =>
        simp only [icode] at hd
        split at hd
        · cases hd
        · rename_i ip hv
          have hv' : validateIP parse (⟨m, ipRangeFrom lo hi⟩ : IPTab R) y = .ok ip := hv
          cases hd
          exact fin (.bool (IdxTable.has m (calculateIndex ip (ipRangeFrom lo hi).lo)))
            (by simp [IPTable.step, IPTable.has, hv', IdxTable.step]) (by simp [IdxTable.step])
      | isFree y =>
        simp only [icode] at hd
        split at hd
        · cases hd
        · rename_i ip hv
          have hv' : validateIP parse (⟨m, ipRangeFrom lo hi⟩ : IPTab R) y = .ok ip := hv
          cases hd
          exact fin (.bool (IdxTable.isFree m (calculateIndex ip (ipRangeFrom lo hi).lo)))
            (by simp [IPTable.step, IPTable.isFree, hv', IdxTable.step]) (by simp [IdxTable.step])
      | findFree =>
        simp only [icode] at hd
        cases hd
        cases hff : IdxTable.findFree m with
        | ok i =>
          cases hc : calculateIPFromIndex (ipRangeFrom lo hi).lo i with
          | some a =>
            exact fin (.addr a) (by simp [IPTable.step, IPTable.findFree, hff, hc, IdxTable.step])
              (by simp [IdxTable.step, hff, hc, IdxTable.replyId])
          | none =>
            exact fin .panic (by simp [IPTable.step, IPTable.findFree, hff, hc, IdxTable.step])
              (by simp [IdxTable.step, hff, hc, IdxTable.replyId])
        | error e =>
          exact fin .err (by simp [IPTable.step, IPTable.findFree, hff, IdxTable.step])
            (by simp [IdxTable.step, hff, IdxTable.replyId])
      | getAll =>
        simp only [icode] at hd
        cases hd
        exact fin (replyRoutes (getAll (⟨m, ipRangeFrom lo hi⟩ : IPTab R))) rfl rfl
      | getByLabel sel =>
        have hu := icode_label (parse := parse) (⟨t, ipRangeFrom lo hi⟩ : IPTab R) sel
        rw [← hd] at hu
        cases hu with
        | call h1 h2 => subst h1; exact ⟨hJ, .inl ⟨rfl, .label (h2 _)⟩⟩
    | @claim y d ip hv =>
      have hv' : validateIP parse (⟨m, ipRangeFrom lo hi⟩ : IPTab R) y = .ok ip := hv
      unfold iclaim2 at hd
      cases hd
      rcases iclaim2_step (d := d) hv' with ⟨h1, h2⟩ | ⟨h1, h2, h3⟩
      · exact fin .ok h2 (by simp only; rw [h1])
      · exact fin .err (by rw [h3, h2]) (by simp only)
    | @update y d ip hv =>
      have hv' : validateIP parse (⟨m, ipRangeFrom lo hi⟩ : IPTab R) y = .ok ip := hv
      unfold iupdate2 at hd
      cases hd
      rcases iupdate2_step (d := d) hv' with ⟨h1, h2⟩ | ⟨h1, h2, h3⟩
      · exact fin .ok h2 (by simp only; rw [h1])
      · exact fin .err (by rw [h3, h2]) (by simp only)
    | label hu =>
      rw [← hd] at hu
      cases hu with
      | call h1 h2 => subst h1; exact ⟨hJ, .inl ⟨rfl, .label (h2 _)⟩⟩
  peek := by
    intro c k m s hp hJ _
    generalize hd : Client.peek k = d at hp
    cases hp with
    | start c =>
      cases c with
      | getByLabel sel =>
        have hu := icode_label (parse := parse) (⟨t, ipRangeFrom lo hi⟩ : IPTab R) sel
        rw [← hd] at hu
        cases hu with
        | peek _ h2 => exact .label (h2 _)
      | size => cases hd
      | getAll => cases hd
      | findFree => cases hd
      | _ =>
        simp only [icode] at hd
        split at hd <;> cases hd
    | claim hv => cases hd
    | update hv => cases hd
    | label hu =>
      rw [← hd] at hu
      cases hu with
      | peek _ h2 => exact .label (h2 _)
  ret := by
    intro c r m hp hJ
    generalize hd : Client.ret r = d at hp
    have fin : ∀ r', IPTable.step parse (⟨m, ipRangeFrom lo hi⟩ : IPTab R) c = (⟨m, ipRangeFrom lo hi⟩, r') → r = r' →
        St m c m r := by
      rintro r' h1 rfl
      exact (hS.step hJ h1).2
    cases hp with
    | start c =>
      cases c with
      | get y =>
        simp only [icode] at hd
        split at hd
        · rename_i e hv
          have hv' : validateIP parse (⟨m, ipRangeFrom lo hi⟩ : IPTab R) y = .error e := hv
          cases hd
          exact fin .err (by simp [IPTable.step, IPTable.get, hv']) rfl
        · cases hd
      | claim y d =>
        simp only [icode] at hd
        split at hd
        · rename_i e hv
          have hv' : validateIP parse (⟨m, ipRangeFrom lo hi⟩ : IPTab R) y = .error e := hv
          cases hd
          exact fin .err (by simp [IPTable.step, IPTable.claim, hv', IPTable.replyUnit]) rfl
        · cases hd
      | release y =>
        simp only [icode] at hd
        split at hd
        · rename_i e hv
          have hv' : validateIP parse (⟨m, ipRangeFrom lo hi⟩ : IPTab R) y = .error e := hv
          cases hd
          exact fin .err (by simp [IPTable.step, IPTable.release, hv', IPTable.replyUnit]) rfl
        · cases hd
      | update y d =>
        simp only [icode] at hd
        split at hd
        · rename_i e hv
          have hv' : validateIP parse (⟨m, ipRangeFrom lo hi⟩ : IPTab R) y = .error e := hv
          cases hd
          exact fin .err (by simp [IPTable.step, IPTable.update, hv', IPTable.replyUnit]) rfl
        · cases hd
      | has y =>
        simp only [icode] at hd
        split at hd
        · rename_i e hv
          have hv' : validateIP parse (⟨m, ipRangeFrom lo hi⟩ : IPTab R) y = .error e := hv
          cases hd
          exact fin (.bool false) (by simp [IPTable.step, IPTable.has, hv']) rfl
        · cases hd
      | isFree y =>
        simp only [icode] at hd
        split at hd
        · rename_i e hv
          have hv' : validateIP parse (⟨m, ipRangeFrom lo hi⟩ : IPTab R) y = .error e := hv
          cases hd
          exact fin (.bool false) (by simp [IPTable.step, IPTable.isFree, hv']) rfl
        · cases hd
      | size => cases hd
      | findFree => cases hd
      | getAll => cases hd
      | getByLabel sel => cases hd
    | claim hv => cases hd
    | update hv => cases hd
    | label hu => exact hS.label

/-- the specification of a range of fewer than `2^64` addresses -/
theorem ipts (hf : IPTable.NotFull lo hi) :
    IPts parse lo hi (fun m => IInv lo hi (⟨m, ipRangeFrom lo hi⟩ : IPTab R)) (ISt parse lo hi) where
  step := ist_of_step hf
  label := rfl

theorem isrun_spec {m m' : Table R} {G : List (Nat × ICall R × IReply R)} (h : SRuns (ISt parse lo hi) m G m') :
    IRunW parse lo hi (absI (⟨m, ipRangeFrom lo hi⟩ : IPTab R)) (G.map (·.2.1)) (G.map (·.2.2))
      (absI (⟨m', ipRangeFrom lo hi⟩ : IPTab R)) := by
  induction h with
  | nil => exact .nil _
  | cons hs _ ih => exact .cons hs ih

/-- Every history of concurrent calls of the IP table is linearizable, if `GetByLabel` is allowed to reply anything. -/
theorem C79_ip_weak_partial (hs : SmallRange lo hi) {g : Cfg (ICall R) (Table R) (IReply R)} {H}
    (h : Exec (iprog parse lo hi) (new lo hi : IPTab R).tab g H) :
    LinearizableBy (fun cs rs => ∃ s, IRunW parse lo hi (fun _ => none) cs rs s) H := by
  obtain ⟨a, G, ha, _⟩ := sim sections h
  obtain ⟨hm, hf⟩ := mid_of_small hs
  obtain ⟨Q, h1, h2⟩ := (ipend_lin (parse := parse) (ipts hf) (new lo hi : IPTab R).tab _).order
    (m₀ := (new lo hi : IPTab R).tab) (IPTable.new_inv hm) ha
  have h3 := isrun_spec h2
  have he' : absI (⟨(new lo hi : IPTab R).tab, ipRangeFrom lo hi⟩ : IPTab R) = fun _ => none := abs_new
  rw [he'] at h3
  exact ⟨Q, h1.nodup, ⟨_, h3⟩, h1.inv, h1.ret, h1.order⟩

theorem IRunW.strict {s s' : AMap R} {cs : List (ICall R)} {rs : List (IReply R)}
    (h : IRunW parse lo hi s cs rs s') (hc : ∀ c ∈ cs, ∀ sel, c ≠ .getByLabel sel) : IRun parse lo hi s cs rs s' := by
  induction h with
  | nil => exact .nil _
  | @cons s s' s'' c cs r rs hs _ ih =>
    refine .cons ?_ (ih fun c hc' => hc c (List.mem_cons_of_mem _ hc'))
    have := hc c (List.mem_cons_self ..)
    cases c with
    | getByLabel sel => exact (this sel rfl).elim
    | _ => exact hs

/-- C79 for the IP table, for histories without `GetByLabel`. -/
theorem C79_ip_linearizable_partial (hs : SmallRange lo hi) {g : Cfg (ICall R) (Table R) (IReply R)} {H}
    (h : Exec (iprog parse lo hi) (new lo hi : IPTab R).tab g H)
    (hno : ∀ n sel, Ev.inv n (.getByLabel sel) ∉ H) :
    LinearizableBy (fun cs rs => ∃ s, IRun parse lo hi (fun _ => none) cs rs s) H := by
  obtain ⟨Q, h1, ⟨s, h2⟩, h3, h4, h5⟩ := C79_ip_weak_partial hs h
  refine ⟨Q, h1, ⟨s, h2.strict ?_⟩, h3, h4, h5⟩
  rintro c hc sel rfl
  obtain ⟨x, hx, hxe⟩ := List.mem_map.1 hc
  have := h3 x hx
  rw [hxe] at this
  exact hno _ _ this

theorem IRun.split {s s' : AMap R} : ∀ {cs : List (ICall R)} {rs : List (IReply R)} {cs' rs'},
    cs.length = rs.length → IRun parse lo hi s (cs ++ cs') (rs ++ rs') s' →
    ∃ s₁, IRun parse lo hi s cs rs s₁ ∧ IRun parse lo hi s₁ cs' rs' s'
  | [], [], _, _, _, h => ⟨s, .nil _, h⟩
  | c :: cs, r :: rs, _, _, hl, h => by
    cases h with
    | cons h1 h2 =>
      obtain ⟨s₁, h3, h4⟩ := IRun.split (by simpa using hl) h2
      exact ⟨s₁, .cons h1 h3, h4⟩

/-- C79 fails for `GetByLabel` of the IP table, which panics. -/
theorem C79_ip_getByLabel_violated : ∃ g H, Exec (iprog exParse (.v4 0x0a000000) (.v4 0x0a000003)) exI.tab g H ∧
    ¬ LinearizableBy (fun cs rs => ∃ s, IRun exParse (.v4 0x0a000000) (.v4 0x0a000003) (fun _ => none) cs rs s) H := by
  obtain ⟨g, hg⟩ := C75_ip_panic_violated
  refine ⟨g, _, hg, ?_⟩
  rintro ⟨Q, hnd, ⟨s, hs⟩, hinv, hret, _⟩
  obtain ⟨c, hc⟩ := hret 0 .panic (by simp)
  obtain ⟨Q1, Q2, rfl⟩ := List.append_of_mem hc
  have hc0 : ∃ sel, c = .getByLabel sel := by
    have := hinv _ hc
    exact ⟨fun _ => true, by simpa using this⟩
  obtain ⟨sel, rfl⟩ := hc0
  rw [List.map_append, List.map_append] at hs
  obtain ⟨s₁, h2, h3⟩ := IRun.split (by simp) hs
  cases h3 with
  | cons h5 _ =>
    obtain ⟨_, es, _, h6⟩ := h5
    cases h6

/-- An execution that meets the hypotheses of `C79_ip_linearizable_partial`: an address is released between the two
halves of `Update`. -/
example : ∃ g, Exec (iprog exParse (.v4 0x0a000000) (.v4 0x0a000003)) exI.tab g
    [.inv 0 (.claim "10.0.0.1" "a"), .ret 0 .ok, .inv 1 (.update "10.0.0.1" "b"), .inv 2 (.release "10.0.0.1"),
      .ret 2 .ok, .ret 1 .err] := by
  have h0 : AExec (icode exParse exI) IdxTable.step Eq exI.tab ⟨exI.tab, []⟩ [] [] := .init
  have h1 := (((h0.doInv (.claim "10.0.0.1" "a")).doCall 0 rfl rfl).doCall 0 rfl rfl).doRet 0 rfl
  have h2 := ((h1.doInv (.update "10.0.0.1" "b")).doCall 1 rfl rfl).doInv (.release "10.0.0.1")
  have h3 := (h2.doCall 2 rfl rfl).doRet 2 rfl
  exact ⟨_, realize sections ((h3.doCall 1 rfl rfl).doRet 1 rfl)⟩

example : SmallRange (.v4 0x0a000000) (.v4 0x0a000003) := exI_small

end IP
end Verif.Conc
