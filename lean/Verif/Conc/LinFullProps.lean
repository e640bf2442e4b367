import Verif.Conc.LinProps
import Verif.Ranged.FullProps
import Verif.IPTable.SlotProps

/-!
C79 for the table of the full range, which C17 shows to be special, and for all IPv6 ranges, of any number of addresses.
-/

namespace Verif.Conc
open Verif.IdxTable (U64 Table)
open Verif.Ranged (Width RTable TEntry RCall RReply RInv absR storedEntry calculateIndex validateID Good IsPkg new w16
  w32 w64 RStepFull RRunFull IsFull)

variable {P : Width} {L : Type} {start stop : BitVec P.W}

/-- the calls of the full range that are linearizable: not `GetByLabel`, and for table64 not `Size` and `GetAll`
(with `2^64` entries they count none) -/
def FPlain (P : Width) : RCall L → Prop
  | .getByLabel _ => False
  | .size | .getAll => P.W < 64
  | _ => True

/-- one call, as a step on the ids -/
def FSt (start stop : BitVec P.W) (m : Table (TEntry L)) (c : RCall L) (m' : Table (TEntry L)) (r : RReply L) : Prop :=
  FPlain P c → RStepFull (2 ^ P.W - 1) P.storedLen P.outLen (absR (⟨m, start, stop⟩ : RTable P L)) c
    (absR (⟨m', start, stop⟩ : RTable P L)) r

theorem fst_of_step (hP : Good P) (hf : start.toNat = 0 ∧ stop.toNat = 2 ^ P.W - 1) {m m' : Table (TEntry L)}
    {c : RCall L} {r : RReply L} (hJ : RInv (⟨m, start, stop⟩ : RTable P L))
    (hs : Ranged.step (⟨m, start, stop⟩ : RTable P L) c = (⟨m', start, stop⟩, r)) :
    RInv (⟨m', start, stop⟩ : RTable P L) ∧ FSt start stop m c m' r := by
  have key : (Ranged.Listing c → Ranged.Counts (⟨m, start, stop⟩ : RTable P L)) →
      RInv (⟨m', start, stop⟩ : RTable P L) ∧ FSt start stop m c m' r := by
    intro hc
    obtain ⟨h1, h2, _⟩ := Ranged.step_full hP hJ hf c hc
    rw [hs] at h1 h2
    exact ⟨h2, fun _ => h1⟩
  by_cases hl : Ranged.Listing c
  · by_cases hW : P.W < 64
    · exact key fun _ => hJ.counts_of_lt hW
    · refine ⟨?_, fun hp => ?_⟩
      · cases c <;> simp only [Ranged.Listing] at hl <;> · simp only [Ranged.step] at hs; cases hs; exact hJ
      · cases c <;> simp only [Ranged.Listing] at hl <;> exact absurd hp (by simpa [FPlain] using hW)
  · exact key fun h => absurd h hl

/-- the specification of the table of all ids -/
theorem fpts (hP : Good P) (hf : start.toNat = 0 ∧ stop.toNat = 2 ^ P.W - 1) :
    RPts (L := L) start stop False (FSt start stop) where
  step := fst_of_step hP hf
  find hJ hi := by rw [hJ.idx_findFree hf] at hi; cases hi
  free hq := hq.elim
  freeErr := fun _ => ⟨rfl, rfl⟩
  label := fun h => h.elim

theorem srun_full {m m' : Table (TEntry L)} {G : List (Nat × RCall L × RReply L)} (h : SRuns (FSt start stop) m G m')
    (hp : ∀ x ∈ G, FPlain P x.2.1) :
    RRunFull (2 ^ P.W - 1) P.storedLen P.outLen (absR (⟨m, start, stop⟩ : RTable P L)) (G.map (·.2.1))
      (G.map (·.2.2)) (absR (⟨m', start, stop⟩ : RTable P L)) := by
  induction h with
  | nil => exact .nil _
  | cons hs _ ih =>
    exact .cons (hs (hp _ (List.mem_cons_self ..))) (ih fun x hx => hp x (List.mem_cons_of_mem _ hx))

/-- C79 for the table of all ids: it is linearizable with respect to the specification in which `FindFree` and
`ClaimFree` fail (C17), for histories without `GetByLabel` and, for table64, without `Size` and `GetAll`. Here
`ClaimFree` is included, since it fails at its first step. Missing: those calls, and that `FindFree` and `ClaimFree`
find the lowest free id. -/
theorem C79_full_range_partial (hP : IsPkg P) {g : Cfg (RCall L) (Table (TEntry L)) (RReply L)} {H}
    (h : Exec (rprog (P := P) 0 (-1)) (new 0 (-1) : RTable P L).tab g H) (hno : ∀ n c, Ev.inv n c ∈ H → FPlain P c) :
    LinearizableBy (fun cs rs => ∃ s, RRunFull (2 ^ P.W - 1) P.W (max P.W 32) (fun _ => none) cs rs s) H := by
  obtain ⟨a, G, ha, _⟩ := sim sections h
  have hg := hP.good
  obtain ⟨Q, h1, h2⟩ := (rpend_lin (fpts hg (Ranged.new_full (L := L) hP)) (new 0 (-1) : RTable P L).tab _).order
    (m₀ := (new 0 (-1) : RTable P L).tab) (Ranged.new_inv hg 0 (-1) (by rw [BitVec.le_def]; simp)) ha
  have h3 := srun_full h2 (fun x hx => hno _ _ (h1.inv x hx))
  have he : absR (new 0 (-1) : RTable P L) = fun _ => none := by
    funext i
    unfold absR
    split
    · simp [new, IdxTable.newTable]
    · rfl
  have hl : P.storedLen = P.W := by rcases hP with rfl | rfl | rfl <;> rfl
  have h3 : RRunFull (2 ^ P.W - 1) P.storedLen P.outLen (absR (new 0 (-1) : RTable P L)) _ _ _ := h3
  rw [he, hl, hP.outLen] at h3
  exact ⟨Q, h1.nodup, ⟨_, h3⟩, h1.inv, h1.ret, h1.order⟩

/-- an execution that meets the hypotheses: a claim and a `ClaimFree` overlap -/
example : ∃ g, Exec (rprog (P := w16) 0 (-1)) (new 0 (-1) : RTable w16 String).tab g
    [.inv 0 (.claim 10 "a"), .inv 1 (.claimFree "b"), .ret 1 .err, .ret 0 .ok] := by
  have h0 : AExec (rcode (new 0 (-1) : RTable w16 String)) IdxTable.step Eq (new 0 (-1) : RTable w16 String).tab
    ⟨(new 0 (-1) : RTable w16 String).tab, []⟩ [] [] := .init
  have hff := (Ranged.new_inv (L := String) (IsPkg.good (P := w16) (.inl rfl)) 0 (-1) (by decide)).idx_findFree
    (Ranged.new_full (.inl rfl))
  have h1 := ((h0.doInv (.claim 10 "a")).doCall 0 rfl rfl).doInv (.claimFree "b")
  have h2 := (h1.doCall 1 rfl (by simp only [IdxTable.step, hff]; rfl)).doRet 1 rfl
  have h3 := (h2.doCall 0 rfl rfl).doRet 0 rfl
  exact ⟨_, realize sections h3⟩

section IP
open Verif.IPTable
open Verif.IdxTable (PMap absMap)
variable {R : Type} {parse : String → Option Addr} {f t : BitVec 128} {z z' : String}

/-- the calls that are linearizable: not `GetByLabel`, and not `GetAll` if the number of addresses is a multiple of
`2^64` (with `2^64` entries it lists none) -/
def SPlain (f t : BitVec 128) : ICall R → Prop
  | .getByLabel _ => False
  | .getAll => capNat f t ≠ 0
  | _ => True

/-- one call, as a step on the slots -/
def SSt (parse : String → Option Addr) (f t : BitVec 128) (m : Table R) (c : ICall R) (m' : Table R) (r : IReply R) : Prop :=
  SPlain f t c → SlotStep parse f t (absMap m) c (absMap m') r

theorem spts : IPts parse (.v6 f z) (.v6 t z')
    (fun m : Table R => SInv f t (⟨m, ipRangeFrom (.v6 f z) (.v6 t z')⟩ : IPTab R)) (SSt parse f t) where
  step := by
    intro m m' c r hJ hs
    have key : (Lists c → m.m.keys.length < 2 ^ 64) → SInv f t (⟨m', ipRangeFrom (.v6 f z) (.v6 t z')⟩ : IPTab R) ∧
        SSt parse f t m c m' r := by
      intro hn
      obtain ⟨h1, h2⟩ := slot_step (parse := parse) hJ c hn
      rw [hs] at h1 h2
      exact ⟨h2, fun _ => h1⟩
    by_cases h0 : capNat f t = 0
    · by_cases hl : Lists c
      · refine ⟨?_, fun hp => ?_⟩
        · cases c <;> simp only [Lists] at hl <;> · simp only [IPTable.step] at hs; cases hs; exact hJ
        · cases c <;> simp only [Lists] at hl <;> exact absurd hp (by simp [SPlain, h0])
      · exact key fun h => absurd h hl
    · refine key fun _ => hJ.tab.len fun hz => absurd ?_ h0
      rw [← hJ.size, hz]
      rfl
  label := fun h => h.elim

theorem srun_slots {m m' : Table R} {G : List (Nat × ICall R × IReply R)} (h : SRuns (SSt parse f t) m G m')
    (hp : ∀ x ∈ G, SPlain f t x.2.1) :
    SlotRun parse f t (absMap m) (G.map (·.2.1)) (G.map (·.2.2)) (absMap m') := by
  induction h with
  | nil => exact .nil _
  | cons hs _ ih =>
    exact .cons (hs (hp _ (List.mem_cons_self ..))) (ih fun x hx => hp x (List.mem_cons_of_mem _ hx))

/-- C79 for every IPv6 range: the table is linearizable with respect to the map on slots of C22, for histories without
`GetByLabel` and, if the number of addresses is a multiple of `2^64`, without `GetAll`. Missing: those calls, and that
the map is one on addresses. -/
theorem C79_ip_slots_partial (hle : f.toNat ≤ t.toNat) {g : Cfg (ICall R) (Table R) (IReply R)} {H}
    (h : Exec (iprog parse (.v6 f z) (.v6 t z')) (new (.v6 f z) (.v6 t z') : IPTab R).tab g H)
    (hno : ∀ n c, Ev.inv n c ∈ H → SPlain f t c) :
    LinearizableBy (fun cs rs => ∃ s, SlotRun parse f t (fun _ => none) cs rs s) H := by
  obtain ⟨a, G, ha, _⟩ := sim sections h
  obtain ⟨Q, h1, h2⟩ := (ipend_lin (parse := parse) spts (new (.v6 f z) (.v6 t z') : IPTab R).tab _).order
    (m₀ := (new (.v6 f z) (.v6 t z') : IPTab R).tab) (new_sinv hle) ha
  exact ⟨Q, h1.nodup, ⟨_, srun_slots h2 (fun x hx => hno _ _ (h1.inv x hx))⟩, h1.inv, h1.ret, h1.order⟩

/-- an execution that meets the hypotheses, in `::/64`: two claims of the same address overlap -/
example :
    let parse : String → Option Addr := fun s => if s = "::7" then some (.v6 7 "") else none
    ∃ g, Exec (iprog parse (.v6 0 "") (.v6 0xffffffffffffffff#128 ""))
      (new (.v6 0 "") (.v6 0xffffffffffffffff#128 "") : IPTab String).tab g
      [.inv 0 (.claim "::7" "a"), .inv 1 (.claim "::7" "b"), .ret 1 .ok, .ret 0 .err] := by
  intro parse
  have h0 : AExec (icode parse (new (.v6 0 "") (.v6 0xffffffffffffffff#128 "") : IPTab String)) IdxTable.step Eq
    (new (.v6 0 "") (.v6 0xffffffffffffffff#128 "") : IPTab String).tab ⟨_, []⟩ [] [] := .init
  have h1 := ((h0.doInv (.claim "::7" "a")).doCall 0 rfl rfl).doInv (.claim "::7" "b")
  have h2 := ((h1.doCall 1 rfl rfl).doCall 1 rfl rfl).doRet 1 rfl
  have h3 := (h2.doCall 0 rfl rfl).doRet 0 rfl
  exact ⟨_, realize sections h3⟩

example : capNat 0 0xffffffffffffffff#128 = 0 := by decide

end IP
end Verif.Conc
