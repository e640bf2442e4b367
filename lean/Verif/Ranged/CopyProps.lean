import Verif.Ranged.HistProps
import Verif.Ranged.FullProps

/-! C128, C129, C130 for the ranged tables: what they list is enough to build them again.
Emptying them makes them as good as new, and an update is a release and a claim. -/

namespace Verif.Ranged
open Verif.IdxTable (U64 Ascending)
variable {P : Width} {L : Type}

/-! ### Lemmas -/

theorem get_reply_abs {r : RTable P L} (hP : Good P) (h : RInv r) (id : U64) :
    (step r (.get id)).2 = match absR r id with | some l => .labels l | none => .err := by
  rw [← obs_eq hP h]
  unfold obs
  simp only [step]
  cases get r id <;> rfl

/-- claims of free ids of the range, each once -/
theorem claims_run (hP : Good P) : ∀ (l : List (TEntry L)) {r : RTable P L}, RInv r →
    (∀ e ∈ l, AvailR r.start.toNat r.stop.toNat (absR r) e.id) → (l.map TEntry.id).Nodup →
    (run r (l.map fun e => .claim e.id e.labels)).2 = l.map (fun _ => .ok) ∧
    RInv (run r (l.map fun e => .claim e.id e.labels)).1 ∧
    (∀ e ∈ l, absR (run r (l.map fun e => .claim e.id e.labels)).1 e.id = some e.labels) ∧
    ∀ i, (∀ e ∈ l, e.id ≠ i) → absR (run r (l.map fun e => .claim e.id e.labels)).1 i = absR r i := by
  intro l
  induction l with
  | nil => intro r h _ _; exact ⟨rfl, h, by simp, fun _ _ => rfl⟩
  | cons e l ih =>
    intro r h hl hn
    obtain ⟨s1, s2, s3, s4⟩ := step_refines_explicit hP r h (.claim e.id e.labels) trivial
    have hn' := List.nodup_cons.1 (by simpa only [List.map_cons] using hn)
    have hne : ∀ x ∈ l, x.id ≠ e.id := fun x hx he => hn'.1 (he ▸ List.mem_map.2 ⟨x, hx, rfl⟩)
    rcases s1 with ⟨_, c1, c2⟩ | ⟨c1, _⟩
    swap
    · exact absurd (hl e (by simp)) c1
    have hother : ∀ i, i ≠ e.id → absR (step r (.claim e.id e.labels)).1 i = absR r i := by
      intro i hi; rw [c1]; exact if_neg hi
    obtain ⟨i1, i2, i3, i4⟩ := ih s2 (fun x hx => by
      rw [s3, s4]
      exact ⟨(hl x (by simp [hx])).1, (hother x.id (hne x hx)).trans (hl x (by simp [hx])).2⟩) hn'.2
    have hrun : run r ((e :: l).map fun e => .claim e.id e.labels) =
        ((run (step r (.claim e.id e.labels)).1 (l.map fun e => .claim e.id e.labels)).1,
         (step r (.claim e.id e.labels)).2 :: (run (step r (.claim e.id e.labels)).1 (l.map fun e => .claim e.id e.labels)).2) := rfl
    rw [hrun]
    refine ⟨?_, i2, ?_, ?_⟩
    · rw [i1, List.map_cons, c2]
    · intro x hx
      rcases List.mem_cons.1 hx with rfl | hx
      · rw [i4 x.id hne, c1]; exact if_pos rfl
      · exact i3 x hx
    · intro i hi
      rw [i4 i (fun x hx => hi x (by simp [hx]))]
      exact hother i (fun he => hi e (by simp) he.symm)

theorem reach_rinv {start stop : BitVec P.W} {r : RTable P L} (h : Reach start stop r) (hle : start ≤ stop) : RInv r := by
  by_cases hp : Proper start stop
  · exact (h.inv hp).2.1
  · have h1 := stop.isLt
    have h2 : start.toNat = 0 ∧ stop.toNat = 2 ^ P.W - 1 := by
      unfold Proper at hp
      rw [BitVec.le_def] at hle
      omega
    have e1 : start = 0 := BitVec.eq_of_toNat_eq (by rw [h2.1]; simp)
    have e2 : stop = -1 := BitVec.eq_of_toNat_eq (by rw [h2.2]; rcases h.1 with rfl | rfl | rfl <;> decide)
    subst e1; subst e2
    exact full_inv h

/-! ### C128 -/

/-- **C128** (ranged tables, except the table64 of the whole type) Claiming, in a new table of the same range, what
`GetAll` lists, in any order, succeeds every time, and no sequence of calls tells the new table from the old one. -/
theorem C128_ranged {start stop : BitVec P.W} {r : RTable P L} (h : Reach start stop r) (hn : P = w64 → ¬ (start = 0 ∧ stop = -1)) :
    ∃ es, getAll r = some es ∧ ∀ l, List.Perm l es →
      (run (new start stop : RTable P L) (l.map fun e => .claim e.id e.labels)).2 = l.map (fun _ => .ok) ∧
      Alike r (run (new start stop : RTable P L) (l.map fun e => .claim e.id e.labels)).1 := by
  by_cases hle : start ≤ stop
  swap
  · have hlt : stop < start := by rw [BitVec.lt_def]; rw [BitVec.le_def] at hle; omega
    obtain ⟨hP, cs, rfl⟩ := h
    have hrej := C21_inverted_rejects (L := L) hP start stop hlt cs
    rw [hrej.1]
    have hall : getAll (new start stop : RTable P L) = some [] := by
      rw [getAll_eq' hP.good (r := new start stop) (by show (0 : Nat) < 2 ^ 64; decide)]
      have : entsOf (new start stop : RTable P L) = [] := by
        have hk : (IdxTable.sortKeys (new start stop : RTable P L).tab.m.keys) = [] := List.Perm.eq_nil (IdxTable.sortKeys_perm _)
        unfold entsOf; rw [hk]; rfl
      rw [this]; rfl
    refine ⟨[], hall, fun l hl => ?_⟩
    rw [hl.eq_nil]
    exact ⟨rfl, fun _ => rfl⟩
  · have hi := reach_rinv h hle
    have hP := h.1.good
    have hst : r.start = start ∧ r.stop = stop := by
      obtain ⟨_, cs, rfl⟩ := h
      have := run_hinv cs (new_hinv (L := L) start stop)
      exact ⟨this.start, this.stop⟩
    have hc : Counts r := by
      by_cases hp : Proper start stop
      · obtain ⟨_, _, hf, _⟩ := h.inv hp
        exact hi.counts hf
      · have h1 := stop.isLt
        have h2 : start.toNat = 0 ∧ stop.toNat = 2 ^ P.W - 1 := by
          unfold Proper at hp
          rw [BitVec.le_def] at hle
          omega
        refine hi.counts_of_lt ?_
        rcases h.1 with rfl | rfl | rfl
        · decide
        · decide
        · exact absurd ⟨BitVec.eq_of_toNat_eq (by rw [h2.1]; rfl), BitVec.eq_of_toNat_eq (by rw [h2.2]; decide)⟩ (hn rfl)
    have hl0 := lists_ents hP hi (fun _ => true)
    rw [List.filter_true] at hl0
    refine ⟨_, getAll_eq' hP hc, fun l hl => ?_⟩
    generalize ((entsOf r).map (fun e => (⟨ext r e.id, P.outLen, e.data.labels⟩ : TEntry L))) = es at hl0 hl
    have hmem : ∀ e ∈ l, absR r e.id = some e.labels := fun e he => ((hl0.2 e).1 (hl.mem_iff.1 he)).1
    have hnew : RInv (new start stop : RTable P L) := new_inv hP start stop hle
    have hempty : ∀ i, absR (new start stop : RTable P L) i = none := by
      intro i; unfold absR; split <;> rfl
    have hin : ∀ e ∈ l, InR start.toNat stop.toNat e.id := by
      intro e he
      have := hmem e he
      unfold absR at this
      split at this
      · rename_i hin; rw [hst.1, hst.2] at hin; exact hin
      · cases this
    obtain ⟨r1, r2, r3, r4⟩ := claims_run hP l hnew (fun e he => ⟨hin e he, hempty _⟩) ((hl.map _).nodup_iff.2 (by
          have := hl0.1
          exact List.Pairwise.imp (fun {a b} (h : a < b) => by rintro rfl; exact absurd h (BitVec.lt_irrefl _)) this))
    refine ⟨r1, ?_⟩
    obtain ⟨hpk, cs, rfl⟩ := h
    refine C96_ranged start stop cs _ fun i => ?_
    rw [get_reply_abs hP hi, get_reply_abs hP r2]
    have : absR (run (new start stop : RTable P L) cs).1 i =
        absR (run (new start stop : RTable P L) (l.map fun e => .claim e.id e.labels)).1 i := by
      by_cases he : ∃ e ∈ l, e.id = i
      · obtain ⟨e, he, rfl⟩ := he
        rw [r3 e he, hmem e he]
      · have hno : ∀ e ∈ l, e.id ≠ i := fun e h1 h2 => he ⟨e, h1, h2⟩
        rw [r4 i hno, hempty]
        cases hm : absR (run (new start stop : RTable P L) cs).1 i with
        | none => rfl
        | some x => exact absurd rfl (hno ⟨i, P.outLen, x⟩ (hl.mem_iff.2 ((hl0.2 _).2 ⟨hm, rfl, rfl⟩)))
    rw [this]

example : Reach (P := w16) 10 20 exR ∧ (w16 = w64 → ¬ ((10 : BitVec w16.W) = 0 ∧ (20 : BitVec w16.W) = -1)) :=
  ⟨exR_reach, fun _ h => absurd h.1 (by decide)⟩

/-! ### C129 -/

theorem releases_run (hP : Good P) : ∀ (l : List U64) {r : RTable P L}, RInv r →
    RInv (run r (l.map .release)).1 ∧ (∀ i ∈ l, absR (run r (l.map .release)).1 i = none) ∧
    ∀ i, absR r i = none → absR (run r (l.map .release)).1 i = none := by
  intro l
  induction l with
  | nil => intro r h; exact ⟨h, by simp, fun _ h => h⟩
  | cons k l ih =>
    intro r h
    obtain ⟨s1, s2, _, _⟩ := step_refines_explicit hP r h (.release k) trivial
    obtain ⟨i1, i2, i3⟩ := ih s2
    have hk : absR (step r (.release k)).1 k = none ∧ ∀ i, absR r i = none → absR (step r (.release k)).1 i = none := by
      rcases s1 with ⟨_, c1, _⟩ | ⟨c0, c1, _⟩
      · rw [c1]
        refine ⟨if_pos rfl, fun i hi => ?_⟩
        unfold LMap.drop
        split
        · rfl
        · exact hi
      · rw [c1]
        exact ⟨if_neg c0, fun _ h => h⟩
    refine ⟨i1, ?_, fun i hi => i3 i (hk.2 i hi)⟩
    intro i hi
    rcases List.mem_cons.1 hi with rfl | hi
    · exact i3 i hk.1
    · exact i2 i hi

theorem run_append (r : RTable P L) (cs ds : List (RCall L)) : (run r (cs ++ ds)).1 = (run (run r cs).1 ds).1 := by
  induction cs generalizing r with
  | nil => rfl
  | cons c cs ih => simp only [List.cons_append, run, ih]

/-- **C129** (ranged tables, all ranges) Once all ids claimed are released, in any order and whatever else is released, no
sequence of calls tells the table from a new one. -/
theorem C129_ranged {start stop : BitVec P.W} {r : RTable P L} (h : Reach start stop r) {l : List U64}
    (hl : ∀ i, has r i = true → i ∈ l) : Alike (new start stop : RTable P L) (run r (l.map .release)).1 := by
  have hP := h.1.good
  by_cases hle : start ≤ stop
  swap
  · have hlt : stop < start := by rw [BitVec.lt_def]; rw [BitVec.le_def] at hle; omega
    obtain ⟨hP, cs, rfl⟩ := h
    rw [← run_append, (C21_inverted_rejects hP start stop hlt _).1]
    exact fun _ => rfl
  · have hi := reach_rinv h hle
    obtain ⟨r1, r2, r3⟩ := releases_run hP l hi
    have hno : ∀ i, absR (run r (l.map .release)).1 i = none := by
      intro i
      cases ht : absR r i with
      | none => exact r3 i ht
      | some x => exact r2 i (hl i (by rw [has_spec hP]; rw [ht]; simp))
    obtain ⟨hpk, cs, rfl⟩ := h
    rw [← run_append] at r1 hno ⊢
    refine C96_ranged start stop [] _ fun i => ?_
    show (step (new start stop) _).2 = _
    rw [get_reply_abs hP (new_inv hP start stop hle), get_reply_abs hP r1, hno]
    have : absR (new start stop : RTable P L) i = none := by unfold absR; split <;> rfl
    rw [this]

-- two ids of the range 10-20 are claimed
example : sizeOf exR = 2 ∧ has exR 12 = true ∧ has exR 15 = true := by decide

/-! ### C130 -/

theorem put_drop (s : LMap L) (i : U64) (l : L) : (s.drop i).put i l = s.put i l := by
  funext k; unfold LMap.put LMap.drop; split <;> rfl

theorem put_put (s : LMap L) (i : U64) (l l' : L) : (s.put i l').put i l = s.put i l := by
  funext k; unfold LMap.put; split <;> rfl

theorem step_update_abs (hP : Good P) {r : RTable P L} (h : RInv r) {i : U64} (hi : absR r i ≠ none) (l : L) :
    absR (step r (.update i l)).1 = (absR r).put i l ∧ (step r (.update i l)).2 = .ok ∧ RInv (step r (.update i l)).1 := by
  obtain ⟨s1, s2, _, _⟩ := step_refines_explicit hP r h (.update i l) trivial
  rcases s1 with ⟨_, c1, c2⟩ | ⟨c0, _, _⟩
  · exact ⟨c1, c2, s2⟩
  · exact absurd c0 hi

/-- **C130** (ranged tables, all ranges) `Update` of a claimed id does what `Release` and `Claim` do, and undoes what
earlier updates did: the calls succeed, and no later calls tell the tables apart. -/
theorem C130_ranged {start stop : BitVec P.W} {r : RTable P L} (h : Reach start stop r) {i : U64} (hi : has r i = true)
    (l l' : L) :
    (run r [.update i l]).2 = [.ok] ∧ (run r [.release i, .claim i l]).2 = [.ok, .ok] ∧
    (run r [.update i l', .update i l]).2 = [.ok, .ok] ∧
    Alike (run r [.update i l]).1 (run r [.release i, .claim i l]).1 ∧
    Alike (run r [.update i l]).1 (run r [.update i l', .update i l]).1 := by
  have hP := h.1.good
  by_cases hle : start ≤ stop
  swap
  · have hlt : stop < start := by rw [BitVec.lt_def]; rw [BitVec.le_def] at hle; omega
    obtain ⟨hP, cs, rfl⟩ := h
    rw [(C21_inverted_rejects hP start stop hlt _).1] at hi
    unfold has at hi
    simp [new, IdxTable.has, IdxTable.newTable] at hi
    split at hi <;> cases hi
  · have hv := reach_rinv h hle
    have hab : absR r i ≠ none := by rw [has_spec hP] at hi; simpa using hi
    obtain ⟨a1, a2, a3⟩ := step_update_abs hP hv hab l
    obtain ⟨b1, b2, b3⟩ := step_update_abs hP hv hab l'
    obtain ⟨c1, c2, c3⟩ := step_update_abs hP b3 (i := i) (by rw [b1]; unfold LMap.put; simp) l
    rw [b1, put_put] at c1
    obtain ⟨s1, s2, s3, s4⟩ := step_refines_explicit hP r hv (.release i) trivial
    have hin : InR r.start.toNat r.stop.toNat i := by
      by_contra hc
      exact hab (if_neg hc)
    have s5 : absR (step r (.release i)).1 = (absR r).drop i ∧ (step r (.release i)).2 = .ok := by
      rcases s1 with ⟨_, c1, c2⟩ | ⟨c0, _, _⟩
      · exact ⟨c1, c2⟩
      · exact absurd hin c0
    obtain ⟨t1, t2, _, _⟩ := step_refines_explicit hP _ s2 (.claim i l) trivial
    have t3 : absR (step (step r (.release i)).1 (.claim i l)).1 = (absR r).put i l ∧ (step (step r (.release i)).1 (.claim i l)).2 = .ok := by
      rcases t1 with ⟨_, c1, c2⟩ | ⟨c0, _, _⟩
      · rw [s5.1, put_drop] at c1
        exact ⟨c1, c2⟩
      · refine absurd ⟨?_, ?_⟩ c0
        · rw [s3, s4]; exact hin
        · rw [s5.1]; unfold LMap.drop; simp
    refine ⟨by simp only [run, a2], by simp only [run, s5.2, t3.2], by simp only [run, b2, c2], ?_, ?_⟩
    all_goals
      obtain ⟨hpk, cs, rfl⟩ := h
      rw [← run_append, ← run_append]
      refine C96_ranged start stop _ _ fun k => ?_
      rw [run_append, run_append]
    · show (step (step _ _).1 _).2 = (step (step (step _ _).1 _).1 _).2
      rw [get_reply_abs hP a3, get_reply_abs hP t2, a1, t3.1]
    · show (step (step _ _).1 _).2 = (step (step (step _ _).1 _).1 _).2
      rw [get_reply_abs hP a3, get_reply_abs hP c3, a1, c1]

example : has exR 12 = true := by decide

end Verif.Ranged
