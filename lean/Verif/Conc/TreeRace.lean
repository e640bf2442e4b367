import Verif.Conc.TreeProps

/-! Data races (C77) and deadlocks (C78) of the trees of claimed prefixes. -/

set_option linter.unusedSectionVars false
namespace Verif.Conc
open Verif.Id Verif.GTree
open Verif.Tree (Out AtMost newTree)

variable {I : Impl} {L : Type} [Labels L] {κ σ ρ : Type} {N : Nat}

/-! ### C77 -/

/-- the calls that access the tree only under the lock -/
def TCall.Locked : TCall I L → Prop
  | .get _ | .update _ _ | .claim _ _ | .claimFree _ | .release _ | .children _ | .parents _ => True
  | _ => False

/-- the calls that take the read lock only once at a time -/
def TCall.Plain : TCall I L → Prop
  | .clone | .update _ _ | .claim _ _ | .releaseByLabel _ | .getByLabel _ | .getAll | .size => True
  | _ => False

theorem tcode_locked (g : GTree I L) {c : TCall I L} (hc : c.Locked) : (tcode N g c).Uses (fun _ => True) False := by
  cases c with
  | get id | children id | parents id =>
    refine .call trivial fun r => ?_
    split <;> exact .ret _
  | update id l | claim id l =>
    simp only [tcode]
    split
    · exact .ret _
    · exact .call trivial fun r => uses_replyDone _ _
  | claimFree l =>
    exact tcode_uses g (c := .claimFree l) trivial (fun _ => True) _ (by simp) (by simp) (by simp) (by simp) (by simp) (by simp) (by simp) (by simp)
  | release id =>
    simp only [tcode]
    split
    · exact .ret _
    · refine .call trivial fun r => ?_
      split
      · exact .call trivial fun r => uses_replyDone _ _
      · exact .ret _
      · exact .ret _
  | _ => cases hc

/-- **C77, part that holds**: without `ClaimRange`, `ReleaseByLabel`, `GetByLabel`, `GetAll`, `Size` and `Clone`
there is no data race. Missing: executions with these, where it is false. -/
theorem C77_no_race_partial {g₀ : GTree I L} {g : Cfg (TCall I L) (GTree I L) (TReply I L)} {H}
    (h : Exec (tprog N g₀) g₀ g H) (hno : ∀ n c, Ev.inv n c ∈ H → c.Locked) : ¬ Race g := by
  classical
  let code : TCall I L → TClient I L := fun c => if c.Locked then tcode N g₀ c else .ret .err
  have h1 : Exec (fun c => (code c).compile tsec) g₀ g H := by
    refine h.congr ?_
    intro n c hc
    have hl := hno n c hc
    simp only [code, if_pos hl]
    cases c with
    | claimRange s l => cases hl
    | _ => rfl
  refine no_race tsections ?_ h1
  intro c
  by_cases hl : c.Locked
  · simp only [code, if_pos hl]; exact tcode_locked g₀ hl
  · simp only [code, if_neg hl]; exact .ret _

/-- a claim and a release of the same id overlap -/
example : ∃ g H, Exec (tprog 0 (newG tree16 Bool 4)) (newG tree16 Bool 4) g H ∧ (∀ n c, Ev.inv n c ∈ H → c.Locked) ∧
    g.Pending 0 ∧ g.Pending 1 := by
  have h := ((Exec.init (code := tprog 0 (newG tree16 Bool 4)) (m₀ := newG tree16 Bool 4)).step
    (.inv (.claim ⟨3, 16⟩ true))).step (.inv (.release ⟨3, 16⟩))
  refine ⟨_, _, h, ?_, ⟨_, _, rfl, rfl⟩, ⟨_, _, rfl, rfl⟩⟩
  intro n c hc
  simp only [Option.toList, List.nil_append, List.cons_append, List.mem_cons, Ev.inv.injEq, List.not_mem_nil, or_false] at hc
  rcases hc with ⟨_, rfl⟩ | ⟨_, rfl⟩ <;> trivial

/-- **C77, violated**: each of `GetAll`, `GetByLabel`, `ReleaseByLabel` and `Size` reads the tree while `ClaimID`
writes it, on any tree and for any valid id. -/
theorem C77_iterate_race_violated (g₀ : GTree I L) (id : MyId I.P) (l : L) (hv : g₀.valid id = true) {c : TCall I L}
    (hc : c = .getAll ∨ c = .size ∨ (∃ sel, c = .getByLabel sel) ∨ ∃ sel, c = .releaseByLabel sel) :
    ∃ g, Exec (tprog N g₀) g₀ g [.inv 0 (.claim id l), .inv 1 c] ∧ Race g := by
  have hcl : tprog N g₀ (.claim id l) = (Client.call (.set id l) (replyDone .done) : TClient I L).compile tsec := by
    show (tcode N g₀ (.claim id l)).compile tsec = _
    simp only [tcode, hv]; rfl
  obtain ⟨k, hk⟩ : ∃ k, tprog N g₀ c = .rlock (.read fun _ => .runlock (.read k)) := by
    rcases hc with rfl | rfl | ⟨sel, rfl⟩ | ⟨sel, rfl⟩ <;> exact ⟨_, rfl⟩
  have h1 := ((Exec.init (code := tprog N g₀) (m₀ := g₀)).step (.inv (.claim id l))).step (.inv c)
  rw [hcl, hk] at h1
  have h2 := (((h1.step (.rlock (n := 1) rfl (by simp [NoWriter]))).step (.read (n := 1) rfl)).step
    (.runlock (n := 1) rfl)).step (.wait (n := 0) rfl (by simp [NoWriter]))
  have h3 := (h2.step (.lock (n := 0) rfl (by simp [NoReader]))).step (.read (n := 0) rfl)
  exact ⟨_, h3, 0, 1, _, _, by decide, rfl, rfl, ⟨_, _, rfl⟩, .inl ⟨_, rfl⟩⟩

/-- **C77, violated**: `Clone` reads the tree while `ClaimID` writes it. -/
theorem C77_clone_race_violated (g₀ : GTree I L) (id : MyId I.P) (l : L) (hv : g₀.valid id = true) :
    ∃ g, Exec (tprog N g₀) g₀ g [.inv 0 (.claim id l), .inv 1 .clone] ∧ Race g := by
  have hcl : tprog N g₀ (.claim id l) = (Client.call (.set id l) (replyDone .done) : TClient I L).compile tsec := by
    show (tcode N g₀ (.claim id l)).compile tsec = _
    simp only [tcode, hv]; rfl
  have h1 := ((Exec.init (code := tprog N g₀) (m₀ := g₀)).step (.inv (.claim id l))).step (.inv .clone)
  rw [hcl] at h1
  have h2 := ((h1.step (.wait (n := 0) rfl (by simp [NoWriter]))).step (.lock (n := 0) rfl (by simp [NoReader]))).step
    (.read (n := 0) rfl)
  exact ⟨_, h2, 0, 1, _, _, by decide, rfl, rfl, ⟨_, _, rfl⟩, .inl ⟨_, rfl⟩⟩

/-- **C77, violated**: two calls of `ClaimRange` write the tree at the same time. -/
theorem C77_claimRange_race_violated (g₀ : GTree I L) {s : List UInt8} {r : Rng I.P} {id : MyId I.P} {ids : List (MyId I.P)}
    (hs : parseRange s = some r) (hr : r.ids = some (id :: ids)) (l l' : L) :
    ∃ g, Exec (tprog N g₀) g₀ g [.inv 0 (.claimRange s l), .inv 1 (.claimRange s l')] ∧ Race g := by
  have hcl : ∀ l, tprog N g₀ (.claimRange s l) = (setAllP l (id :: ids)).bind fun
      | .ok => .ret .done
      | _ => .ret .panic := by
    intro l
    show claimRangeP s l = _
    simp only [claimRangeP, hs, hr]
    all_goals rfl
  have h1 := ((Exec.init (code := tprog N g₀) (m₀ := g₀)).step (.inv (.claimRange s l))).step (.inv (.claimRange s l'))
  rw [hcl, hcl] at h1
  have h2 := (h1.step (.read (n := 0) rfl)).step (.read (n := 1) rfl)
  exact ⟨_, h2, 0, 1, _, _, by decide, rfl, rfl, ⟨_, _, rfl⟩, .inr ⟨_, _, rfl⟩⟩

/-! ### C78 -/

/-- Call `i` holds a read lock and wants another one, call `j` waits for the write lock. -/
def Jam (i j : Nat) (th : List (Thread κ σ ρ)) : Prop :=
  (∃ c k rd wr, th[i]? = some ⟨c, some (.rlock k), rd + 1, wr⟩) ∧
  ∃ c k rd, th[j]? = some ⟨c, some (.lock k), rd, .waiting⟩

theorem getElem?_set_of {A : Type} {l : List A} {n i : Nat} {x y z : A} (hn : l[n]? = some y) (hi : l[i]? = some x)
    (hxy : y ≠ x) : (l.set n z)[i]? = some x := by
  have : n ≠ i := by
    rintro rfl
    rw [hn] at hi
    cases hi
    exact hxy rfl
  rw [List.getElem?_set_ne this, hi]

theorem Jam.step {code : κ → Prog σ ρ} {i j : Nat} {g g' : Cfg κ σ ρ} {e : Option (Ev κ ρ)} (h : Jam i j g.th)
    (hs : Step code g e g') : Jam i j g'.th ∧ ∀ r, e ≠ some (.ret i r) ∧ e ≠ some (.ret j r) := by
  obtain ⟨⟨c, k, rd, wr, h1⟩, c', k', rd', h2⟩ := h
  have key : ∀ {n : Nat} {y : Thread κ σ ρ} (z : Thread κ σ ρ), g.th[n]? = some y →
      (∀ k, y.prog ≠ some (.rlock k)) → (∀ k, y.prog ≠ some (.lock k)) → Jam i j (g.th.set n z) := by
    intro n y z hn hy hy'
    refine ⟨⟨c, k, rd, wr, getElem?_set_of hn h1 ?_⟩, c', k', rd', getElem?_set_of hn h2 ?_⟩
    · rintro rfl; exact hy _ rfl
    · rintro rfl; exact hy' _ rfl
  have hnw : ¬ NoWriter g.th := fun hw => by have := hw _ (List.mem_of_getElem? h2); cases this
  have hnr : ¬ NoReader g.th := fun hw => by have := hw _ (List.mem_of_getElem? h1); cases this
  cases hs with
  | @inv m th x =>
    refine ⟨⟨⟨c, k, rd, wr, ?_⟩, c', k', rd', ?_⟩, by simp⟩
    · exact (List.getElem?_append_left (List.getElem?_eq_some_iff.1 h1).1).trans h1
    · exact (List.getElem?_append_left (List.getElem?_eq_some_iff.1 h2).1).trans h2
  | @ret m th n _ r _ _ hn =>
    refine ⟨key _ hn (by simp) (by simp), ?_⟩
    intro r'
    constructor
    · intro he
      cases he
      rw [show th[i]? = some _ from hn] at h1
      cases h1
    · intro he
      cases he
      rw [show th[j]? = some _ from hn] at h2
      cases h2
  | read hn => exact ⟨key _ hn (by simp) (by simp), by simp⟩
  | write hn => exact ⟨key _ hn (by simp) (by simp), by simp⟩
  | runlock hn => exact ⟨key _ hn (by simp) (by simp), by simp⟩
  | unlock hn => exact ⟨key _ hn (by simp) (by simp), by simp⟩
  | rlock hn hw => exact absurd hw hnw
  | wait hn hw => exact absurd hw hnw
  | lock hn hw => exact absurd hw hnr

/-- two calls that wait for each other never return -/
theorem Jam.never {code : κ → Prog σ ρ} {i j : Nat} {g : Cfg κ σ ρ} (h : Jam i j g.th) {g' H'} (hl : Later code g g' H') :
    ∀ r, Ev.ret i r ∉ H' ∧ Ev.ret j r ∉ H' := by
  suffices hh : Jam i j g'.th ∧ ∀ r, Ev.ret i r ∉ H' ∧ Ev.ret j r ∉ H' from hh.2
  induction hl with
  | refl => exact ⟨h, by simp⟩
  | @step g' H e g'' _ hs ih =>
    obtain ⟨h1, h2⟩ := ih.1.step hs
    refine ⟨h1, fun r => ⟨?_, ?_⟩⟩
    · intro hm
      rcases List.mem_append.1 hm with hm | hm
      · exact (ih.2 r).1 hm
      · cases e with
        | none => simp at hm
        | some e => simp at hm; exact (h2 r).1 (by rw [hm])
    · intro hm
      rcases List.mem_append.1 hm with hm | hm
      · exact (ih.2 r).2 hm
      · cases e with
        | none => simp at hm
        | some e => simp at hm; exact (h2 r).2 (by rw [hm])

/-- **C78, violated**: `Get`, `Children` or `Parents` takes the read lock, `ClaimID` calls `Lock`, and the first
call takes the read lock again, which waits for the writer. Neither ever returns, on any tree and for any
valid id. -/
theorem C78_tree_deadlock_violated (g₀ : GTree I L) (id : MyId I.P) (l : L) (hv : g₀.valid id = true) {c : TCall I L}
    (hc : ∃ i, c = .get i ∨ c = .children i ∨ c = .parents i) :
    ∃ g, Exec (tprog N g₀) g₀ g [.inv 0 c, .inv 1 (.claim id l)] ∧ Deadlock (tprog N g₀) g ∧
      ∀ g' H', Later (tprog N g₀) g g' H' → ∀ r, Ev.ret 0 r ∉ H' ∧ Ev.ret 1 r ∉ H' := by
  have hcl : tprog N g₀ (.claim id l) = (Client.call (.set id l) (replyDone .done) : TClient I L).compile tsec := by
    show (tcode N g₀ (.claim id l)).compile tsec = _
    simp only [tcode, hv]; rfl
  obtain ⟨k, hk⟩ : ∃ k, tprog N g₀ c = .rlock (.rlock k) := by
    obtain ⟨i, rfl | rfl | rfl⟩ := hc <;> exact ⟨_, rfl⟩
  have h1 := ((Exec.init (code := tprog N g₀) (m₀ := g₀)).step (.inv c)).step (.inv (.claim id l))
  rw [hcl, hk] at h1
  have h2 := (h1.step (.rlock (n := 0) rfl (by simp [NoWriter]))).step (.wait (n := 1) rfl (by simp [NoWriter]))
  refine ⟨_, h2, ?_, ?_⟩
  · refine Deadlock.congr (code := fun _ => .rlock (.ret .err)) (Stuck.deadlock (fun c => ⟨_, .inl rfl⟩) ?_).1
    refine ⟨?_, ⟨_, List.mem_cons_self .., Nat.succ_ne_zero _⟩,
      ⟨_, List.mem_cons_of_mem _ (List.mem_cons_self ..), by simp⟩⟩
    intro z hz
    rcases List.mem_cons.1 hz with rfl | hz
    · exact ⟨_, .inl rfl⟩
    · rcases List.mem_cons.1 hz with rfl | hz
      · exact ⟨_, .inr rfl⟩
      · cases hz
  · intro g' H' hl
    exact Jam.never (i := 0) (j := 1) ⟨⟨_, _, 0, .none, rfl⟩, _, _, _, rfl⟩ hl

theorem tcode_plain (g : GTree I L) {c : TCall I L} (hc : c.Plain) :
    (tcode N g c).Uses (fun x => x = .iterate ∨ (∃ i l, x = .set i l) ∨ ∃ es, x = .delAll es) True := by
  cases c with
  | clone => exact .peek trivial fun _ => .ret _
  | update id l | claim id l =>
    simp only [tcode]
    split
    · exact .ret _
    · exact .call (by simp) fun r => uses_replyDone _ _
  | releaseByLabel sel =>
    exact .call (by simp) fun r => uses_walkC trivial (uses_labelBody trivial sel) (uses_releaseC (by simp)) _
  | getByLabel sel =>
    exact .call (by simp) fun r => uses_walkC trivial (uses_labelBody trivial sel) (fun es => .ret _) _
  | getAll => exact .call (by simp) fun r => uses_walkC trivial (uses_allBody trivial) (fun es => .ret _) _
  | size => exact .call (by simp) fun r => uses_walkC trivial (fun _ _ _ hk => hk _) (fun es => .ret _) _
  | _ => cases hc

/-- **C78, part that holds**: without `Get`, `Children`, `Parents`, `ClaimFree`, `ReleaseID` (which nest read
locks) there is no deadlock. Missing: executions with these, where it is false, and with `ClaimRange`, which
takes no lock. -/
theorem C78_tree_no_deadlock_partial {g₀ : GTree I L} {g : Cfg (TCall I L) (GTree I L) (TReply I L)} {H}
    (h : Exec (tprog N g₀) g₀ g H) (hno : ∀ n c, Ev.inv n c ∈ H → c.Plain) : ¬ Deadlock (tprog N g₀) g := by
  classical
  let code : TCall I L → TClient I L := fun c => if c.Plain then tcode N g₀ c else .ret .err
  have h1 : Exec (fun c => (code c).compile tsec) g₀ g H := by
    refine h.congr ?_
    intro n c hc
    have hl := hno n c hc
    simp only [code, if_pos hl]
    cases c with
    | claimRange s l => cases hl
    | _ => rfl
  have := no_deadlock (S := fun x => x = .iterate ∨ (∃ i l, x = .set i l) ∨ ∃ es, x = .delAll es) (pk := True) tsections
    ?_ ?_ h1
  · exact fun hd => this hd.congr
  · rintro c (rfl | ⟨i, l, rfl⟩ | ⟨es, rfl⟩)
    · intro k hk m
      cases hk
      exact ⟨_, .read .last⟩
    · exact flat_withLock
    · exact flat_withLock
  · intro c
    by_cases hl : c.Plain
    · simp only [code, if_pos hl]; exact tcode_plain g₀ hl
    · simp only [code, if_neg hl]; exact .ret _

/-- the hypotheses of `C77_no_race_partial`: tree32 of length 12, a claim, a release and a `ClaimFree` -/
example : ∃ g H, Exec (tprog N (newG tree32 Bool 12)) (newG tree32 Bool 12) g H ∧ (∀ n c, Ev.inv n c ∈ H → c.Locked) ∧ H ≠ [] := by
  obtain ⟨g, hg⟩ := ex_reclaim (I := tree32) (L := Bool) (.inr rfl) (length := 12) (by decide) true false
  refine ⟨g, _, hg, ?_, by simp⟩
  intro n c hc
  simp only [List.mem_cons, Ev.inv.injEq, reduceCtorEq, List.not_mem_nil, or_false, or_self, false_or] at hc
  rcases hc with ⟨_, rfl⟩ | ⟨_, rfl⟩ | ⟨_, rfl⟩ <;> trivial

/-- the hypotheses of `C78_tree_no_deadlock_partial`: a writer waits while `GetAll` has the read lock -/
example : ∃ g H, Exec (tprog N (newG tree16 Bool 4)) (newG tree16 Bool 4) g H ∧ (∀ n c, Ev.inv n c ∈ H → c.Plain) ∧
    (∃ n, g.Pending n) ∧ ¬ NoWriter g.th ∧ ¬ NoReader g.th := by
  have h1 := ((Exec.init (code := tprog N (newG tree16 Bool 4)) (m₀ := newG tree16 Bool 4)).step (.inv .getAll)).step
    (.inv (.claim ⟨3, 16⟩ true))
  have h2 := (h1.step (.rlock (n := 0) rfl (by simp [NoWriter]))).step (.wait (n := 1) rfl (by simp [NoWriter]))
  refine ⟨_, _, h2, ?_, ⟨0, _, _, rfl, rfl⟩, by simp [NoWriter], by simp [NoReader]⟩
  intro n c hc
  simp only [List.nil_append, List.cons_append, List.append_nil, Option.toList_some, Option.toList_none, List.mem_cons, Ev.inv.injEq, List.not_mem_nil, or_false] at hc
  rcases hc with ⟨_, rfl⟩ | ⟨_, rfl⟩ <;> trivial

/-- the hypotheses of `C77_claimRange_race_violated` -/
example : ∃ (r : Rng tree16.P) (id : MyId tree16.P) (ids : List (MyId tree16.P)),
    parseRange [51, 45, 53] = some r ∧ r.ids = some (id :: ids) := by
  exact ⟨_, _, _, rfl, rfl⟩

end Verif.Conc
