import Verif.Conc.Term

/-!
Calls that only read do not deadlock (C62, C78), and calls return (C93).
-/

set_option linter.unusedSectionVars false
namespace Verif.Conc
open Verif.IdxTable (U64 Table Entry Call Reply step newTable)
variable {α : Type}

/-- the calls of the index table that take the write lock -/
def Writes : Call α → Prop
  | .claim _ _ | .claimDynamic _ | .claimRange _ _ _ | .claimSize _ _ | .release _ | .update _ _ => True
  | _ => False

theorem reads_rlock (c : Call α) (hc : ¬ Writes c) : ∃ k, codeOf c = .rlock k := by
  cases c with
  | claim _ _ | claimDynamic _ | claimRange _ _ _ | claimSize _ _ | release _ | update _ _ => exact absurd trivial hc
  | _ => exact ⟨_, rfl⟩

/-- **C62, part that holds**: calls that take only the read lock do not deadlock, `GetAll` included. -/
theorem C62_index_readers_partial {size : U64} {g : Cfg (Call α) (Table α) (Reply α)} {H}
    (h : Exec codeOf (newTable size) g H) (hno : ∀ n c, Ev.inv n c ∈ H → ¬ Writes c) : ¬ Deadlock codeOf g := by
  classical
  let code : Call α → Client (Call α) (Reply α) (Table α) (Reply α) := fun c => if Writes c then .ret .err else .call c .ret
  have h1 : Exec (fun c => (code c).compile codeOf) (newTable size) g H := by
    refine h.congr fun n c hc => ?_
    simp only [code, if_neg (hno n c hc)]
    exact (compile_call codeOf _).symm
  have := readers_no_deadlock (S := fun c => ¬ Writes c) (pk := False) sections reads_rlock ?_ h1
  · exact fun hd => this hd.congr
  · intro c
    by_cases hc : Writes c
    · simp only [code, if_pos hc]; exact .ret _
    · simp only [code, if_neg hc]; exact .call hc fun _ => .ret _

/-- two `GetAll` and a `FindFreeSize` run at the same time, each `GetAll` takes the lock twice -/
example : ∃ g H, Exec codeOf (newTable 2 : Table String) g H ∧ (∀ n c, Ev.inv n c ∈ H → ¬ Writes c) ∧
    (∃ x ∈ g.th, x.rd = 2) ∧ ∃ n, g.Pending n := by
  obtain ⟨x, hx⟩ : ∃ x, follow codeOf [.start .getAll, .start .getAll, .start (.findFreeSize 1), .go 0, .go 1, .go 2,
      .go 0, .go 0, .go 1] ⟨(newTable 2 : Table String), []⟩ [] = some x := ⟨_, rfl⟩
  have hx' := follow_sound .init hx
  cases hx
  refine ⟨_, [.inv 0 .getAll, .inv 1 .getAll, .inv 2 (.findFreeSize 1)], hx', ?_, ⟨_, List.mem_cons_self .., rfl⟩, 0, _, _, rfl, rfl⟩
  intro n c hc
  simp only [List.mem_cons, Ev.inv.injEq, List.not_mem_nil, or_false] at hc
  rcases hc with ⟨_, rfl⟩ | ⟨_, rfl⟩ | ⟨_, rfl⟩ <;> exact fun h => h

/-- **C93 for the index table, part that holds**: all calls return, unless `GetAll` and calls that write are
used together. Missing: executions with both, where it is false. -/
theorem C93_index_partial {size : U64} {g : Cfg (Call α) (Table α) (Reply α)} {H} (h : Exec codeOf (newTable size) g H)
    (hno : (∀ n, Ev.inv n .getAll ∉ H) ∨ ∀ n c, Ev.inv n c ∈ H → ¬ Writes c) : AllReturn codeOf g := by
  rcases hno with hno | hno
  · refine all_return (fun c => c ≠ .getAll) (fun g H h hn => ?_) h fun n c hc => ?_
    · exact C62_index_no_deadlock_partial h fun n hc => hn n _ hc rfl
    · rintro rfl; exact hno n hc
  · exact all_return (fun c => ¬ Writes c) (fun g H h hn => C62_index_readers_partial h hn) h hno

/-- **C93, violated**: with `GetAll` and `Claim` two calls never return, although no other call is made. -/
theorem C93_index_violated (size id : U64) (d : α) :
    ∃ g, Exec codeOf (newTable size) g [.inv 0 .getAll, .inv 1 (.claim id d)] ∧ ¬ AllReturn codeOf g := by
  obtain ⟨g, h1, h2, _⟩ := C62_index_deadlock_violated size id d
  exact ⟨g, h1, not_all_return h2⟩

/-- a writer waits for a reader, and another reader for the writer -/
example : ∃ g H, Exec codeOf (newTable 4 : Table String) g H ∧ (∀ n, Ev.inv n .getAll ∉ H) ∧
    g.Pending 0 ∧ g.Pending 1 ∧ g.Pending 2 ∧ ¬ NoReader g.th ∧ ¬ NoWriter g.th := by
  obtain ⟨x, hx⟩ : ∃ x, follow codeOf [.start .size, .start (.claim 1 "a"), .start (.get 1), .go 0, .go 1]
      ⟨(newTable 4 : Table String), []⟩ [] = some x := ⟨_, rfl⟩
  have hx' := follow_sound .init hx
  cases hx
  refine ⟨_, _, hx', by simp, ⟨_, _, rfl, rfl⟩, ⟨_, _, rfl, rfl⟩, ⟨_, _, rfl, rfl⟩, ?_, ?_⟩
  · intro h; exact absurd (h _ (List.mem_cons_self ..)) (by decide)
  · intro h; exact absurd (h _ (List.mem_cons_of_mem _ (List.mem_cons_self ..))) (by simp)

section Ranged
open Verif.Ranged
variable {P : Width} {L : Type}

/-- the calls of a ranged table that may change it -/
def RWrites : RCall L → Prop
  | .claim _ _ | .claimFree _ | .release _ | .update _ _ => True
  | _ => False

theorem uses_rcode_reads (r : RTable P L) {c : RCall L} (hc : ¬ RWrites c) : (rcode r c).Uses (fun c => ¬ Writes c) True := by
  cases c with
  | claim _ _ | claimFree _ | release _ | update _ _ => exact absurd trivial hc
  | get id | has id | isFree id =>
    simp only [rcode]
    split
    · exact .ret _
    · refine .call (fun h => h) fun r => ?_
      split <;> exact .ret _
  | size =>
    refine .call (fun h => h) fun r => ?_
    split <;> exact .ret _
  | findFree =>
    simp only [rcode]
    refine uses_rfindFreeC r (fun h => h) ?_
    rintro (_ | id) <;> exact .ret _
  | getAll =>
    refine .call (fun h => h) fun _ => .call (fun h => h) fun r => ?_
    split <;> exact .ret _
  | getByLabel sel =>
    refine .call (fun h => h) fun _ => .call (fun h => h) fun r => ?_
    split
    · exact uses_rbyLabelC _ sel trivial _ _
    · exact .ret _

/-- **C62 for the ranged tables, part that holds**: calls that only read do not deadlock. -/
theorem C62_ranged_readers_partial {start stop : BitVec P.W} {g : Cfg (RCall L) (Table (TEntry L)) (RReply L)} {H}
    (h : Exec (rprog start stop) (new start stop : RTable P L).tab g H) (hno : ∀ n c, Ev.inv n c ∈ H → ¬ RWrites c) :
    ¬ Deadlock (rprog start stop) g := by
  classical
  let code : RCall L → RClient L := fun c => if RWrites c then .ret .err else rcode (new start stop : RTable P L) c
  have h1 : Exec (fun c => (code c).compile codeOf) (new start stop : RTable P L).tab g H := by
    refine h.congr fun n c hc => ?_
    simp only [code, if_neg (hno n c hc)]
    rfl
  have := readers_no_deadlock (S := fun c => ¬ Writes c) (pk := True) sections reads_rlock ?_ h1
  · exact fun hd => this hd.congr
  · intro c
    by_cases hc : RWrites c
    · simp only [code, if_pos hc]; exact .ret _
    · simp only [code, if_neg hc]; exact uses_rcode_reads _ hc

/-- **C93 for the ranged tables, part that holds.** Missing: executions with `GetAll` and calls that write,
where it is false. -/
theorem C93_ranged_partial {start stop : BitVec P.W} {g : Cfg (RCall L) (Table (TEntry L)) (RReply L)} {H}
    (h : Exec (rprog start stop) (new start stop : RTable P L).tab g H)
    (hno : (∀ n, Ev.inv n .getAll ∉ H) ∨ ∀ n c, Ev.inv n c ∈ H → ¬ RWrites c) : AllReturn (rprog start stop) g := by
  rcases hno with hno | hno
  · refine all_return (fun c => c ≠ .getAll) (fun g H h hn => ?_) h fun n c hc => ?_
    · exact C62_ranged_no_deadlock_partial h fun n hc => hn n _ hc rfl
    · rintro rfl; exact hno n hc
  · exact all_return (fun c => ¬ RWrites c) (fun g H h hn => C62_ranged_readers_partial h hn) h hno

/-- **C93, violated** for the ranged tables. -/
theorem C93_ranged_violated :
    ∃ g, Exec (rprog (P := w16) 10 20) (new (P := w16) 10 20 : RTable w16 String).tab g
      [.inv 0 .getAll, .inv 1 (.release 12)] ∧ ¬ AllReturn (rprog (P := w16) 10 20) g := by
  obtain ⟨g, h1, h2⟩ := C62_ranged_deadlock_violated
  exact ⟨g, h1, not_all_return h2⟩

/-- two `GetAll` at the same time; and `ClaimFree` while `Get` reads -/
example : ∃ g H, Exec (rprog (P := w16) 10 20) (new (P := w16) 10 20 : RTable w16 String).tab g H ∧
    (∀ n c, Ev.inv n c ∈ H → ¬ RWrites c) ∧ g.Pending 0 ∧ g.Pending 1 ∧ H ≠ [] := by
  obtain ⟨x, hx⟩ : ∃ x, follow (rprog (P := w16) 10 20) [.start .getAll, .start .getAll, .go 0, .go 1]
      ⟨(new (P := w16) 10 20 : RTable w16 String).tab, []⟩ [] = some x := ⟨_, rfl⟩
  have hx' := follow_sound .init hx
  cases hx
  refine ⟨_, [.inv 0 .getAll, .inv 1 .getAll], hx', ?_, ⟨_, _, rfl, rfl⟩, ⟨_, _, rfl, rfl⟩, by simp⟩
  intro n c hc
  simp only [List.mem_cons, Ev.inv.injEq, List.not_mem_nil, or_false] at hc
  rcases hc with ⟨_, rfl⟩ | ⟨_, rfl⟩ <;> exact fun h => h

example : ∃ g H, Exec (rprog (P := w16) 10 20) (new (P := w16) 10 20 : RTable w16 String).tab g H ∧
    (∀ n, Ev.inv n .getAll ∉ H) ∧ g.Pending 0 ∧ g.Pending 1 ∧ H ≠ [] := by
  obtain ⟨x, hx⟩ : ∃ x, follow (rprog (P := w16) 10 20) [.start (.get 12), .start (.claim 12 "a"), .go 0, .go 1]
      ⟨(new (P := w16) 10 20 : RTable w16 String).tab, []⟩ [] = some x := ⟨_, rfl⟩
  have hx' := follow_sound .init hx
  cases hx
  exact ⟨_, _, hx', by simp, ⟨_, _, rfl, rfl⟩, ⟨_, _, rfl, rfl⟩, by simp⟩

end Ranged

section IP
open Verif.IPTable
variable {R : Type} {parse : String → Option Addr}

/-- the calls of an IP table that may change it -/
def IWrites : ICall R → Prop
  | .claim _ _ | .release _ | .update _ _ => True
  | _ => False

theorem uses_icode_reads (r : IPTab R) {c : ICall R} (hc : ¬ IWrites c) :
    (icode parse r c).Uses (fun c => ¬ Writes c) True := by
  cases c with
  | claim _ _ | release _ | update _ _ => exact absurd trivial hc
  | get x | has x | isFree x =>
    simp only [icode]
    split
    · exact .ret _
    · refine .call (fun h => h) fun r => ?_
      split <;> exact .ret _
  | size =>
    refine .call (fun h => h) fun r => ?_
    split <;> exact .ret _
  | findFree =>
    refine .call (fun h => h) fun r => ?_
    split
    · split <;> exact .ret _
    · exact .ret _
  | getAll =>
    refine .call (fun h => h) fun r => ?_
    split <;> exact .ret _
  | getByLabel sel =>
    refine .call (fun h => h) fun r => ?_
    split
    · exact uses_ibyLabelC sel trivial _ _
    · exact .ret _

/-- **C62 for the IP table, part that holds**: calls that only read do not deadlock. -/
theorem C62_ip_readers_partial {lo hi : Addr} {g : Cfg (ICall R) (Table R) (IReply R)} {H}
    (h : Exec (iprog parse lo hi) (new lo hi : IPTab R).tab g H) (hno : ∀ n c, Ev.inv n c ∈ H → ¬ IWrites c) :
    ¬ Deadlock (iprog parse lo hi) g := by
  classical
  let code : ICall R → IClient R := fun c => if IWrites c then .ret .err else icode parse (new lo hi : IPTab R) c
  have h1 : Exec (fun c => (code c).compile codeOf) (new lo hi : IPTab R).tab g H := by
    refine h.congr fun n c hc => ?_
    simp only [code, if_neg (hno n c hc)]
    rfl
  have := readers_no_deadlock (S := fun c => ¬ Writes c) (pk := True) sections reads_rlock ?_ h1
  · exact fun hd => this hd.congr
  · intro c
    by_cases hc : IWrites c
    · simp only [code, if_pos hc]; exact .ret _
    · simp only [code, if_neg hc]; exact uses_icode_reads _ hc

/-- **C93 for the IP table, part that holds.** Missing: executions with `GetAll` and calls that write. -/
theorem C93_ip_partial {lo hi : Addr} {g : Cfg (ICall R) (Table R) (IReply R)} {H}
    (h : Exec (iprog parse lo hi) (new lo hi : IPTab R).tab g H)
    (hno : (∀ n, Ev.inv n .getAll ∉ H) ∨ ∀ n c, Ev.inv n c ∈ H → ¬ IWrites c) : AllReturn (iprog parse lo hi) g := by
  rcases hno with hno | hno
  · refine all_return (fun c => c ≠ .getAll) (fun g H h hn => ?_) h fun n c hc => ?_
    · exact C62_ip_no_deadlock_partial h fun n hc => hn n _ hc rfl
    · rintro rfl; exact hno n hc
  · exact all_return (fun c => ¬ IWrites c) (fun g H h hn => C62_ip_readers_partial h hn) h hno

/-- `Get` reads while `Claim` waits for the lock -/
example : ∃ g H, Exec (iprog (fun _ => some (.v4 7)) (.v4 5) (.v4 9)) (new (.v4 5) (.v4 9) : IPTab String).tab g H ∧
    (∀ n, Ev.inv n .getAll ∉ H) ∧ g.Pending 0 ∧ g.Pending 1 ∧ H ≠ [] := by
  obtain ⟨x, hx⟩ : ∃ x, follow (iprog (fun _ => some (.v4 7)) (.v4 5) (.v4 9)) [.start (.size), .start (.claim "0.0.0.7" "a"),
      .go 0, .go 1] ⟨(new (.v4 5) (.v4 9) : IPTab String).tab, []⟩ [] = some x := ⟨_, rfl⟩
  have hx' := follow_sound .init hx
  cases hx
  exact ⟨_, _, hx', by simp, ⟨_, _, rfl, rfl⟩, ⟨_, _, rfl, rfl⟩, by simp⟩

/-- two `GetAll` at the same time -/
example : ∃ g H, Exec (iprog (fun _ => none) (.v4 5) (.v4 9)) (new (.v4 5) (.v4 9) : IPTab String).tab g H ∧
    (∀ n c, Ev.inv n c ∈ H → ¬ IWrites c) ∧ g.Pending 0 ∧ g.Pending 1 ∧ H ≠ [] := by
  obtain ⟨x, hx⟩ : ∃ x, follow (iprog (fun _ => none) (.v4 5) (.v4 9)) [.start .getAll, .start .getAll,
      .go 0, .go 1] ⟨(new (.v4 5) (.v4 9) : IPTab String).tab, []⟩ [] = some x := ⟨_, rfl⟩
  have hx' := follow_sound .init hx
  cases hx
  refine ⟨_, [.inv 0 .getAll, .inv 1 .getAll], hx', ?_, ⟨_, _, rfl, rfl⟩, ⟨_, _, rfl, rfl⟩, by simp⟩
  intro n c hc
  simp only [List.mem_cons, Ev.inv.injEq, List.not_mem_nil, or_false] at hc
  rcases hc with ⟨_, rfl⟩ | ⟨_, rfl⟩ <;> exact fun h => h

end IP

section Trees
open Verif.Id Verif.GTree
variable {I : Impl} {L : Type} [Labels L] {N : Nat}

/-- the sections that take only the read lock -/
def SReads (c : TSec I L) : Prop := ∃ k, tsec c = .rlock k

theorem uses_tcode_reads (g : GTree I L) {c : TCall I L} (hc : ¬ c.Changes) : (tcode N g c).Uses SReads True := by
  cases c with
  | update _ _ | claim _ _ | claimFree _ | claimRange _ _ | release _ | releaseByLabel _ => exact absurd trivial hc
  | clone => exact .peek trivial fun _ => .ret _
  | get id | children id | parents id =>
    refine .call ⟨_, rfl⟩ fun r => ?_
    split <;> exact .ret _
  | getByLabel sel => exact .call ⟨_, rfl⟩ fun _ => uses_walkC trivial (uses_labelBody trivial sel) (fun _ => .ret _) _
  | getAll => exact .call ⟨_, rfl⟩ fun _ => uses_walkC trivial (uses_allBody trivial) (fun _ => .ret _) _
  | size => exact .call ⟨_, rfl⟩ fun _ => uses_walkC trivial (fun _ _ _ hk => hk _) (fun _ => .ret _) _

/-- **C78, part that holds**: calls that only read do not deadlock, however they nest the read lock. -/
theorem C78_tree_readers_partial {g₀ : GTree I L} {g : Cfg (TCall I L) (GTree I L) (TReply I L)} {H}
    (h : Exec (tprog N g₀) g₀ g H) (hno : ∀ n c, Ev.inv n c ∈ H → ¬ c.Changes) : ¬ Deadlock (tprog N g₀) g := by
  classical
  let code : TCall I L → TClient I L := fun c => if c.Changes then .ret .err else tcode N g₀ c
  have h1 : Exec (fun c => (code c).compile tsec) g₀ g H := by
    refine h.congr ?_
    intro n c hc
    have hl := hno n c hc
    simp only [code, if_neg hl]
    cases c with
    | claimRange s l => exact absurd trivial hl
    | _ => rfl
  have := readers_no_deadlock (S := SReads) (pk := True) tsections (fun _ h => h) ?_ h1
  · exact fun hd => this hd.congr
  · intro c
    by_cases hl : c.Changes
    · simp only [code, if_pos hl]; exact .ret _
    · simp only [code, if_neg hl]; exact uses_tcode_reads g₀ hl

/-- **C93 for the trees, part that holds**: all calls return if none of them changes the tree, or all are `Update`
and `ClaimID`. Missing: the other mixtures with `Get`, `Children`, `Parents`, `ClaimFree` and `ReleaseID`, where it is
false. That the loops without lock end by themselves, and not because the number of their rounds is bounded in the model, is
`C93_tree_loops_partial` and `C93_tree_plain_partial` in `TreeEnd`. -/
theorem C93_tree_partial {g₀ : GTree I L} {g : Cfg (TCall I L) (GTree I L) (TReply I L)} {H}
    (h : Exec (tprog N g₀) g₀ g H)
    (hno : (∀ n c, Ev.inv n c ∈ H → ¬ c.Changes) ∨ ∀ n c, Ev.inv n c ∈ H → ∃ i l, c = .claim i l ∨ c = .update i l) :
    AllReturn (tprog N g₀) g := by
  rcases hno with hno | hno
  · exact all_return (fun c => ¬ c.Changes) (fun g H h hn => C78_tree_readers_partial h hn) h hno
  · refine all_return TCall.Plain (fun g H h hn => C78_tree_no_deadlock_partial h hn) h fun n c hc => ?_
    obtain ⟨i, l, rfl | rfl⟩ := hno n c hc <;> trivial

/-- **C93, violated** for the trees: `Get` and `ClaimID` never return, on any tree and for any valid id. -/
theorem C93_tree_violated (g₀ : GTree I L) (id : MyId I.P) (l : L) (hv : g₀.valid id = true) {c : TCall I L}
    (hc : ∃ i, c = .get i ∨ c = .children i ∨ c = .parents i) :
    ∃ g, Exec (tprog N g₀) g₀ g [.inv 0 c, .inv 1 (.claim id l)] ∧ ¬ AllReturn (tprog N g₀) g := by
  obtain ⟨g, h1, h2, _⟩ := C78_tree_deadlock_violated g₀ id l hv hc
  exact ⟨g, h1, not_all_return h2⟩

/-- two `Get` at the same time, one holds the read lock twice -/
example : ∃ g H, Exec (tprog 0 (newG tree16 Bool 4)) (newG tree16 Bool 4) g H ∧ (∀ n c, Ev.inv n c ∈ H → ¬ c.Changes) ∧
    g.Pending 0 ∧ g.Pending 1 ∧ ∃ x ∈ g.th, x.rd = 2 := by
  have h1 := ((Exec.init (code := tprog 0 (newG tree16 Bool 4)) (m₀ := newG tree16 Bool 4)).step (.inv (.get ⟨3, 16⟩))).step
    (.inv (.parents ⟨3, 16⟩))
  have h2 := ((h1.step (.rlock (n := 0) rfl (by simp [NoWriter]))).step (.rlock (n := 1) rfl (by simp [NoWriter]))).step
    (.rlock (n := 0) rfl (by simp [NoWriter]))
  refine ⟨_, _, h2, ?_, ⟨_, _, rfl, rfl⟩, ⟨_, _, rfl, rfl⟩, ⟨_, List.mem_cons_self .., rfl⟩⟩
  intro n c hc
  simp only [List.nil_append, List.cons_append, List.append_nil, Option.toList_some, Option.toList_none, List.mem_cons,
    Ev.inv.injEq, List.not_mem_nil, or_false] at hc
  rcases hc with ⟨_, rfl⟩ | ⟨_, rfl⟩ <;> exact fun h => h

/-- two `ClaimID` at the same time, one has the lock -/
example : ∃ g H, Exec (tprog 0 (newG tree16 Bool 4)) (newG tree16 Bool 4) g H ∧
    (∀ n c, Ev.inv n c ∈ H → ∃ i l, c = .claim i l ∨ c = .update i l) ∧ g.Pending 0 ∧ g.Pending 1 ∧ ¬ NoWriter g.th := by
  have h1 := ((Exec.init (code := tprog 0 (newG tree16 Bool 4)) (m₀ := newG tree16 Bool 4)).step
    (.inv (.claim ⟨3, 16⟩ true))).step (.inv (.claim ⟨4, 16⟩ true))
  have h2 := (h1.step (.wait (n := 0) rfl (by simp [NoWriter])))
  refine ⟨_, _, h2, ?_, ⟨_, _, rfl, rfl⟩, ⟨_, _, rfl, rfl⟩, by simp [NoWriter]⟩
  intro n c hc
  simp only [List.nil_append, List.cons_append, List.append_nil, Option.toList_some, Option.toList_none, List.mem_cons,
    Ev.inv.injEq, List.not_mem_nil, or_false] at hc
  rcases hc with ⟨_, rfl⟩ | ⟨_, rfl⟩ <;> exact ⟨_, _, .inl rfl⟩

end Trees

end Verif.Conc
