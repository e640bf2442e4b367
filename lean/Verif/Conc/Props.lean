import Verif.Conc.Paths
import Verif.Conc.Sched
import Verif.IdxTable.Refine

/-!
Theorems about concurrent use of the index table, the ranged tables and the IP table:
C61, C62, C64, C73.
-/

namespace Verif.Conc
open Verif.IdxTable (U64 Table Entry Call Reply step newTable PMap SpecRun Inv absMap)
variable {κ κ₀ σ ρ ρ₀ β α : Type}

/-! ### The index table as a client of itself -/

theorem bind_ret (p : Prog σ ρ) : p.bind .ret = p := by
  induction p with
  | ret r => rfl
  | read k ih => simp only [Prog.bind]; congr; funext s; exact ih s
  | write w k ih => simp only [Prog.bind]; rw [ih]
  | rlock k ih => simp only [Prog.bind]; rw [ih]
  | runlock k ih => simp only [Prog.bind]; rw [ih]
  | lock k ih => simp only [Prog.bind]; rw [ih]
  | unlock k ih => simp only [Prog.bind]; rw [ih]

theorem compile_call (meth : κ₀ → Prog σ ρ₀) (c : κ₀) :
    (Client.call c Client.ret : Client κ₀ ρ₀ σ ρ₀).compile meth = meth c := bind_ret (meth c)

/-- an execution of the index table in the form used by `sim` -/
theorem exec_client {m₀ : Table α} {g : Cfg (Call α) (Table α) (Reply α)} {H} (h : Exec codeOf m₀ g H) :
    Exec (fun c => (Client.call c Client.ret).compile codeOf) m₀ g H := by
  have : (fun c => (Client.call c Client.ret).compile codeOf) = (codeOf (α := α)) :=
    funext fun c => compile_call codeOf c
  rw [this]
  exact h

/-- a schedule only depends on the programs of the calls that are made -/
theorem Exec.congr {code code' : κ → Prog σ ρ} {m₀ : σ} {g : Cfg κ σ ρ} {H : List (Ev κ ρ)} (h : Exec code m₀ g H) :
    (∀ n c, Ev.inv n c ∈ H → code c = code' c) → Exec code' m₀ g H := by
  induction h with
  | init => exact fun _ => .init
  | step _ hs ih =>
    intro hc
    have he := ih fun n c hn => hc n c (List.mem_append_left _ hn)
    cases hs with
    | inv c =>
      have := hc _ c (List.mem_append_right _ (List.mem_cons_self ..))
      rw [this]
      exact he.step (.inv c)
    | ret h => exact he.step (.ret h)
    | read h => exact he.step (.read h)
    | write h => exact he.step (.write h)
    | rlock h hw => exact he.step (.rlock h hw)
    | runlock h => exact he.step (.runlock h)
    | wait h hw => exact he.step (.wait h hw)
    | lock h hr => exact he.step (.lock h hr)
    | unlock h => exact he.step (.unlock h)

theorem Moves.congr {code code' : κ → Prog σ ρ} {g : Cfg κ σ ρ} (h : Moves code g) : Moves code' g := by
  obtain ⟨e, g', hs, he⟩ := h
  cases hs with
  | inv c => exact absurd rfl (he _ _)
  | ret h => exact ⟨_, _, .ret h, he⟩
  | read h => exact ⟨_, _, .read h, he⟩
  | write h => exact ⟨_, _, .write h, he⟩
  | rlock h hw => exact ⟨_, _, .rlock h hw, he⟩
  | runlock h => exact ⟨_, _, .runlock h, he⟩
  | wait h hw => exact ⟨_, _, .wait h hw, he⟩
  | lock h hr => exact ⟨_, _, .lock h hr, he⟩
  | unlock h => exact ⟨_, _, .unlock h, he⟩

theorem Deadlock.congr {code code' : κ → Prog σ ρ} {g : Cfg κ σ ρ} (h : Deadlock code g) : Deadlock code' g :=
  ⟨h.1, fun hm => h.2 hm.congr⟩

/-! ## C61 -/

/-- C61 for the index table: two calls that claimed the same id have a release of it between them. -/
theorem C61_index_exclusive {size : U64} {g : Cfg (Call α) (Table α) (Reply α)} {H}
    (h : Exec codeOf (newTable size) g H) {n n' : Nat} (hn : n ≠ n') {c c' : Call α} {r r' : Reply α}
    (hi : Ev.inv n c ∈ H) (hr : Ev.ret n r ∈ H) (hi' : Ev.inv n' c' ∈ H) (hr' : Ev.ret n' r' ∈ H)
    {id : U64} (hc : Claims id c r) (hc' : Claims id c' r') : OnlyAfterRelease H (Releases id) n n' := by
  obtain ⟨a, G, ha, _⟩ := sim sections (exec_client h)
  have key : ∀ {n : Nat} {c : Call α} {r : Reply α}, Ev.inv n c ∈ H → Ev.ret n r ∈ H → (c, r) ∈ callsOf G n := by
    intro n c r hi hr
    obtain ⟨r1, l, hl, h1⟩ := path_call (ha.facts.returned hi hr)
    obtain ⟨rfl, h2⟩ := path_ret h1
    cases h2
    rw [hl]
    simp
  refine only_after_release ha ?_ hn (key hi hr) (key hi' hr') hc hc'
  intro c l d x r hp hx hrel
  rcases path_call' hp with ⟨rfl, _⟩ | ⟨r1, l', rfl, h1⟩
  · cases hx
  · obtain ⟨rfl, rfl⟩ := path_ret h1
    simp only [List.mem_cons, List.not_mem_nil, or_false] at hx
    cases hx
    refine ⟨⟨_, hrel⟩, ?_⟩
    intro r' hr'
    cases hr'
    exact hrel

/-- three overlapping calls: `Claim(1)`, `Release(1)` and another `Claim(1)` succeed -/
example : ∃ g, Exec codeOf (newTable 4 : Table String) g
    [.inv 0 (.claim 1 "a"), .inv 1 (.release 1), .inv 2 (.claim 1 "b"), .ret 2 .ok, .ret 1 .ok, .ret 0 .ok] :=
  exec_of_follow [.start (.claim 1 "a"), .start (.release 1), .start (.claim 1 "b"),
    .go 0, .go 0, .go 0, .go 0, .go 0, .go 0, .go 1, .go 1, .go 1, .go 1, .go 1,
    .go 2, .go 2, .go 2, .go 2, .go 2, .go 2, .go 2, .go 1, .go 0] rfl

section Ranged
open Verif.Ranged
variable {P : Width} {L : Type}

/-- C61 for the ranged tables. -/
theorem C61_ranged_exclusive (hP : IsPkg P) {start stop : BitVec P.W} {g : Cfg (RCall L) (Table (TEntry L)) (RReply L)}
    {H} (h : Exec (rprog start stop) (new start stop : RTable P L).tab g H) {n n' : Nat} (hn : n ≠ n')
    {c c' : RCall L} {r r' : RReply L}
    (hi : Ev.inv n c ∈ H) (hr : Ev.ret n r ∈ H) (hi' : Ev.inv n' c' ∈ H) (hr' : Ev.ret n' r' ∈ H)
    {id : U64} (hc : RClaims id c r) (hc' : RClaims id c' r') : OnlyAfterRelease H (RReleases id) n n' := by
  obtain ⟨a, G, ha, _⟩ := sim sections h
  obtain ⟨hv, e, he⟩ := path_rclaims hP.good (ha.facts.returned hi hr) hc
  obtain ⟨_, e', he'⟩ := path_rclaims hP.good (ha.facts.returned hi' hr') hc'
  refine only_after_release (x := (_, .ok)) (z := (_, .ok)) ha ?_ hn he he' ⟨rfl, rfl⟩ ⟨rfl, rfl⟩
  intro c l d x r hp hx hrel
  exact path_rreleases hP.good hv hp hx hrel

example : ∃ g, Exec (rprog (P := w16) 10 20) (new (P := w16) 10 20 : RTable w16 String).tab g
    [.inv 0 (.claim 12 "a"), .inv 1 (.release 12), .inv 2 (.claim 12 "b"), .ret 0 .ok, .ret 1 .ok, .ret 2 .ok] :=
  exec_of_follow [.start (.claim 12 "a"), .start (.release 12), .start (.claim 12 "b"),
    .go 0, .go 0, .go 0, .go 0, .go 0, .go 0, .go 0, .go 0, .go 0,
    .go 1, .go 1, .go 1, .go 1, .go 1,
    .go 2, .go 2, .go 2, .go 2, .go 2, .go 2, .go 2, .go 2, .go 2, .go 0, .go 1, .go 2] rfl

end Ranged

section IP
open Verif.IPTable
variable {R : Type} {parse : String → Option Addr}

/-- C61 for the IP table, part that holds: ranges of at most `2^64` addresses. Missing: the larger IPv6
ranges, where addresses share a slot (`C61_ip_exclusive_violated`). -/
theorem C61_ip_exclusive_partial {lo hi : Addr} (hs : MidRange lo hi) {g : Cfg (ICall R) (Table R) (IReply R)}
    {H} (h : Exec (iprog parse lo hi) (new lo hi : IPTab R).tab g H) {n n' : Nat} (hn : n ≠ n')
    {c c' : ICall R} {r r' : IReply R}
    (hi : Ev.inv n c ∈ H) (hr : Ev.ret n r ∈ H) (hi' : Ev.inv n' c' ∈ H) (hr' : Ev.ret n' r' ∈ H)
    {a : Addr} (hc : IClaims parse a c r) (hc' : IClaims parse a c' r') : OnlyAfterRelease H (IReleases parse a) n n' := by
  obtain ⟨b, G, hb, _⟩ := sim sections h
  obtain ⟨hv, e, he⟩ := path_iclaims (hb.facts.returned hi hr) hc
  obtain ⟨_, e', he'⟩ := path_iclaims (hb.facts.returned hi' hr') hc'
  refine only_after_release (x := (_, .ok)) (z := (_, .ok)) hb ?_ hn he he' ⟨rfl, rfl⟩ ⟨rfl, rfl⟩
  intro c l d x r hp hx hrel
  exact path_ireleases hs rfl hv hp hx hrel

/-- strings of the examples -/
def exParse : String → Option Addr := fun s =>
  if s = "10.0.0.1" then some (.v4 0x0a000001)
  else if s = "::" then some (.v6 0 "")
  else if s = "::1:0:0:0:0" then some (.v6 0x10000000000000000#128 "")
  else none

example : MidRange (.v4 0x0a000000) (.v4 0x0a000003) := by simp [MidRange]

example : ∃ g, Exec (iprog exParse (.v4 0x0a000000) (.v4 0x0a000003)) (new (.v4 0x0a000000) (.v4 0x0a000003) : IPTab String).tab g
    [.inv 0 (.claim "10.0.0.1" "a"), .inv 1 (.claim "10.0.0.1" "b"), .ret 0 .ok, .ret 1 .err, .inv 2 (.release "10.0.0.1"),
      .ret 2 .ok, .inv 3 (.claim "10.0.0.1" "b"), .ret 3 .ok] :=
  exec_of_follow [.start (.claim "10.0.0.1" "a"), .start (.claim "10.0.0.1" "b"),
    -- both see that the address is free
    .go 0, .go 0, .go 0, .go 1, .go 1, .go 1,
    .go 0, .go 0, .go 0, .go 0, .go 0, .go 0, .go 0,
    .go 1, .go 1, .go 1, .go 1, .go 1, .go 1,
    .start (.release "10.0.0.1"), .go 2, .go 2, .go 2, .go 2, .go 2, .go 2,
    .start (.claim "10.0.0.1" "b"),
    .go 3, .go 3, .go 3, .go 3, .go 3, .go 3, .go 3, .go 3, .go 3, .go 3] rfl

/-- C61 fails for large IPv6 ranges: `::` is claimed twice, and the only release is that of another
address. -/
theorem C61_ip_exclusive_violated :
    ∃ (g : _) (H : List (Ev (ICall String) (IReply String))),
      Exec (iprog exParse (.v6 0 "") (.v6 0x20000000000000000#128 ""))
        (new (.v6 0 "") (.v6 0x20000000000000000#128 "") : IPTab String).tab g H ∧
      Ev.inv 0 (.claim "::" "a") ∈ H ∧ Ev.ret 0 .ok ∈ H ∧ Ev.inv 2 (.claim "::" "b") ∈ H ∧ Ev.ret 2 .ok ∈ H ∧
      ¬ OnlyAfterRelease H (IReleases exParse (.v6 0 "")) 0 2 := by
  obtain ⟨g, hg⟩ : ∃ g, Exec (iprog exParse (.v6 0 "") (.v6 0x20000000000000000#128 ""))
        (new (.v6 0 "") (.v6 0x20000000000000000#128 "") : IPTab String).tab g
      [.inv 0 (.claim "::" "a"), .ret 0 .ok, .inv 1 (.release "::1:0:0:0:0"), .ret 1 .ok,
        .inv 2 (.claim "::" "b"), .ret 2 .ok] :=
    exec_of_follow [.start (.claim "::" "a"), .go 0, .go 0, .go 0, .go 0, .go 0, .go 0, .go 0, .go 0, .go 0, .go 0,
      .start (.release "::1:0:0:0:0"), .go 1, .go 1, .go 1, .go 1, .go 1, .go 1,
      .start (.claim "::" "b"), .go 2, .go 2, .go 2, .go 2, .go 2, .go 2, .go 2, .go 2, .go 2, .go 2] rfl
  refine ⟨g, _, hg, by simp, by simp, by simp, by simp, ?_⟩
  have hno : ∀ a b, ¬ ReleasedBetween [Ev.inv 0 (ICall.claim "::" "a"), .ret 0 IReply.ok, .inv 1 (.release "::1:0:0:0:0"),
      .ret 1 .ok, .inv 2 (.claim "::" "b"), .ret 2 .ok] (IReleases exParse (.v6 0 "")) a b := by
    rintro a b ⟨n, c, hc, ⟨r, hr⟩, _⟩
    simp only [List.mem_cons, List.not_mem_nil, or_false, Ev.inv.injEq, reduceCtorEq, false_or] at hc
    rcases hc with ⟨_, rfl⟩ | ⟨_, rfl⟩ | ⟨_, rfl⟩
    · cases hr
    · have := hr.1
      revert this
      decide
    · cases hr
  rintro (⟨_, h⟩ | ⟨_, h⟩)
  · exact hno _ _ h
  · exact hno _ _ h

end IP

/-! ## C62 -/

/-- what can happen after a state -/
inductive Later (code : κ → Prog σ ρ) (g : Cfg κ σ ρ) : Cfg κ σ ρ → List (Ev κ ρ) → Prop
  | refl : Later code g g []
  | step {g' H e g''} : Later code g g' H → Step code g' e g'' → Later code g g'' (H ++ e.toList)

/-- Every call is at the door of the mutex, some call inside has a read lock, and a writer waits for it. -/
def Stuck (th : List (Thread κ σ ρ)) : Prop :=
  (∀ x ∈ th, ∃ k, x.prog = some (.rlock k) ∨ x.prog = some (.lock k)) ∧
  (∃ x ∈ th, x.rd ≠ 0) ∧ (∃ x ∈ th, x.wr ≠ .none)

theorem Stuck.step {code : κ → Prog σ ρ} (hcode : ∀ c, ∃ k, code c = .rlock k ∨ code c = .lock k)
    {g g' : Cfg κ σ ρ} {e : Option (Ev κ ρ)} (h : Stuck g.th) (hs : Step code g e g') :
    Stuck g'.th ∧ ∃ n c, e = some (.inv n c) := by
  obtain ⟨h1, ⟨x, hx, hxr⟩, ⟨y, hy, hyw⟩⟩ := h
  have hat : ∀ {n : Nat} {c p rd wr}, g.th[n]? = some ⟨c, some p, rd, wr⟩ → ∃ k, p = .rlock k ∨ p = .lock k := by
    intro n c p rd wr hn
    obtain ⟨k, hk⟩ := h1 _ (List.mem_of_getElem? hn)
    rcases hk with hk | hk
    · cases hk; exact ⟨k, .inl rfl⟩
    · cases hk; exact ⟨k, .inr rfl⟩
  cases hs with
  | @inv m th c =>
    refine ⟨⟨?_, ⟨x, List.mem_append_left _ hx, hxr⟩, ⟨y, List.mem_append_left _ hy, hyw⟩⟩, _, _, rfl⟩
    intro z hz
    rcases List.mem_append.1 hz with hz | hz
    · exact h1 z hz
    · simp only [List.mem_cons, List.not_mem_nil, or_false] at hz
      subst hz
      obtain ⟨k, hk | hk⟩ := hcode c
      · exact ⟨k, .inl (congrArg some hk)⟩
      · exact ⟨k, .inr (congrArg some hk)⟩
  | ret hn => obtain ⟨k, hk | hk⟩ := hat hn <;> cases hk
  | read hn => obtain ⟨k, hk | hk⟩ := hat hn <;> cases hk
  | write hn => obtain ⟨k, hk | hk⟩ := hat hn <;> cases hk
  | runlock hn => obtain ⟨k, hk | hk⟩ := hat hn <;> cases hk
  | unlock hn => obtain ⟨k, hk | hk⟩ := hat hn <;> cases hk
  | rlock hn hw => exact absurd (hw y hy) hyw
  | wait hn hw => exact absurd (hw y hy) hyw
  | lock hn hr => exact absurd (hr x hx) hxr

theorem Stuck.deadlock {code : κ → Prog σ ρ} (hcode : ∀ c, ∃ k, code c = .rlock k ∨ code c = .lock k)
    {g : Cfg κ σ ρ} (h : Stuck g.th) :
    Deadlock code g ∧ ∀ g' H', Later code g g' H' → ∀ n r, Ev.ret n r ∉ H' := by
  refine ⟨⟨?_, ?_⟩, ?_⟩
  · obtain ⟨x, hx, _⟩ := h.2.1
    obtain ⟨n, hn⟩ := List.getElem?_of_mem hx
    obtain ⟨k, hk | hk⟩ := h.1 x hx
    · exact ⟨n, x, _, hn, hk⟩
    · exact ⟨n, x, _, hn, hk⟩
  · rintro ⟨e, g', hs, he⟩
    obtain ⟨_, n, c, rfl⟩ := h.step hcode hs
    exact he _ _ rfl
  · intro g' H' hl
    suffices hh : Stuck g'.th ∧ ∀ n r, Ev.ret n r ∉ H' from hh.2
    induction hl with
    | refl => exact ⟨h, by simp⟩
    | step _ hs ih =>
      obtain ⟨h1, n, c, rfl⟩ := ih.1.step hcode hs
      refine ⟨h1, ?_⟩
      intro n' r' hm
      rcases List.mem_append.1 hm with hm | hm
      · exact ih.2 _ _ hm
      · simp at hm

theorem codeOf_door (c : Call α) : ∃ k, codeOf c = .rlock k ∨ codeOf c = .lock k := by
  rcases sections c with ⟨k, hk, _⟩ | ⟨k, hk, _⟩
  · exact ⟨k, .inl hk⟩
  · exact ⟨k, .inr hk⟩

/-- C62 fails: `GetAll` takes the read lock, a writer calls `Lock`, and `GetAll` takes the read lock
again, which waits for the writer. Neither ever returns, and no later call returns either, on a
table of any size and whatever the writer is. -/
theorem C62_index_deadlock_violated (size id : U64) (d : α) :
    ∃ g, Exec codeOf (newTable size) g [.inv 0 .getAll, .inv 1 (.claim id d)] ∧ Deadlock codeOf g ∧
      ∀ g' H', Later codeOf g g' H' → ∀ n r, Ev.ret n r ∉ H' := by
  obtain ⟨x, hx⟩ : ∃ x, follow codeOf [.start .getAll, .start (.claim id d), .go 0, .go 0, .go 1]
      ⟨(newTable size : Table α), []⟩ [] = some x := ⟨_, rfl⟩
  have hx' := hx
  simp only [follow] at hx
  refine ⟨x.1, ?_, Stuck.deadlock codeOf_door ?_⟩
  · have : x.2 = [.inv 0 .getAll, .inv 1 (.claim id d)] := by cases hx; rfl
    rw [← this]
    exact follow_sound .init hx'
  · cases hx
    refine ⟨?_, ⟨_, List.mem_cons_self .., Nat.succ_ne_zero _⟩,
      ⟨_, List.mem_cons_of_mem _ (List.mem_cons_self ..), by simp⟩⟩
    intro z hz
    rcases List.mem_cons.1 hz with rfl | hz
    · exact ⟨_, .inl rfl⟩
    · rcases List.mem_cons.1 hz with rfl | hz
      · exact ⟨_, .inr rfl⟩
      · cases hz

/-- C62, part that holds: as long as `GetAll` is not called, some call in progress can make a step.
Missing: executions with `GetAll`, where it is false. -/
theorem C62_index_no_deadlock_partial {size : U64} {g : Cfg (Call α) (Table α) (Reply α)} {H}
    (h : Exec codeOf (newTable size) g H) (hno : ∀ n, Ev.inv n .getAll ∉ H) : ¬ Deadlock codeOf g := by
  let code : Call α → Client (Call α) (Reply α) (Table α) (Reply α) := fun
    | .getAll => .ret .err
    | c => .call c .ret
  have h1 : Exec (fun c => (code c).compile codeOf) (newTable size) g H := by
    refine h.congr ?_
    intro n c hc
    cases c with
    | getAll => exact absurd hc (hno n)
    | _ => exact (compile_call codeOf _).symm
  have := no_deadlock (S := fun c => c ≠ .getAll) (pk := False) sections (fun c hc => flat_codeOf c hc) ?_ h1
  · exact fun hd => this hd.congr
  · intro c
    cases c with
    | getAll => exact .ret _
    | _ => exact .call (by simp) fun _ => .ret _

/-- a writer waits for a reader, the reader goes on -/
example : ∃ g, Exec codeOf (newTable 4 : Table String) g
    [.inv 0 .size, .inv 1 (.claim 1 "a"), .ret 0 (.nat 0), .ret 1 .ok] :=
  exec_of_follow [.start .size, .start (.claim 1 "a"), .go 0, .go 1, .go 0, .go 0, .go 0,
    .go 1, .go 1, .go 1, .go 1, .go 1, .go 1] rfl

section Ranged
open Verif.Ranged
variable {P : Width} {L : Type}

/-- C62 for the ranged tables, part that holds. -/
theorem C62_ranged_no_deadlock_partial {start stop : BitVec P.W} {g : Cfg (RCall L) (Table (TEntry L)) (RReply L)} {H}
    (h : Exec (rprog start stop) (new start stop : RTable P L).tab g H) (hno : ∀ n, Ev.inv n .getAll ∉ H) :
    ¬ Deadlock (rprog start stop) g := by
  let code : RCall L → RClient L := fun
    | .getAll => .ret .err
    | c => rcode (new start stop : RTable P L) c
  have h1 : Exec (fun c => (code c).compile codeOf) (new start stop : RTable P L).tab g H := by
    refine h.congr ?_
    intro n c hc
    cases c with
    | getAll => exact absurd hc (hno n)
    | _ => rfl
  have := no_deadlock (S := fun c => c ≠ .getAll) (pk := True) sections (fun c hc => flat_codeOf c hc) ?_ h1
  · exact fun hd => this hd.congr
  · intro c
    cases c with
    | getAll => exact .ret _
    | _ => exact uses_rcode _ _ _ _ (by simp) (by simp) (by simp) (by simp) (by simp) (by simp) (by simp) (by simp)
            (by simp) (by simp)

/-- C62 fails for the ranged tables, whose `GetAll` calls that of the index table. -/
theorem C62_ranged_deadlock_violated :
    ∃ g, Exec (rprog (P := w16) 10 20) (new (P := w16) 10 20 : RTable w16 String).tab g
      [.inv 0 .getAll, .inv 1 (.release 12)] ∧ Deadlock (rprog (P := w16) 10 20) g := by
  obtain ⟨x, hx⟩ : ∃ x, follow (rprog (P := w16) 10 20) [.start .getAll, .start (.release 12), .go 0, .go 0, .go 0,
      .go 0, .go 0, .go 1] ⟨(new (P := w16) 10 20 : RTable w16 String).tab, []⟩ [] = some x := ⟨_, rfl⟩
  have hx' := hx
  simp only [follow] at hx
  refine ⟨x.1, ?_, ?_⟩
  · have : x.2 = [.inv 0 .getAll, .inv 1 (.release 12)] := by cases hx; rfl
    rw [← this]
    exact follow_sound .init hx'
  · refine Deadlock.congr (code := fun _ => .rlock (.ret .err)) (Stuck.deadlock (fun c => ⟨_, .inl rfl⟩) ?_).1
    cases hx
    refine ⟨?_, ⟨_, List.mem_cons_self .., Nat.succ_ne_zero _⟩,
      ⟨_, List.mem_cons_of_mem _ (List.mem_cons_self ..), by simp⟩⟩
    intro z hz
    rcases List.mem_cons.1 hz with rfl | hz
    · exact ⟨_, .inl rfl⟩
    · rcases List.mem_cons.1 hz with rfl | hz
      · exact ⟨_, .inr rfl⟩
      · cases hz

end Ranged

section IP
open Verif.IPTable
variable {R : Type} {parse : String → Option Addr}

/-- C62 for the IP table, part that holds. -/
theorem C62_ip_no_deadlock_partial {lo hi : Addr} {g : Cfg (ICall R) (Table R) (IReply R)} {H}
    (h : Exec (iprog parse lo hi) (new lo hi : IPTab R).tab g H) (hno : ∀ n, Ev.inv n .getAll ∉ H) :
    ¬ Deadlock (iprog parse lo hi) g := by
  let code : ICall R → IClient R := fun
    | .getAll => .ret .err
    | c => icode parse (new lo hi : IPTab R) c
  have h1 : Exec (fun c => (code c).compile codeOf) (new lo hi : IPTab R).tab g H := by
    refine h.congr ?_
    intro n c hc
    cases c with
    | getAll => exact absurd hc (hno n)
    | _ => rfl
  have := no_deadlock (S := fun c => c ≠ .getAll) (pk := True) sections (fun c hc => flat_codeOf c hc) ?_ h1
  · exact fun hd => this hd.congr
  · intro c
    cases c with
    | getAll => exact .ret _
    | _ => exact uses_icode _ _ _ _ (by simp) (by simp) (by simp) (by simp) (by simp) (by simp) (by simp) (by simp)
            (by simp) (by simp)

end IP

/-! ## C64 -/

/-- a call does not return before it starts -/
theorem AExec.before_irrefl {code : κ → Client κ₀ ρ₀ σ ρ} {sem : σ → κ₀ → σ × ρ₀} {see : σ → σ → Prop} {m₀ : σ}
    {a : ACfg κ κ₀ ρ₀ σ ρ} {G H} (h : AExec code sem see m₀ a G H) : ∀ n, ¬ Before H n n := by
  induction h with
  | init => rintro n ⟨r, c, hs⟩; cases hs
  | @step g G H _ _ _ h0 hs ih =>
    rintro n ⟨r, c, hn⟩
    cases hs with
    | inv c' =>
      rcases sublist_snoc_of_ne hn with h1 | ⟨h1, h2⟩
      · exact ih n ⟨r, c, h1⟩
      · cases h2
        obtain ⟨c2, h3⟩ := h0.facts.retd _ _ h1
        simp at h3
    | ret hx =>
      rcases sublist_snoc_of_ne hn with h1 | ⟨_, h2⟩
      · exact ih n ⟨r, c, h1⟩
      · cases h2
    | call hx => exact ih n ⟨r, c, by simpa using hn⟩
    | peek hx _ => exact ih n ⟨r, c, by simpa using hn⟩

theorem runs_spec {t t' : Table α} {G : List (Nat × Call α × Reply α)} (h : Runs step t G t') (hi : Inv t) :
    SpecRun t.size (absMap t) (G.map (·.2.1)) (G.map (·.2.2)) (absMap t') := by
  induction h with
  | nil => exact .nil _
  | @cons t _ _ c _ _ ih =>
    obtain ⟨h1, h2, h3⟩ := IdxTable.step_refines t hi c
    have := ih h2
    rw [h3] at this
    exact .cons h1 this

/-- the atomic calls of an execution of the index table: one per call, in an order that respects real time -/
theorem index_order {m₀ : Table α} {g : Cfg (Call α) (Table α) (Reply α)} {H} (h : Exec codeOf m₀ g H) :
    ∃ (G : List (Nat × Call α × Reply α)) (m : Table α), Runs step m₀ G m ∧ (G.map (·.1)).Nodup ∧
      (∀ x ∈ G, Ev.inv x.1 x.2.1 ∈ H) ∧ (∀ n r, Ev.ret n r ∈ H → ∃ c, (n, c, r) ∈ G) ∧
      (∀ a b, Before H a b → b ∈ G.map (·.1) → List.Sublist [a, b] (G.map (·.1))) := by
  obtain ⟨a, G, ha, _⟩ := sim sections (exec_client h)
  have hf := ha.facts
  have hlen : ∀ n, (callsOf G n).length ≤ 1 := by
    intro n
    rcases hcs : callsOf G n with _ | ⟨x, l⟩
    · simp
    · have hx : (n, x) ∈ G := mem_callsOf.1 (by rw [hcs]; simp)
      obtain ⟨c, d, _, hp⟩ := hf.started ha.hasRet hx
      rw [hcs] at hp
      rcases path_call' hp with ⟨h1, _⟩ | ⟨r1, l', h1, h2⟩
      · cases h1
      · rw [h1, (path_ret h2).1]
        simp
  have hmem : ∀ n x, (n, x) ∈ G → Ev.inv n x.1 ∈ H := by
    intro n x hx
    obtain ⟨c, d, hi, hp⟩ := hf.started ha.hasRet hx
    have hx' := mem_callsOf.2 hx
    rcases path_call' hp with ⟨h1, _⟩ | ⟨r1, l', h1, h2⟩
    · rw [h1] at hx'; cases hx'
    · rw [h1, (path_ret h2).1] at hx'
      simp only [List.mem_cons, List.not_mem_nil, or_false] at hx'
      subst hx'
      exact hi
  have hret : ∀ n r, Ev.ret n r ∈ H → ∃ c, (n, c, r) ∈ G := by
    intro n r hr
    obtain ⟨c, hc⟩ := hf.retd n r hr
    obtain ⟨r1, l, hl, h1⟩ := path_call (hf.ret n c r hc hr)
    obtain ⟨_, h2⟩ := path_ret h1
    cases h2
    exact ⟨c, mem_callsOf.1 (by rw [hl]; simp)⟩
  have hnd : (G.map (·.1)).Nodup := by
    clear hmem hret hf ha
    induction G with
    | nil => simp
    | cons e G ih =>
      rw [List.map_cons, List.nodup_cons]
      constructor
      · intro hm
        obtain ⟨e', he', heq⟩ := List.mem_map.1 hm
        have h1 := hlen e.1
        have h2 : (e'.2) ∈ callsOf G e.1 := mem_callsOf.2 (by rw [← heq]; exact he')
        have h3 : callsOf (e :: G) e.1 = e.2 :: callsOf G e.1 := by simp [callsOf]
        rw [h3] at h1
        have h4 := List.length_pos_of_mem h2
        simp only [List.length_cons] at h1
        omega
      · apply ih
        intro n
        have h1 := hlen n
        have h2 : (callsOf G n).length ≤ (callsOf (e :: G) n).length := by
          unfold callsOf
          rw [List.length_map, List.length_map]
          exact ((List.sublist_cons_self e G).filter _).length_le
        omega
  refine ⟨G, a.mem, hf.runs, hnd, ?_, hret, ?_⟩
  · exact fun x hx => hmem x.1 x.2 hx
  · intro i j hb hj
    obtain ⟨y, hy, rfl⟩ := List.mem_map.1 hj
    obtain ⟨r, c, hs⟩ := id hb
    obtain ⟨c', hc'⟩ := hret i r (hs.subset (by simp))
    have hne : (i, c', r) ≠ y := by
      rintro rfl
      exact ha.before_irrefl _ hb
    rcases sublist_pair hc' hy hne with h1 | h1
    · exact h1.map (·.1)
    · exact absurd h1 (hf.order _ _ hb _ _ rfl rfl)

/-- C64: every history of concurrent calls of an index table is linearizable. -/
theorem C64_index_linearizable {size : U64} (hsize : size ≠ 0) {g : Cfg (Call α) (Table α) (Reply α)} {H}
    (h : Exec codeOf (newTable size) g H) : Linearizable size H := by
  obtain ⟨G, m, hr, hnd, hinv, hret, hord⟩ := index_order h
  refine ⟨G, absMap m, hnd, ?_, hinv, hret, hord⟩
  have := runs_spec hr (IdxTable.newTable_inv size hsize)
  have he : absMap (newTable size : Table α) = fun _ => none := by
    funext i; simp [absMap, newTable]
  rw [he] at this
  exact this

theorem runs_run {t t' : Table α} {G : List (Nat × Call α × Reply α)} (h : Runs step t G t') :
    IdxTable.run t (G.map (·.2.1)) = (t', G.map (·.2.2)) := by
  induction h with
  | nil => rfl
  | cons _ ih =>
    simp only [List.map_cons, IdxTable.run]
    rw [ih]

/-- C64 for every size, `NewTable(0)` included: the replies are those of a sequential run of the table. -/
theorem C64_index_sequential {size : U64} {g : Cfg (Call α) (Table α) (Reply α)} {H}
    (h : Exec codeOf (newTable size) g H) : ∃ L : List (Nat × Call α × Reply α), (L.map (·.1)).Nodup ∧
      (IdxTable.run (newTable size) (L.map (·.2.1))).2 = L.map (·.2.2) ∧
      (∀ x ∈ L, Ev.inv x.1 x.2.1 ∈ H) ∧ (∀ n r, Ev.ret n r ∈ H → ∃ c, (n, c, r) ∈ L) ∧
      (∀ a b, Before H a b → b ∈ L.map (·.1) → List.Sublist [a, b] (L.map (·.1))) := by
  obtain ⟨G, m, hr, hnd, hinv, hret, hord⟩ := index_order h
  exact ⟨G, hnd, by rw [runs_run hr], hinv, hret, hord⟩

/-- An execution whose order is not that of the starts: call 1 takes effect before call 0. -/
example : ∃ g, Exec codeOf (newTable 4 : Table String) g
    [.inv 0 (.get 1), .inv 1 (.claim 1 "a"), .ret 1 .ok, .inv 2 (.has 2), .ret 0 (.entry ⟨1, "a"⟩), .ret 2 (.bool false)] :=
  exec_of_follow [.start (.get 1), .start (.claim 1 "a"), .go 1, .go 1, .go 1, .go 1, .go 1, .go 1, .go 1,
    .start (.has 2), .go 2, .go 0, .go 2, .go 0, .go 2, .go 0, .go 0, .go 0, .go 2] rfl

/-! ## C73 -/

/-- C73: in no execution does a goroutine write to the map of an index table while another one
accesses it. -/
theorem C73_index_no_race {size : U64} {g : Cfg (Call α) (Table α) (Reply α)} {H}
    (h : Exec codeOf (newTable size) g H) : ¬ Race g :=
  no_race sections (fun _ => .call trivial fun _ => .ret _) (exec_client h)

/-- a writer is about to write, a reader waits at the door -/
example : ∃ g, Exec codeOf (newTable 4 : Table String) g [.inv 0 (.claim 1 "a"), .inv 1 .getAll] ∧
    ∃ (x : _) (w : _) (k : _), g.th[0]? = some x ∧ x.prog = some (.write w k) ∧ g.Pending 1 := by
  refine ⟨_, exec_of_follow' [.start (.claim 1 "a"), .start .getAll, .go 0, .go 0, .go 0, .go 0] rfl, _, _, _, rfl, rfl, ?_⟩
  exact ⟨_, _, rfl, rfl⟩

end Verif.Conc
