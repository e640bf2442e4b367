import Verif.Conc.TableProps
import Verif.Conc.Rely

/-! C74 and C75 for the IP table, and what is left of C75: `GetByLabel` does not panic without releases. -/

namespace Verif.Conc
open Verif.IdxTable (U64 Table Entry Call Reply newTable Iter)
variable {κ κ₀ σ ρ ρ₀ β γ α : Type}

/-- more ids are claimed -/
def MoreClaimed (t t' : Table α) : Prop := ∀ k, Pres t k → Pres t' k

theorem MoreClaimed.refl (t : Table α) : MoreClaimed t t := fun _ h => h
theorem MoreClaimed.trans {a b c : Table α} (h : MoreClaimed a b) (h' : MoreClaimed b c) : MoreClaimed a c :=
  fun k hk => h' k (h k hk)

theorem more_set (e : Entry α) (t : Table α) : MoreClaimed t { t with m := t.m.set e.id e } := by
  intro k hk
  unfold Pres at *
  simp only [GoMap.get?_set]
  split
  · simp
  · exact hk

theorem grows_addP (e : Entry α) : Grows MoreClaimed (addP e) := by
  refine (rdOnly_validateP _).grows.bind ?_
  rintro (er | u)
  · exact .ret _
  · refine (rdOnly_isFreeP _).grows.bind fun b => ?_
    cases b
    · exact .ret _
    · exact (Grows.put (more_set e)).bind fun _ => .ret _

theorem grows_updateP (e : Entry α) : Grows MoreClaimed (updateP e) := by
  refine (rdOnly_validateP _).grows.bind ?_
  rintro (er | u)
  · exact .ret _
  · refine (rdOnly_isFreeP _).grows.bind fun b => ?_
    cases b
    · exact (Grows.put (more_set e)).bind fun _ => .ret _
    · exact .ret _

theorem grows_addAllP (d : α) : ∀ ids, Grows MoreClaimed (addAllP d ids)
  | [] => .ret _
  | id :: ids => by
    refine (grows_addP _).bind ?_
    rintro (er | u)
    · exact .ret _
    · exact grows_addAllP d ids

theorem grows_addAllEP (d : α) : ∀ ids es, Grows MoreClaimed (addAllEP d ids es)
  | [], _ => .ret _
  | id :: ids, es => by
    refine (grows_addP _).bind ?_
    rintro (er | u)
    · exact .ret _
    · exact grows_addAllEP d ids _

/-- only `Release` makes an id free -/
theorem grows_codeOf (c : Call α) (hc : NoRelease c) : Grows MoreClaimed (codeOf c) := by
  cases c with
  | release i => exact absurd rfl (hc i)
  | get id =>
    refine Grows.bind (Grows.withRLock ?_) fun _ => .ret _
    refine (rdOnly_validateP _).grows.bind ?_
    rintro (er | u)
    · exact .ret _
    · refine (rdOnly_get _).grows.bind ?_
      rintro (_ | e)
      · exact .ret _
      · exact .ret _
  | claim id d => exact (grows_addP _).withLock.bind fun _ => .ret _
  | claimDynamic d =>
    refine Grows.bind (Grows.withLock ?_) fun _ => .ret _
    refine rdOnly_iterateFreeP.grows.bind fun free => ?_
    simp only
    split
    · refine (grows_addP _).bind ?_
      rintro (er | u)
      · exact .ret _
      · exact .ret _
    · exact .ret _
  | claimRange start n d =>
    refine Grows.bind (Grows.withLock ?_) fun _ => .ret _
    refine (rdOnly_findFreeRangeP _ _).grows.bind ?_
    rintro (er | u)
    · exact .ret _
    · exact grows_addAllP _ _
  | claimSize n d =>
    refine Grows.bind (Grows.withLock ?_) fun _ => .ret _
    refine (rdOnly_findFreeSizeP _).grows.bind ?_
    rintro (er | u)
    · exact .ret _
    · exact grows_addAllEP _ _ _
  | update id d => exact (grows_updateP _).withLock.bind fun _ => .ret _
  | iterate => exact rdOnly_iterateP.grows.withRLock.bind fun _ => .ret _
  | iterateFree => exact rdOnly_iterateFreeP.grows.withRLock.bind fun _ => .ret _
  | size => exact (rdOnly_get _).grows.withRLock.bind fun _ => .ret _
  | has id => exact (rdOnly_get _).grows.withRLock.bind fun _ => .ret _
  | isFree id => exact (rdOnly_get _).grows.withRLock.bind fun _ => .ret _
  | findFree =>
    refine Grows.bind (Grows.bind rdOnly_iterateFreeP.grows.withRLock ?_) fun _ => .ret _
    intro free
    simp only
    split <;> exact .ret _
  | findFreeRange start n => exact (rdOnly_findFreeRangeP _ _).grows.withRLock.bind fun _ => .ret _
  | findFreeSize n => exact (rdOnly_findFreeSizeP _).grows.withRLock.bind fun _ => .ret _
  | getAll =>
    refine Grows.bind (Grows.withRLock ?_) fun _ => .ret _
    refine (rdOnly_get _).grows.bind fun _ => ?_
    exact Grows.bind rdOnly_iterateP.grows.withRLock fun _ => (rdOnly_collectP _ _ _).grows

theorem Client.Uses.grows {le : σ → σ → Prop} {meth : κ₀ → Prog σ ρ₀} {S : κ₀ → Prop} {pk : Prop}
    (hS : ∀ c, S c → Grows le (meth c)) {d : Client κ₀ ρ₀ σ ρ} (h : d.Uses S pk) : Grows le (d.compile meth) := by
  induction h with
  | ret r => exact .ret r
  | call h1 _ ih => exact (hS _ h1).bind ih
  | peek _ _ ih => exact .read ih

theorem drainLoop_mem : ∀ (n : Nat) (it : Iter) (acc : List U64) (k : U64), k ∈ it.drainLoop n acc → k ∈ acc ∨ k ∈ it.keys
  | 0, _, _, _, h => .inl h
  | n + 1, it, acc, k, h => by
    unfold Iter.drainLoop at h
    simp only at h
    split at h
    · rcases drainLoop_mem n _ _ k h with h1 | h1
      · rcases List.mem_append.1 h1 with h2 | h2
        · exact .inl h2
        · simp only [List.mem_cons, List.not_mem_nil, or_false] at h2
          subst h2
          refine .inr ?_
          unfold Iter.id
          exact List.getElem_mem _
      · exact .inr h1
    · exact .inl h

/-- the ids that `Iterate` lists stay claimed -/
theorem safe_iterate (m : Table α) : (codeOf Call.iterate).Safe MoreClaimed
    (fun m r => ∃ ks, r = .ids ks ∧ ∀ k ∈ ks, Pres m k) m := by
  intro m' hm m'' hm'
  refine ⟨_, rfl, ?_⟩
  intro k hk
  apply hm'
  rcases drainLoop_mem _ _ _ k hk with h1 | h1
  · cases h1
  · have : k ∈ m'.m.keys := (IdxTable.sortKeys_perm _).mem_iff.1 h1
    intro h0
    exact (GoMap.get?_eq_none_iff _ _).1 h0 this

section Ranged
open Verif.Ranged
variable {P : Width} {L : Type}

theorem safe_rbyLabelC (r : RTable P L) (sel : L → Bool) : ∀ (ks : List U64) (acc : List (TEntry L)) (m : Table (TEntry L)),
    (∀ k ∈ ks, Pres m k) → ((rbyLabelC r sel ks acc).compile codeOf).Safe MoreClaimed (fun _ y => y ≠ .panic) m
  | [], acc, m, _ => by intro _ _; simp
  | k :: ks, acc, m, h => by
    unfold rbyLabelC
    intro m' hm
    have h1 : ∀ k ∈ ks, Pres m' k := fun k hk => hm k (h k (List.mem_cons_of_mem _ hk))
    have h2 : Pres m' k := hm k (h k (List.mem_cons_self ..))
    simp only
    cases hg : m'.m.get? k with
    | none => exact absurd hg h2
    | some e =>
      simp only
      split
      · exact safe_rbyLabelC r sel ks _ m' h1
      · exact safe_rbyLabelC r sel ks _ m' h1

/-- C75 for the ranged tables, part that holds: `GetByLabel` does not panic if no `Release` overlaps with it.
Missing: the other executions, for some of which it is false. -/
theorem C75_ranged_no_panic_partial {start stop : BitVec P.W} {g : Cfg (RCall L) (Table (TEntry L)) (RReply L)} {H}
    (h : Exec (rprog start stop) (new start stop : RTable P L).tab g H) {n : Nat} {sel : L → Bool}
    (hi : Ev.inv n (.getByLabel sel) ∈ H)
    (hno : ∀ m id, Ev.inv m (.release id) ∈ H → Before H m n ∨ Before H n m) : Ev.ret n .panic ∉ H := by
  intro hr
  let bad : RCall L → Prop := fun c => ∃ id, c = .release id
  have hgr : ∀ c, ¬ bad c → Grows MoreClaimed (rprog start stop c) := by
    intro c hc
    refine (uses_rcode (new start stop : RTable P L) c NoRelease True ?_ ?_ ?_ ?_ ?_ ?_ ?_ ?_ ?_ ?_).grows grows_codeOf
    · exact fun _ _ => by simp
    · exact fun _ _ => by simp
    · exact fun _ _ _ => by simp
    · exact fun _ => by simp
    · exact fun _ _ _ => by simp
    · exact fun _ => by simp
    · exact fun _ _ => by simp
    · exact fun h => absurd h hc
    · exact fun _ _ => by simp
    · exact fun _ => ⟨fun _ => by simp, trivial⟩
  have key := (exec_safe (le := MoreClaimed) (bad := bad) MoreClaimed.refl MoreClaimed.trans
    (Q := fun c r => (∃ sel, c = .getByLabel sel) → r ≠ .panic) hgr ?_ h).2 n _ _ hi hr (by rintro ⟨_, h⟩; cases h)
  · rcases key with h1 | ⟨m, c, ⟨id, rfl⟩, hm, h1, h2⟩
    · exact h1 ⟨_, rfl⟩ rfl
    · rcases hno m id hm with h3 | h3
      · exact h1 h3
      · exact h2 h3
  · intro c hc m
    by_cases hs : ∃ sel, c = .getByLabel sel
    · obtain ⟨sel, rfl⟩ := hs
      refine Safe.weaken (Q := fun _ (y : RReply L) => y ≠ .panic) (fun _ _ h _ => h) ?_
      show (((codeOf Call.size).bind fun _ => (codeOf Call.iterate).bind _).Safe _ _ m)
      refine Safe.bind MoreClaimed.refl (Q := fun _ _ => True) ?_ ((grows_codeOf _ (fun _ => by simp)).safe m)
      intro m _ _
      refine Safe.bind MoreClaimed.refl ?_ (safe_iterate m)
      rintro m _ ⟨ks, rfl, hk⟩
      exact safe_rbyLabelC _ sel ks [] m hk
    · exact Safe.weaken (fun _ _ _ h => absurd h hs) ((hgr c hc).safe m)

/-- an execution that meets the hypotheses: `GetByLabel` overlaps with a claim, and lists it -/
example : ∃ g, Exec (rprog (P := w16) 10 20) exR.tab g
    [.inv 0 (.getByLabel fun _ => true), .inv 1 (.claim 12 "a"), .ret 1 .ok, .ret 0 (.entries [⟨12, 32, "a"⟩])] :=
  ⟨_, follow_sound (l := [.go 0, .go 0]) ex_byLabel rfl⟩

end Ranged

section IP
open Verif.IPTable
variable {R : Type} {parse : String → Option Addr}

theorem safe_ibyLabelC (sel : R → Bool) : ∀ (ks : List U64) (acc : List R) (m : Table R),
    (∀ k ∈ ks, Pres m k) → ((ibyLabelC sel ks acc).compile codeOf).Safe MoreClaimed (fun _ y => y ≠ .panic) m
  | [], acc, m, _ => by intro _ _; simp
  | k :: ks, acc, m, h => by
    unfold ibyLabelC
    intro m' hm
    have h1 : ∀ k ∈ ks, Pres m' k := fun k hk => hm k (h k (List.mem_cons_of_mem _ hk))
    have h2 : Pres m' k := hm k (h k (List.mem_cons_self ..))
    simp only
    cases hg : m'.m.get? k with
    | none => exact absurd hg h2
    | some e =>
      simp only
      split
      · intro m'' hm'
        simp only
        cases hg' : m''.m.get? k with
        | none => exact absurd hg' (hm' k h2)
        | some e' => exact safe_ibyLabelC sel ks _ m'' (fun k hk => hm' k (h1 k hk))
      · exact safe_ibyLabelC sel ks _ m' h1

/-- C75 for the IP table, part that holds, as for the ranged tables. -/
theorem C75_ip_no_panic_partial {lo hi : Addr} {g : Cfg (ICall R) (Table R) (IReply R)}
    {H} (h : Exec (iprog parse lo hi) (new lo hi : IPTab R).tab g H) {n : Nat} {sel : R → Bool}
    (hin : Ev.inv n (.getByLabel sel) ∈ H)
    (hno : ∀ m x, Ev.inv m (.release x) ∈ H → Before H m n ∨ Before H n m) : Ev.ret n .panic ∉ H := by
  intro hr
  let bad : ICall R → Prop := fun c => ∃ id, c = .release id
  have hgr : ∀ c, ¬ bad c → Grows MoreClaimed (iprog parse lo hi c) := by
    intro c hc
    refine (uses_icode (new lo hi : IPTab R) c NoRelease True ?_ ?_ ?_ ?_ ?_ ?_ ?_ ?_ ?_ ?_).grows grows_codeOf
    · exact fun _ _ => by simp
    · exact fun _ _ => by simp
    · exact fun _ _ _ => by simp
    · exact fun _ => by simp
    · exact fun _ _ _ => by simp
    · exact fun _ => by simp
    · exact fun _ _ => by simp
    · exact fun h => absurd h hc
    · exact fun _ _ => by simp
    · exact fun _ => ⟨fun _ => by simp, trivial⟩
  have key := (exec_safe (le := MoreClaimed) (bad := bad) MoreClaimed.refl MoreClaimed.trans
    (Q := fun c r => (∃ sel, c = .getByLabel sel) → r ≠ .panic) hgr ?_ h).2 n _ _ hin hr (by rintro ⟨_, h⟩; cases h)
  · rcases key with h1 | ⟨m, c, ⟨id, rfl⟩, hm, h1, h2⟩
    · exact h1 ⟨_, rfl⟩ rfl
    · rcases hno m id hm with h3 | h3
      · exact h1 h3
      · exact h2 h3
  · intro c hc m
    by_cases hs : ∃ sel, c = .getByLabel sel
    · obtain ⟨sel, rfl⟩ := hs
      refine Safe.weaken (Q := fun _ (y : IReply R) => y ≠ .panic) (fun _ _ h _ => h) ?_
      show (((codeOf Call.iterate).bind _).Safe _ _ m)
      refine Safe.bind MoreClaimed.refl ?_ (safe_iterate m)
      rintro m _ ⟨ks, rfl, hk⟩
      exact safe_ibyLabelC sel ks [] m hk
    · exact Safe.weaken (fun _ _ _ h => absurd h hs) ((hgr c hc).safe m)

/-- C74 for the IP table, part that holds: without `GetByLabel` there is no data race. Missing: executions
with `GetByLabel`, where it is false. -/
theorem C74_ip_no_race_partial {lo hi : Addr} {g : Cfg (ICall R) (Table R) (IReply R)} {H}
    (h : Exec (iprog parse lo hi) (new lo hi : IPTab R).tab g H)
    (hno : ∀ n sel, Ev.inv n (.getByLabel sel) ∉ H) : ¬ Race g := by
  let code : ICall R → IClient R := fun
    | .getByLabel _ => .ret .err
    | c => icode parse (new lo hi : IPTab R) c
  have h1 : Exec (fun c => (code c).compile codeOf) (new lo hi : IPTab R).tab g H := by
    refine h.congr ?_
    intro n c hc
    cases c with
    | getByLabel sel => exact absurd hc (hno n sel)
    | _ => rfl
  refine no_race sections ?_ h1
  intro c
  cases c with
  | getByLabel sel => exact .ret _
  | _ => exact uses_icode _ _ _ _ (by simp) (by simp) (by simp) (by simp) (by simp) (by simp) (by simp) (by simp)
          (by simp) (by simp)

/-- two claims of the same address overlap -/
example : ∃ g H, Exec (iprog exParse (.v4 0x0a000000) (.v4 0x0a000003)) (new (.v4 0x0a000000) (.v4 0x0a000003) : IPTab String).tab g H ∧
    (∀ n sel, Ev.inv n (.getByLabel sel) ∉ H) ∧ g.Pending 0 ∧ g.Pending 1 := by
  have h := ((Exec.init (code := iprog exParse (.v4 0x0a000000) (.v4 0x0a000003))
    (m₀ := (new (.v4 0x0a000000) (.v4 0x0a000003) : IPTab String).tab)).step
    (.inv (.claim "10.0.0.1" "a"))).step (.inv (.claim "10.0.0.1" "b"))
  exact ⟨_, _, h, by simp, ⟨_, _, rfl, rfl⟩, ⟨_, _, rfl, rfl⟩⟩

/-- the index table of the examples with one entry -/
def exITab : Table String := (IdxTable.step (newTable 4) (.claim 1 "a")).1

theorem exITab_iterate : IdxTable.step exITab .iterate = (exITab, .ids [1]) := by
  show (exITab, Reply.ids (IdxTable.Iter.drain ⟨-1, IdxTable.sortKeys [1#64]⟩)) = _
  rw [IdxTable.sortKeys_of_sorted _ (by simp)]
  rfl

/-- a table of the addresses from 10.0.0.0 to 10.0.0.3 -/
abbrev exI : IPTab String := new (.v4 0x0a000000) (.v4 0x0a000003)

/-- `GetByLabel` has its iterator, and reads the entries next -/
theorem ex_ibyLabel : Exec (iprog exParse (.v4 0x0a000000) (.v4 0x0a000003)) exI.tab
    (quiet codeOf ⟨exITab, [(.getByLabel (fun _ => true), some (ibyLabelC (fun _ => true) [1] [])),
      (.claim "10.0.0.1" "a", none)]⟩) [.inv 0 (.getByLabel fun _ => true), .inv 1 (.claim "10.0.0.1" "a"), .ret 1 .ok] := by
  have h0 : AExec (icode exParse exI) IdxTable.step Eq exI.tab ⟨exI.tab, []⟩ [] [] := .init
  have h1 := (h0.doInv (.getByLabel fun _ => true)).doInv (.claim "10.0.0.1" "a")
  have h2 := ((h1.doCall 1 rfl rfl).doCall 1 rfl rfl).doRet 1 rfl
  have h3 := h2.doCall 0 rfl exITab_iterate
  exact realize sections h3

/-- C74 fails for the IP table: `GetByLabel` reads the map while `Release` writes to it. -/
theorem C74_ip_race_violated : ∃ g H, Exec (iprog exParse (.v4 0x0a000000) (.v4 0x0a000003)) exI.tab g H ∧ Race g := by
  have h := ex_ibyLabel
  refine ⟨_, _, follow_sound (l := [.start (.release "10.0.0.1"), .go 2, .go 2, .go 2]) h rfl, 2, 0, _, _, by decide,
    rfl, rfl, ⟨_, _, rfl⟩, .inl ⟨_, rfl⟩⟩

/-- C75 fails for the IP table: an entry is released after `GetByLabel` has listed the ids; its value is nil. -/
theorem C75_ip_panic_violated : ∃ g, Exec (iprog exParse (.v4 0x0a000000) (.v4 0x0a000003)) exI.tab g
    [.inv 0 (.getByLabel fun _ => true), .inv 1 (.claim "10.0.0.1" "a"), .ret 1 .ok,
      .inv 2 (.release "10.0.0.1"), .ret 2 .ok, .ret 0 .panic] := by
  have h := ex_ibyLabel
  exact ⟨_, follow_sound (l := [.start (.release "10.0.0.1"), .go 2, .go 2, .go 2, .go 2, .go 2, .go 2, .go 0, .go 0]) h rfl⟩

/-- an execution that meets the hypotheses of `C75_ip_no_panic_partial` -/
example : ∃ g, Exec (iprog exParse (.v4 0x0a000000) (.v4 0x0a000003)) exI.tab g
    [.inv 0 (.getByLabel fun _ => true), .inv 1 (.claim "10.0.0.1" "a"), .ret 1 .ok, .ret 0 (.routes ["a"])] :=
  ⟨_, follow_sound (l := [.go 0, .go 0, .go 0]) ex_ibyLabel rfl⟩

end IP
end Verif.Conc
