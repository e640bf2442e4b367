import Verif.Conc.Props
import Verif.Conc.Points
import Verif.Ranged.Props
import Verif.IPTable.Props

/-!
What concurrency does to the ranged tables and the IP table, which have no lock of their own:
C74, C75, C76.
-/

namespace Verif.Conc
open Verif.IdxTable (U64 Table Entry Call Reply newTable)
variable {κ κ₀ σ ρ ρ₀ β α : Type}

section
variable {code : κ → Client κ₀ ρ₀ σ ρ} {sem : σ → κ₀ → σ × ρ₀} {see : σ → σ → Prop} {m₀ m m' : σ}
  {th : List (κ × Option (Client κ₀ ρ₀ σ ρ))} {G : List (Nat × κ₀ × ρ₀)} {H : List (Ev κ ρ)}

theorem AExec.doInv (h : AExec code sem see m₀ ⟨m, th⟩ G H) (c : κ) :
    AExec code sem see m₀ ⟨m, th ++ [(c, some (code c))]⟩ G (H ++ [.inv th.length c]) := by
  have := h.step (.inv c)
  simpa using this

theorem AExec.doCall (h : AExec code sem see m₀ ⟨m, th⟩ G H) (n : Nat) {c : κ} {x : κ₀}
    {k : ρ₀ → Client κ₀ ρ₀ σ ρ} {r : ρ₀} (hn : th[n]? = some (c, some (.call x k))) (hs : sem m x = (m', r)) :
    AExec code sem see m₀ ⟨m', th.set n (c, some (k r))⟩ (G ++ [(n, x, r)]) H := by
  have := h.step (.call hn)
  rw [hs] at this
  simpa using this

theorem AExec.doRet (h : AExec code sem see m₀ ⟨m, th⟩ G H) (n : Nat) {c : κ} {r : ρ}
    (hn : th[n]? = some (c, some (.ret r))) :
    AExec code sem see m₀ ⟨m, th.set n (c, none)⟩ G (H ++ [.ret n r]) := by
  have := h.step (.ret hn)
  simpa using this

end

/-! ## C74 -/

section Ranged
open Verif.Ranged
variable {P : Width} {L : Type}

/-- C74 for the ranged tables, part that holds: without `GetByLabel` there is no data race. Missing:
executions with `GetByLabel`, where it is false. -/
theorem C74_ranged_no_race_partial {start stop : BitVec P.W} {g : Cfg (RCall L) (Table (TEntry L)) (RReply L)} {H}
    (h : Exec (rprog start stop) (new start stop : RTable P L).tab g H)
    (hno : ∀ n sel, Ev.inv n (.getByLabel sel) ∉ H) : ¬ Race g := by
  let code : RCall L → RClient L := fun
    | .getByLabel _ => .ret .err
    | c => rcode (new start stop : RTable P L) c
  have h1 : Exec (fun c => (code c).compile codeOf) (new start stop : RTable P L).tab g H := by
    refine h.congr ?_
    intro n c hc
    cases c with
    | getByLabel sel => exact absurd hc (hno n sel)
    | _ => rfl
  refine no_race sections ?_ h1
  intro c
  cases c with
  | getByLabel sel => exact .ret _
  | _ => exact uses_rcode _ _ _ _ (by simp) (by simp) (by simp) (by simp) (by simp) (by simp) (by simp) (by simp)
          (by simp) (by simp)

/-- two claims of the same id overlap -/
example : ∃ g H, Exec (rprog (P := w16) 10 20) (new (P := w16) 10 20 : RTable w16 String).tab g H ∧
    (∀ n sel, Ev.inv n (.getByLabel sel) ∉ H) ∧ g.Pending 0 ∧ g.Pending 1 := by
  have h := ((Exec.init (code := rprog (P := w16) 10 20) (m₀ := (new (P := w16) 10 20 : RTable w16 String).tab)).step
    (.inv (.claim 12 "a"))).step (.inv (.claim 12 "b"))
  exact ⟨_, _, h, by simp, ⟨_, _, rfl, rfl⟩, ⟨_, _, rfl, rfl⟩⟩

/-- the index table of the examples with one entry -/
def exTab : Table (TEntry String) := (IdxTable.step (newTable 11) (.claim 2 ⟨2, 16, "a"⟩)).1

theorem exTab_iterate : IdxTable.step exTab .iterate = (exTab, .ids [2]) := by
  show (exTab, Reply.ids (IdxTable.Iter.drain ⟨-1, IdxTable.sortKeys [2#64]⟩)) = _
  rw [IdxTable.sortKeys_of_sorted _ (by simp)]
  rfl

/-- a table of the ids from 10 to 20 -/
abbrev exR : RTable w16 String := new (P := w16) 10 20

/-- `GetByLabel` has its iterator, and reads the entries next -/
theorem ex_byLabel : Exec (rprog (P := w16) 10 20) exR.tab
    (quiet codeOf ⟨exTab, [(.getByLabel (fun _ => true), some (rbyLabelC exR (fun _ => true) [2] [])),
      (.claim 12 "a", none)]⟩) [.inv 0 (.getByLabel fun _ => true), .inv 1 (.claim 12 "a"), .ret 1 .ok] := by
  have h0 : AExec (rcode exR) IdxTable.step Eq exR.tab ⟨exR.tab, []⟩ [] [] := .init
  have h1 := ((h0.doInv (.getByLabel fun _ => true)).doCall 0 rfl rfl).doInv (.claim 12 "a")
  have h2 := ((h1.doCall 1 rfl rfl).doCall 1 rfl rfl).doRet 1 rfl
  have h3 := h2.doCall 0 rfl exTab_iterate
  exact realize sections h3

/-- C74 fails for the ranged tables: `GetByLabel` reads the map while `Release` writes to it. -/
theorem C74_ranged_race_violated : ∃ g H, Exec (rprog (P := w16) 10 20) exR.tab g H ∧ Race g := by
  have h := ex_byLabel
  refine ⟨_, _, follow_sound (l := [.start (.release 12), .go 2, .go 2, .go 2]) h rfl, 2, 0, _, _, by decide,
    rfl, rfl, ⟨_, _, rfl⟩, .inl ⟨_, rfl⟩⟩

/-! ## C75 -/

/-- C75 fails for the ranged tables: an entry is released after `GetByLabel` has listed the ids; its value
is nil. -/
theorem C75_ranged_panic_violated : ∃ g, Exec (rprog (P := w16) 10 20) exR.tab g
    [.inv 0 (.getByLabel fun _ => true), .inv 1 (.claim 12 "a"), .ret 1 .ok,
      .inv 2 (.release 12), .ret 2 .ok, .ret 0 .panic] := by
  have h := ex_byLabel
  exact ⟨_, follow_sound (l := [.start (.release 12), .go 2, .go 2, .go 2, .go 2, .go 2, .go 2, .go 0, .go 0]) h rfl⟩

/-! ## C76 -/

theorem exR_findFree : IdxTable.step exR.tab .findFree = (exR.tab, .id 0) := by
  have : IdxTable.findFree exR.tab = .ok 0 := by
    unfold IdxTable.findFree
    simp only [IdxTable.iterateFree_at]
    rfl
  simp only [IdxTable.step, this]
  rfl

/-- C76 fails for the ranged tables: between `FindFree` and `Claim` another goroutine takes the id; ten
others are free all the time. -/
theorem C76_claimFree_fails_violated : ∃ g, Exec (rprog (P := w16) 10 20) exR.tab g
    [.inv 0 (.claimFree "a"), .inv 1 (.claim 10 "b"), .ret 1 .ok, .ret 0 .err] := by
  have h0 : AExec (rcode exR) IdxTable.step Eq exR.tab ⟨exR.tab, []⟩ [] [] := .init
  have h1 := ((h0.doInv (.claimFree "a")).doCall 0 rfl exR_findFree).doInv (.claim 10 "b")
  have h2 := ((h1.doCall 1 rfl rfl).doCall 1 rfl rfl).doRet 1 rfl
  have h3 := (h2.doCall 0 rfl rfl).doRet 0 rfl
  exact ⟨_, realize sections h3⟩

theorem runs_inv {t t' : Table α} {G : List (Nat × Call α × Reply α)} (h : Runs IdxTable.step t G t')
    (hi : IdxTable.Inv t) : IdxTable.Inv t' ∧ t'.size = t.size := by
  induction h with
  | nil => exact ⟨hi, rfl⟩
  | @cons t _ _ c _ _ ih =>
    obtain ⟨_, h2, h3⟩ := IdxTable.step_refines t hi c
    exact ⟨(ih h2).1, (ih h2).2.trans h3⟩

theorem runs_det {sem : σ → κ₀ → σ × ρ₀} {m m₁ m₂ : σ} {G : List (Nat × κ₀ × ρ₀)} (h : Runs sem m G m₁)
    (h' : Runs sem m G m₂) : m₁ = m₂ := by
  induction h with
  | nil => cases h'; rfl
  | cons _ ih =>
    cases h' with
    | cons h' => exact ih h'

theorem sublist_split {A : Type} {x y : A} {l : List A} (h : [x, y].Sublist l) :
    ∃ B C D, l = B ++ x :: (C ++ y :: D) := by
  obtain ⟨B, l', rfl, h2⟩ : ∃ B l', l = B ++ x :: l' ∧ y ∈ l' := by
    induction l with
    | nil => cases h
    | cons z l ih =>
      cases h with
      | cons _ h =>
        obtain ⟨B, l', rfl, h2⟩ := ih h
        exact ⟨z :: B, l', rfl, h2⟩
      | cons_cons _ h => exact ⟨[], l, rfl, List.singleton_sublist.1 h⟩
  obtain ⟨C, D, rfl⟩ := List.append_of_mem h2
  exact ⟨B, C, D, rfl⟩

theorem callsOf_sublist (G : List (Nat × κ₀ × ρ₀)) (n : Nat) :
    ((callsOf G n).map fun x => (n, x)).Sublist G := by
  have : (callsOf G n).map (fun x => (n, x)) = G.filter fun e => e.1 == n := by
    unfold callsOf
    rw [List.map_map]
    conv => rhs; rw [← List.map_id (G.filter fun e => e.1 == n)]
    apply List.map_congr_left
    intro e he
    have := (List.mem_filter.1 he).2
    have h1 : e.1 = n := by simpa using this
    show (n, e.2) = e
    rw [← h1]
  rw [this]
  exact List.filter_sublist

/-- the way a ranged `Claim` fails -/
theorem path_rclaimC_false {r : RTable P L} {id : U64} {l : L} {f : Bool → RReply L} (hf : f true ≠ .err)
    {G : List (Call (TEntry L) × Reply (TEntry L))} (hv : validateID r id = .ok ())
    (h : (rclaimC r id l fun b => .ret (f b)).Path G (.ret .err)) :
    (∃ y, y ≠ .bool true ∧ G = [(.isFree (calculateIndex (id.setWidth P.W) r.start), y)]) ∨
    ∃ e y, y ≠ .ok ∧ G = [(.isFree (calculateIndex (id.setWidth P.W) r.start), .bool true),
      (.claim (calculateIndex (id.setWidth P.W) r.start) e, y)] := by
  unfold rclaimC at h
  rw [hv] at h
  obtain ⟨r1, G1, rfl, h1⟩ := path_call h
  split at h1
  · obtain ⟨r2, G2, rfl, h2⟩ := path_call h1
    split at h2
    · have := (path_ret h2).2
      injection this with this
      exact absurd this.symm hf
    · rename_i hne
      rw [(path_ret h2).1]
      exact .inr ⟨_, _, hne, rfl⟩
  · rename_i hne
    rw [(path_ret h1).1]
    exact .inl ⟨_, hne, rfl⟩

/-- a call of a ranged table that makes an atomic claim -/
theorem path_rclaims_inv {r : RTable P L} {c : RCall L} {G : List (Call (TEntry L) × Reply (TEntry L))} {d : RClient L}
    (h : (rcode r c).Path G d) {i : U64} {e : TEntry L} (hx : (Call.claim i e, Reply.ok) ∈ G) :
    (∃ id l, c = .claim id l ∧ ∀ y, d = .ret y → y = .ok) ∨
    ∃ l, c = .claimFree l ∧ ∀ y, d = .ret y → ∃ e, y = .entry e := by
  have key : ∀ {id l} {k : Bool → RClient L} {G d}, (rclaimC r id l k).Path G d → (Call.claim i e, Reply.ok) ∈ G →
      (∀ b, ∃ y, k b = .ret y) → d = k true := by
    intro id l k G d h hx hk
    unfold rclaimC at h
    split at h
    · obtain ⟨y, hy⟩ := hk false
      rw [hy] at h
      rw [(path_ret h).1] at hx
      cases hx
    · rcases path_call' h with ⟨rfl, _⟩ | ⟨r1, G1, rfl, h1⟩
      · cases hx
      · split at h1
        · rcases path_call' h1 with ⟨rfl, _⟩ | ⟨r2, G2, rfl, h2⟩
          · simp at hx
          · split at h2
            · obtain ⟨y, hy⟩ := hk true
              rw [hy] at h2 ⊢
              exact (path_ret h2).2
            · rename_i hne
              obtain ⟨y, hy⟩ := hk false
              rw [hy] at h2
              rw [(path_ret h2).1] at hx
              simp only [List.mem_cons, List.not_mem_nil, or_false, Prod.mk.injEq, reduceCtorEq, false_and, false_or] at hx
              exact absurd hx.2.symm hne
        · obtain ⟨y, hy⟩ := hk false
          rw [hy] at h1
          rw [(path_ret h1).1] at hx
          simp at hx
  by_cases hc : (∃ id l, c = .claim id l) ∨ ∃ l, c = .claimFree l
  · rcases hc with ⟨id, l, rfl⟩ | ⟨l, rfl⟩
    · refine .inl ⟨id, l, rfl, ?_⟩
      simp only [rcode] at h
      have := key h hx (fun b => ⟨_, rfl⟩)
      intro y hy
      rw [this] at hy
      cases hy
      rfl
    · refine .inr ⟨l, rfl, ?_⟩
      simp only [rcode, rfindFreeC] at h
      rcases path_call' h with ⟨rfl, _⟩ | ⟨r1, G1, rfl, h1⟩
      · cases hx
      · have hx' : (Call.claim i e, Reply.ok) ∈ G1 := by simpa using hx
        split at h1
        · have := key h1 hx' (fun b => ⟨_, rfl⟩)
          intro y hy
          rw [this] at hy
          cases hy
          exact ⟨_, rfl⟩
        · rw [(path_ret h1).1] at hx'
          cases hx'
  · have hu : (rcode r c).Uses (fun x => ∀ i e, x ≠ .claim i e) True := by
      cases c with
      | claim id l => exact absurd (.inl ⟨id, l, rfl⟩) hc
      | claimFree l => exact absurd (.inr ⟨l, rfl⟩) hc
      | get id =>
        simp only [rcode]
        split
        · exact .ret _
        · refine .call (by simp) fun r => ?_
          split <;> exact .ret _
      | release id =>
        simp only [rcode]
        split
        · exact .ret _
        · refine .call (by simp) fun r => ?_
          split <;> exact .ret _
      | update id l =>
        simp only [rcode]
        split
        · exact .ret _
        · refine .call (by simp) fun r => ?_
          split <;> exact .ret _
      | size =>
        refine .call (by simp) fun r => ?_
        split <;> exact .ret _
      | has id =>
        simp only [rcode]
        split
        · exact .ret _
        · refine .call (by simp) fun r => ?_
          split <;> exact .ret _
      | isFree id =>
        simp only [rcode]
        split
        · exact .ret _
        · refine .call (by simp) fun r => ?_
          split <;> exact .ret _
      | findFree =>
        simp only [rcode]
        refine uses_rfindFreeC r (by simp) ?_
        rintro (_ | id)
        · exact .ret _
        · exact .ret _
      | getAll =>
        refine .call (by simp) fun _ => .call (by simp) fun r => ?_
        split <;> exact .ret _
      | getByLabel sel =>
        refine .call (by simp) fun _ => .call (by simp) fun r => ?_
        split
        · exact uses_rbyLabelC _ sel trivial _ _
        · exact .ret _
    exact absurd rfl (Client.Uses.path h hu _ hx i e)

/-- C76, part that holds: if `ClaimFree` fails, then at some moment of the call there was no free id at
all, or another call that claims was running at the same time (and has succeeded, if it has
returned). Missing: in the second case it may fail although ids are free. -/
theorem C76_claimFree_partial (hP : IsPkg P) {start stop : BitVec P.W} (hp : Proper start stop)
    {g : Cfg (RCall L) (Table (TEntry L)) (RReply L)} {H}
    (h : Exec (rprog start stop) (new start stop : RTable P L).tab g H) {n : Nat} {l : L}
    (hi : Ev.inv n (.claimFree l) ∈ H) (hr : Ev.ret n .err ∈ H) :
    (∃ g₁ H₁ H₂, Exec (rprog start stop) (new start stop : RTable P L).tab g₁ H₁ ∧ H = H₁ ++ H₂ ∧ g₁.Pending n ∧
      ∀ id, isFree (⟨g₁.mem, start, stop⟩ : RTable P L) id = false) ∨
    ∃ n' c', n' ≠ n ∧ Ev.inv n' c' ∈ H ∧ ¬ Before H n' n ∧ ¬ Before H n n' ∧
      ((∃ id l', c' = .claim id l' ∧ ∀ r, Ev.ret n' r ∈ H → r = .ok) ∨
       ∃ l', c' = .claimFree l' ∧ ∀ r, Ev.ret n' r ∈ H → ∃ e, r = .entry e) := by
  have hg := hP.good
  obtain ⟨a, G, ha, _, hat⟩ := sim_at sections h
  have hf := ha.facts
  have hsize : (new start stop : RTable P L).tab.size.toNat = stop.toNat - start.toNat + 1 :=
    (new_inv hg start stop (BitVec.le_def.2 hp.1)).size_eq hp.2
  have hinv : IdxTable.Inv (new start stop : RTable P L).tab :=
    IdxTable.newTable_inv _ (fun h0 => by
      have h1 : (new start stop : RTable P L).tab.size = 0 := h0
      rw [h1] at hsize
      simp at hsize)
  have hpath := hf.returned hi hr
  simp only [rcode, rfindFreeC] at hpath
  obtain ⟨r1, l1, hl1, h1⟩ := path_call hpath
  -- the moment of FindFree
  have hsub := callsOf_sublist G n
  rw [hl1] at hsub
  obtain ⟨G₁, G₂, hG⟩ : ∃ G₁ G₂, G = G₁ ++ (n, Call.findFree, r1) :: G₂ :=
    List.append_of_mem (hsub.subset (by simp))
  obtain ⟨g₁, H₁, H₂, he₁, hH₁, hpend, hruns₁⟩ := hat _ _ _ hG
  obtain ⟨hinv₁, hsz₁⟩ := runs_inv hruns₁ hinv
  have hr1 : r1 = (IdxTable.step g₁.mem .findFree).2 := by
    have := hf.runs
    rw [hG] at this
    obtain ⟨m', h2, h3⟩ := Runs.split _ this
    rw [runs_det h2 hruns₁] at h3
    cases h3
    rfl
  have hspec := (IdxTable.step_refines g₁.mem hinv₁ .findFree).1
  rw [← hr1] at hspec
  obtain ⟨_, hspec⟩ := hspec
  rcases hspec with ⟨i, hli, rfl⟩ | ⟨hnone, rfl⟩
  · -- an index was free: somebody else has taken it
    right
    have hi1 : i.toNat ≤ stop.toNat - start.toNat := by
      have := hli.1.1
      rw [hsz₁, BitVec.lt_def, hsize] at this
      omega
    have hfree : ¬ Pres g₁.mem i := by
      have := hli.1.2
      rw [IdxTable.absMap_eq_none] at this
      exact fun hh => hh this
    have hlt : i < g₁.mem.size := hli.1.1
    simp only at h1
    have hv : validateID (new start stop : RTable P L) ((calculateIDFromIndex start i).setWidth 64) = .ok () :=
      (validateID_iff hg _ _).2 (ext_in (r := (new start stop : RTable P L)) hg hp.1 hi1)
    have hidx : calculateIndex (((calculateIDFromIndex start i).setWidth 64).setWidth P.W) start = i :=
      idx_ext (r := (new start stop : RTable P L)) hg hp.1 hi1
    -- the call that notices
    have hlast : ∃ x y, (x, y) ∈ l1 ∧ (∀ m : Table (TEntry L), m.size = g₁.mem.size → IdxTable.Inv m →
          y = (IdxTable.step m x).2 → Pres m i) ∧
        ∀ e, (Call.claim i e, Reply.ok) ∉ ((Call.findFree, Reply.id i) :: l1) := by
      have hpf := path_rclaimC_false (f := fun b => if b then .entry (storedEntry P ((calculateIDFromIndex start i).setWidth 64) l) else .err)
        (by simp) hv h1
      rw [show (new start stop : RTable P L).start = start from rfl, hidx] at hpf
      rcases hpf with ⟨y, hy, rfl⟩ | ⟨e, y, hy, rfl⟩
      · refine ⟨_, _, List.mem_cons_self .., ?_, by simp⟩
        intro m _ _ hyy hpres
        apply hy
        rw [hyy]
        simp [IdxTable.step, IdxTable.isFree, IdxTable.isFreeB, hpres]
      · refine ⟨_, _, List.mem_cons_of_mem _ (List.mem_cons_self ..), ?_, ?_⟩
        · intro m hm him hyy hpres
          apply hy
          rw [hyy]
          have := IdxTable.add_free m ⟨i, e⟩ (by rw [hm]; exact hlt) hpres
          simp [IdxTable.step, IdxTable.claim, this, IdxTable.replyUnit]
        · intro e'
          simp only [List.mem_cons, Prod.mk.injEq, reduceCtorEq, false_and, List.not_mem_nil, or_false, false_or]
          rintro ⟨_, h5⟩
          exact hy h5.symm
    obtain ⟨x, y, hxy, hpres, hnoclaim⟩ := hlast
    have hsub2 : [(n, Call.findFree, Reply.id i), (n, x, y)].Sublist G := by
      refine List.Sublist.trans ?_ hsub
      rw [List.map_cons]
      refine List.Sublist.cons_cons _ ?_
      rw [List.singleton_sublist]
      exact List.mem_map.2 ⟨_, hxy, rfl⟩
    obtain ⟨A, B, C, hABC⟩ := sublist_split hsub2
    have hruns := hf.runs
    rw [hABC] at hruns
    obtain ⟨mA, hA, hA'⟩ := Runs.split _ hruns
    obtain ⟨hinvA, hszA⟩ := runs_inv hA hinv
    have hfreeA : ¬ Pres mA i ∧ ∃ mB, Runs IdxTable.step mA B mB ∧ y = (IdxTable.step mB x).2 := by
      have hsp := (IdxTable.step_refines mA hinvA .findFree).1
      generalize hr' : (IdxTable.step mA .findFree).2 = r' at hsp
      generalize hc' : (Call.findFree, Reply.id i) = p at hA'
      cases hA' with
      | @cons _ _ _ c _ hA' =>
        obtain ⟨rfl, hp2⟩ := Prod.mk.inj hc'
        obtain ⟨mB, hB, hB'⟩ := Runs.split _ hA'
        refine ⟨?_, mB, hB, ?_⟩
        · obtain ⟨_, hsp⟩ := hsp
          rcases hsp with ⟨j, hlj, rfl⟩ | ⟨_, rfl⟩
          · rw [hr'] at hp2
            cases hp2
            have := hlj.1.2
            rw [IdxTable.absMap_eq_none] at this
            exact fun hh => hh this
          · rw [hr'] at hp2
            cases hp2
        · generalize hc2 : (x, y) = q at hB'
          cases hB' with
          | cons _ => cases hc2; rfl
    obtain ⟨hfA, mB, hB, hy⟩ := hfreeA
    obtain ⟨hinvB, hszB⟩ := runs_inv hB hinvA
    have hpB := hpres mB (by rw [hszB, hszA, hsz₁]) hinvB hy
    have hinB : ∀ e ∈ B, e ∈ G := by
      intro e he
      rw [hABC]
      simp [he]
    obtain ⟨e, heB, d, hed⟩ := runs_claimed hB (by
      intro e he
      obtain ⟨c, dd, _, hpth⟩ := hf.started ha.hasRet (hinB e he)
      have hu : (rcode (new start stop : RTable P L) c).Uses (fun x => (∀ d, x ≠ .claimDynamic d) ∧
          (∀ s n d, x ≠ .claimRange s n d) ∧ (∀ n d, x ≠ .claimSize n d)) True :=
        uses_rcode _ _ _ _ (by simp) (by simp) (by simp) (by simp) (by simp) (by simp) (by simp) (by simp)
          (by simp) (by simp)
      exact Client.Uses.path hpth hu _ (mem_callsOf.2 (hinB e he))) hfA hpB
    obtain ⟨n', ex⟩ := e
    simp only at hed
    subst hed
    have heG := hinB _ heB
    obtain ⟨c', d', hinv', hp'⟩ := hf.started ha.hasRet heG
    have hs1 : [(n, Call.findFree, Reply.id i), (n', Call.claim i d, Reply.ok)].Sublist G := by
      rw [hABC]
      refine List.Sublist.trans ?_ (List.sublist_append_right _ _)
      refine List.Sublist.cons_cons _ ?_
      rw [List.singleton_sublist]
      exact List.mem_append_left _ heB
    have hs2 : [(n', Call.claim i d, Reply.ok), (n, x, y)].Sublist G := by
      rw [hABC]
      refine List.Sublist.trans ?_ (List.sublist_append_right _ _)
      refine List.Sublist.cons _ ?_
      obtain ⟨B1, B2, rfl⟩ := List.append_of_mem heB
      rw [List.append_assoc]
      refine List.Sublist.trans ?_ (List.sublist_append_right _ _)
      refine List.Sublist.cons_cons _ ?_
      rw [List.singleton_sublist]
      simp
    refine ⟨n', c', ?_, hinv', ?_, ?_, ?_⟩
    · rintro rfl
      have := mem_callsOf.2 heG
      rw [hl1] at this
      exact hnoclaim _ this
    · exact fun hb => hf.order _ _ hb _ _ rfl rfl hs1
    · exact fun hb => hf.order _ _ hb _ _ rfl rfl hs2
    · rcases path_rclaims_inv hp' (mem_callsOf.2 heG) with ⟨id, l', rfl, _⟩ | ⟨l', rfl, _⟩
      · refine .inl ⟨id, l', rfl, ?_⟩
        intro r hr
        rcases path_rclaims_inv (hf.returned hinv' hr) (mem_callsOf.2 heG) with ⟨_, _, _, h5⟩ | ⟨_, h5, _⟩
        · exact h5 r rfl
        · cases h5
      · refine .inr ⟨l', rfl, ?_⟩
        intro r hr
        rcases path_rclaims_inv (hf.returned hinv' hr) (mem_callsOf.2 heG) with ⟨_, _, h5, _⟩ | ⟨_, _, h5⟩
        · cases h5
        · exact h5 r rfl
  · left
    refine ⟨g₁, H₁, H₂, he₁, hH₁, hpend, ?_⟩
    intro id
    unfold isFree
    cases hv : validateID (⟨g₁.mem, start, stop⟩ : RTable P L) id with
    | error e => rfl
    | ok u =>
      have hin := (validateID_iff hg _ _).1 hv
      have hidx := index_toNat hg start stop id hin
      unfold Ranged.InR at hin
      simp only at hin
      have hlt : calculateIndex (id.setWidth P.W) start < g₁.mem.size := by
        rw [hsz₁, BitVec.lt_def, hsize, hidx]
        omega
      have := hnone (calculateIndex (id.setWidth P.W) start)
      simp only [IdxTable.Avail, hlt, true_and, IdxTable.absMap_eq_none] at this
      simp [IdxTable.isFree, IdxTable.isFreeB]
      cases hh : g₁.mem.m.get? (calculateIndex (id.setWidth P.W) start) with
      | none => exact absurd hh this
      | some e => rfl

end Ranged
end Verif.Conc
