import Verif.Conc.Seen
import Verif.IdxTable.IterProps

/-!
C106: goroutines that use iterators of an index table, while other goroutines change the table. `Value` reads
the map of the table without a lock (iterator.go:9-11).
-/

namespace Verif.Conc
open Verif.IdxTable (U64 Table Entry Call Reply newTable Iter ICall IReply IAnswer PMap SpecStep SpecRun Enumerates absMap
  sortKeys Inv)
variable {κ κ₀ σ ρ ρ₀ β γ α : Type}

/-! ### Model -/

/-- what a goroutine does: one call on the table, or `Iterate` or `IterateFree` and then any calls on the iterator
and on the table, one after the other -/
inductive UCall (α : Type)
  | plain (c : Call α)
  | iterate (cs : List (ICall α))
  | iterateFree (cs : List (ICall α))

/-- a program that uses the index table -/
abbrev UClient (α : Type) := Client (Call α) (Reply α) (Table α) (List (IReply α))

/-- The calls of a goroutine that holds the iterator `it`, with the replies. The position of the iterator is its own;
`Value` evaluates the index first, and then reads the map (iterator.go:9-11). A panic is a reply, the goroutine goes on. -/
def sessionC : Iter → List (ICall α) → List (IReply α) → UClient α
  | _, [], acc => .ret acc
  | it, .table c :: cs, acc => .call c fun r => sessionC it cs (acc ++ [.table r])
  | it, .next :: cs, acc => sessionC it.advance cs (acc ++ [.bool (decide it.advance.inBounds)])
  | it, .id :: cs, acc => sessionC it cs (acc ++ [match it.idAt with
    | some i => .id i
    | none => .panic])
  | it, .value :: cs, acc =>
    match it.idAt with
    | some i => .peek fun t => sessionC it cs (acc ++ [.value (t.m.get? i)])
    | none => sessionC it cs (acc ++ [.panic])
  | it, .isConsecutive :: cs, acc => sessionC it cs (acc ++ [match it.consecutiveAt with
    | some b => .bool b
    | none => .panic])

/-- The goroutines. The keys of the iterator are the ids that a loop over it goes through, which is how `Call.iterate`
replies; the last branch of each `match` is not reached. -/
def ucode : UCall α → UClient α
  | .plain c => .call c fun r => .ret [.table r]
  | .iterate cs => .call .iterate fun
    | .ids ks => sessionC ⟨-1, ks⟩ cs []
    | _ => .ret []
  | .iterateFree cs => .call .iterateFree fun
    | .ids ks => sessionC ⟨-1, ks⟩ cs []
    | _ => .ret []

/-- as programs -/
def uprog (c : UCall α) : Prog (Table α) (List (IReply α)) := (ucode c).compile codeOf

/-! ### Spec -/

/-- what the table holds at a moment -/
def stU (g : Cfg (UCall α) (Table α) (List (IReply α))) : PMap α := absMap g.mem

/-- The calls of a goroutine with an iterator over `L`, after `n` calls of `Next`: each call on the table has the
reply for the content of the table at a moment, each `Value` is looked up at a moment; the moments are one after
the other. The other methods do not depend on the table. -/
inductive USees (size : U64) (L : List U64) : Nat → List (PMap α) → List (ICall α) → List (IReply α) → Prop
  | nil (n) : USees size L n [] [] []
  | table {n s s' ss c r cs rs} : SpecStep size s c s' r → USees size L n ss cs rs →
      USees size L n (s :: ss) (.table c :: cs) (.table r :: rs)
  | next {n ss r cs rs} : (∀ s, IAnswer L n s .next r) → USees size L (n + 1) ss cs rs →
      USees size L n ss (.next :: cs) (r :: rs)
  | value {n s ss r cs rs} : IAnswer L n s .value r → USees size L n ss cs rs →
      USees size L n (s :: ss) (.value :: cs) (r :: rs)
  | look {n ss c r cs rs} : c ≠ .next → (∀ s, IAnswer L n s c r) → USees size L n ss cs rs →
      USees size L n ss (c :: cs) (r :: rs)

/-- the calls on the table that are among the calls of a goroutine, with their replies -/
def tableCalls : List (ICall α) → List (IReply α) → List (Call α × Reply α)
  | .table c :: cs, .table r :: rs => (c, r) :: tableCalls cs rs
  | _ :: cs, _ :: rs => tableCalls cs rs
  | _, _ => []

/-! ### What a session sees -/

theorem seen_ret {sem : σ → κ₀ → σ × ρ₀} {x y : ρ} {l : List σ}
    (h : (Client.ret x : Client κ₀ ρ₀ σ ρ).Seen sem l (.ret y)) : x = y ∧ l = [] := by
  cases h; exact ⟨rfl, rfl⟩

theorem seen_call {sem : σ → κ₀ → σ × ρ₀} {c : κ₀} {k : ρ₀ → Client κ₀ ρ₀ σ ρ} {y : ρ} {l : List σ}
    (h : (Client.call c k).Seen sem l (.ret y)) : ∃ s l', l = s :: l' ∧ (k (sem s c).2).Seen sem l' (.ret y) := by
  cases h with
  | call h => exact ⟨_, _, rfl, h⟩

theorem seen_peek {sem : σ → κ₀ → σ × ρ₀} {k : σ → Client κ₀ ρ₀ σ ρ} {y : ρ} {l : List σ}
    (h : (Client.peek k).Seen sem l (.ret y)) : ∃ s l', l = s :: l' ∧ (k s).Seen sem l' (.ret y) := by
  cases h with
  | peek h => exact ⟨_, _, rfl, h⟩

/-- some table that meets the invariant -/
theorem some_inv (α : Type) : Inv (newTable 1 : Table α) := IdxTable.newTable_inv 1 (by decide)

theorem seen_sessionC {size : U64} (L : List U64) (hL : L.length < 2 ^ 64) : ∀ (cs : List (ICall α)) (n : Nat)
    (acc : List (IReply α)) (l : List (Table α)) (y : List (IReply α)), n + cs.length < 2 ^ 64 →
    (∀ t ∈ l, Inv t ∧ t.size = size) → (sessionC (Iter.at L n) cs acc).Seen IdxTable.step l (.ret y) →
    ∃ rs, y = acc ++ rs ∧ USees size L n (l.map absMap) cs rs := by
  intro cs
  induction cs with
  | nil =>
    intro n acc l y _ _ h
    obtain ⟨rfl, rfl⟩ := seen_ret h
    exact ⟨[], by simp, .nil n⟩
  | cons c cs ih =>
    intro n acc l y hn hl h
    rw [List.length_cons] at hn
    cases c with
    | table c =>
      obtain ⟨t, l, rfl, h'⟩ := seen_call h
      obtain ⟨rs, rfl, h1⟩ := ih n _ l y (by omega) (fun t ht => hl t (List.mem_cons_of_mem _ ht)) h'
      obtain ⟨hi, rfl⟩ := hl t (List.mem_cons_self ..)
      exact ⟨_ :: rs, by rw [List.append_assoc]; rfl, .table (IdxTable.step_refines t hi c).1 h1⟩
    | next =>
      unfold sessionC at h
      rw [Iter.advance_at'] at h
      obtain ⟨rs, rfl, h1⟩ := ih (n + 1) _ l y (by omega) hl h
      refine ⟨_ :: rs, by rw [List.append_assoc]; rfl, .next (fun s => ?_) h1⟩
      show IReply.bool (decide (Iter.at L (n + 1)).inBounds) = _
      rw [← Iter.advance_at']
      congr 1
      exact decide_eq_decide.2 (Iter.inBounds_at L n (by omega))
    | id =>
      unfold sessionC at h
      obtain ⟨rs, rfl, h1⟩ := ih n _ l y (by omega) hl h
      obtain ⟨_, _, h3⟩ := IdxTable.look_spec (some_inv α) L hL n (by omega) .id (by simp) (by simp)
      exact ⟨_ :: rs, by rw [List.append_assoc]; rfl, .look (by simp) (fun _ => h3) h1⟩
    | value =>
      unfold sessionC at h
      cases hid : (Iter.at L n).idAt with
      | none =>
        rw [hid] at h
        obtain ⟨rs, rfl, h1⟩ := ih n _ l y (by omega) hl h
        obtain ⟨_, _, h3⟩ := IdxTable.look_spec (some_inv α) L hL n (by omega) .value (by simp) (by simp)
        simp only [IdxTable.istep, hid] at h3
        refine ⟨_ :: rs, by rw [List.append_assoc]; rfl, .look (by simp) (fun s => ?_) h1⟩
        unfold IAnswer at h3 ⊢
        dsimp only at h3 ⊢
        split at h3
        · obtain ⟨_, _, h3⟩ := h3; cases h3
        · rename_i hb; rw [if_neg hb]
      | some i =>
        rw [hid] at h
        obtain ⟨t, l, rfl, h'⟩ := seen_peek h
        obtain ⟨rs, rfl, h1⟩ := ih n _ l y (by omega) (fun t ht => hl t (List.mem_cons_of_mem _ ht)) h'
        obtain ⟨hi, rfl⟩ := hl t (List.mem_cons_self ..)
        obtain ⟨_, _, h3⟩ := IdxTable.look_spec hi L hL n (by omega) .value (by simp) (by simp)
        simp only [IdxTable.istep, hid] at h3
        exact ⟨_ :: rs, by rw [List.append_assoc]; rfl, .value h3 h1⟩
    | isConsecutive =>
      unfold sessionC at h
      obtain ⟨rs, rfl, h1⟩ := ih n _ l y (by omega) hl h
      obtain ⟨_, _, h3⟩ := IdxTable.look_spec (some_inv α) L hL n (by omega) .isConsecutive (by simp) (by simp)
      exact ⟨_ :: rs, by rw [List.append_assoc]; rfl, .look (by simp) (fun _ => h3) h1⟩

theorem moments_inv {size : U64} (hsize : size ≠ 0) {H : List (Ev (UCall α) (List (IReply α)))} {n : Nat}
    {gs : List (Cfg (UCall α) (Table α) (List (IReply α)))} (hm : Moments uprog (newTable size) H n gs) :
    ∀ g ∈ gs, Inv g.mem ∧ g.mem.size = size := by
  intro g hg
  obtain ⟨H₁, h1, _⟩ := hm.1 g hg
  exact exec_inv hsize h1

/-- the calls after the first one -/
theorem session_seen {size : U64} (hsize : size ≠ 0) {H : List (Ev (UCall α) (List (IReply α)))} {n : Nat}
    {gs : List (Cfg (UCall α) (Table α) (List (IReply α)))} (hm : Moments uprog (newTable size) H n gs)
    {c : Call α} {cs : List (ICall α)} {rs : List (IReply α)} (hcs : cs.length < 2 ^ 64)
    {k : Reply α → UClient α} (hk : ∀ L, k (.ids L) = sessionC ⟨-1, L⟩ cs [])
    (hs : (Client.call c k).Seen IdxTable.step (gs.map (·.mem)) (.ret rs))
    {L : Table α → List U64} (hL : ∀ t, IdxTable.Inv t → (L t).length < 2 ^ 64 ∧ (IdxTable.step t c).2 = .ids (L t)) :
    ∃ g₀ gs', gs = g₀ :: gs' ∧ USees size (L g₀.mem) 0 (gs'.map stU) cs rs := by
  have hinv := moments_inv hsize hm
  obtain ⟨t, l, hl, hs'⟩ := seen_call hs
  obtain ⟨g₀, gs, rfl, rfl, rfl⟩ := List.map_eq_cons_iff.1 hl
  obtain ⟨hlen, hd⟩ := hL _ (hinv g₀ (List.mem_cons_self ..)).1
  rw [hd, hk] at hs'
  obtain ⟨rs', rfl, h3⟩ := seen_sessionC (size := size) _ hlen cs 0 [] _ _ (by omega) (by
    intro t ht
    obtain ⟨g', hg, rfl⟩ := List.mem_map.1 ht
    exact hinv g' (List.mem_cons_of_mem _ hg)) hs'
  refine ⟨g₀, gs, rfl, ?_⟩
  rw [List.map_map] at h3
  exact h3

/-- **C106** (what holds) The replies of a goroutine that has an iterator from `Iterate`: the iterator goes through
the ids that are claimed at one moment, in ascending order, and each later call that depends on the table has the
reply for its content at a later moment; all moments are during the goroutine's calls, one after the other. Missing:
that `Value` is not nil, and that there is no data race, both false. -/
theorem C106_session_partial {size : U64} (hsize : size ≠ 0) {g : Cfg (UCall α) (Table α) (List (IReply α))} {H}
    (h : Exec uprog (newTable size) g H) {n : Nat} {cs : List (ICall α)} {rs : List (IReply α)}
    (hi : Ev.inv n (.iterate cs) ∈ H) (hr : Ev.ret n rs ∈ H) (hcs : cs.length < 2 ^ 64) :
    ∃ g₀ gs L, Moments uprog (newTable size) H n (g₀ :: gs) ∧ Enumerates L (fun i => stU g₀ i ≠ none) ∧
      USees size L 0 (gs.map stU) cs rs := by
  obtain ⟨a, _, _, h2⟩ := exec_seen sections h
  obtain ⟨gs, hm, hs⟩ := h2 n _ _ hi hr
  obtain ⟨g₀, gs, rfl, h3⟩ := session_seen hsize hm hcs (fun _ => rfl) hs (L := fun t => sortKeys t.m.keys) (by
    intro t ht
    have hlen : (sortKeys t.m.keys).length < 2 ^ 64 := by
      rw [(IdxTable.sortKeys_perm _).length_eq]; exact ht.keys_length_lt
    refine ⟨hlen, ?_⟩
    show Reply.ids (Iter.drain ⟨-1, sortKeys t.m.keys⟩) = _
    rw [IdxTable.drain_at _ hlen])
  exact ⟨g₀, gs, _, hm, IdxTable.enumerates_sortKeys_keys g₀.mem, h3⟩

/-- **C106** (what holds) The same for `IterateFree`, with the ids that are available at one moment. -/
theorem C106_free_session_partial {size : U64} (hsize : size ≠ 0) {g : Cfg (UCall α) (Table α) (List (IReply α))} {H}
    (h : Exec uprog (newTable size) g H) {n : Nat} {cs : List (ICall α)} {rs : List (IReply α)}
    (hi : Ev.inv n (.iterateFree cs) ∈ H) (hr : Ev.ret n rs ∈ H) (hcs : cs.length < 2 ^ 64) :
    ∃ g₀ gs L, Moments uprog (newTable size) H n (g₀ :: gs) ∧ Enumerates L (fun i => i < size ∧ stU g₀ i = none) ∧
      USees size L 0 (gs.map stU) cs rs := by
  obtain ⟨a, _, _, h2⟩ := exec_seen sections h
  obtain ⟨gs, hm, hs⟩ := h2 n _ _ hi hr
  have hinv := moments_inv hsize hm
  obtain ⟨g₀, gs, rfl, h3⟩ := session_seen hsize hm hcs (fun _ => rfl) hs (L := IdxTable.freeKeys) (by
    intro t ht
    refine ⟨IdxTable.freeKeys_length_lt t, ?_⟩
    show Reply.ids (IdxTable.iterateFree t).drain = _
    rw [IdxTable.iterateFree_at]
    exact congrArg _ (IdxTable.drain_at _ (IdxTable.freeKeys_length_lt t)))
  have h4 := IdxTable.enumerates_freeKeys g₀.mem
  rw [(hinv g₀ (List.mem_cons_self ..)).2] at h4
  exact ⟨g₀, gs, _, hm, h4, h3⟩

/-! ### The calls on the table -/

theorem path_peek {k : σ → Client κ₀ ρ₀ σ ρ} {l : List (κ₀ × ρ₀)} {y : ρ}
    (h : (Client.peek k).Path l (.ret y)) : ∃ s, (k s).Path l (.ret y) := by
  cases h with
  | peek h => exact ⟨_, h⟩

theorem path_sessionC : ∀ (cs : List (ICall α)) (it : Iter) (acc : List (IReply α)) (l : List (Call α × Reply α))
    (y : List (IReply α)), (sessionC it cs acc).Path l (.ret y) → ∃ rs, y = acc ++ rs ∧ l = tableCalls cs rs := by
  intro cs
  induction cs with
  | nil =>
    intro it acc l y h
    obtain ⟨rfl, h⟩ := path_ret h
    cases h
    exact ⟨[], by simp, rfl⟩
  | cons c cs ih =>
    intro it acc l y h
    unfold sessionC at h
    cases c with
    | table c =>
      obtain ⟨r, l', rfl, h'⟩ := path_call h
      obtain ⟨rs, rfl, rfl⟩ := ih _ _ _ _ h'
      exact ⟨.table r :: rs, by simp, rfl⟩
    | value =>
      dsimp only at h
      cases hid : it.idAt with
      | none =>
        rw [hid] at h
        obtain ⟨rs, rfl, rfl⟩ := ih _ _ _ _ h
        exact ⟨_ :: rs, by rw [List.append_assoc]; rfl, rfl⟩
      | some i =>
        rw [hid] at h
        obtain ⟨t, h'⟩ := path_peek h
        obtain ⟨rs, rfl, rfl⟩ := ih _ _ _ _ h'
        exact ⟨_ :: rs, by rw [List.append_assoc]; rfl, rfl⟩
    | _ =>
      obtain ⟨rs, rfl, rfl⟩ := ih _ _ _ _ h
      exact ⟨_ :: rs, by rw [List.append_assoc]; rfl, rfl⟩

theorem runs_reply {sem : σ → κ₀ → σ × ρ₀} {m m' : σ} {G : List (Nat × κ₀ × ρ₀)} (h : Runs sem m G m') {n : Nat} {c : κ₀}
    {r : ρ₀} (hm : (n, c, r) ∈ G) : ∃ s, r = (sem s c).2 := by
  induction h with
  | nil => cases hm
  | @cons m _ n' c' G _ ih =>
    rcases List.mem_cons.1 hm with hm | hm
    · cases hm; exact ⟨m, rfl⟩
    · exact ih hm

/-- **C106** (what holds) All calls on the table together, those of the goroutines with iterators included, have an
order in which they could have been made one after the other with these replies. It keeps the order in each goroutine,
and the order of goroutines that do not overlap. Missing: that `Value` is not nil, and that there is no data race, both
false. -/
theorem C106_order_partial {size : U64} (hsize : size ≠ 0) {g : Cfg (UCall α) (Table α) (List (IReply α))} {H}
    (h : Exec uprog (newTable size) g H) : ∃ (G : List (Nat × Call α × Reply α)) (s : PMap α),
      SpecRun size (fun _ => none) (G.map (·.2.1)) (G.map (·.2.2)) s ∧
      (∀ n c rs, Ev.inv n (.plain c) ∈ H → Ev.ret n rs ∈ H →
        ∃ r, rs = [.table r] ∧ (G.filter (fun e => e.1 == n)).map (·.2) = [(c, r)]) ∧
      (∀ n cs rs, Ev.inv n (.iterate cs) ∈ H → Ev.ret n rs ∈ H →
        ∃ L, (G.filter (fun e => e.1 == n)).map (·.2) = (.iterate, .ids L) :: tableCalls cs rs) ∧
      (∀ n cs rs, Ev.inv n (.iterateFree cs) ∈ H → Ev.ret n rs ∈ H →
        ∃ L, (G.filter (fun e => e.1 == n)).map (·.2) = (.iterateFree, .ids L) :: tableCalls cs rs) ∧
      (∀ a b, Before H a b → ∀ x y, x.1 = b → y.1 = a → ¬ [x, y].Sublist G) := by
  obtain ⟨a, G, ha, _⟩ := sim sections h
  have hf := ha.facts
  refine ⟨G, absMap a.mem, ?_, ?_, ?_, ?_, hf.order⟩
  · have := runs_spec hf.runs (IdxTable.newTable_inv size hsize)
    have he : absMap (newTable size : Table α) = fun _ => none := by
      funext i; simp [absMap, newTable]
    rw [he] at this
    exact this
  · intro n c rs hi hr
    obtain ⟨r, l, hl, h1⟩ := path_call (hf.returned hi hr)
    obtain ⟨rfl, h2⟩ := path_ret h1
    cases h2
    exact ⟨r, rfl, hl⟩
  · intro n cs rs hi hr
    obtain ⟨r, l, hl, h1⟩ := path_call (hf.returned hi hr)
    have hmem : (Call.iterate, r) ∈ callsOf G n := by rw [hl]; exact List.mem_cons_self ..
    obtain ⟨t, rfl⟩ := runs_reply hf.runs (mem_callsOf.1 hmem)
    obtain ⟨rs', rfl, rfl⟩ := path_sessionC _ _ _ _ _ h1
    exact ⟨_, hl⟩
  · intro n cs rs hi hr
    obtain ⟨r, l, hl, h1⟩ := path_call (hf.returned hi hr)
    have hmem : (Call.iterateFree, r) ∈ callsOf G n := by rw [hl]; exact List.mem_cons_self ..
    obtain ⟨t, rfl⟩ := runs_reply hf.runs (mem_callsOf.1 hmem)
    obtain ⟨rs', rfl, rfl⟩ := path_sessionC _ _ _ _ _ h1
    exact ⟨_, hl⟩

/-! ### Data races and deadlocks -/

/-- the calls of a goroutine, other than the first one -/
def UCall.calls : UCall α → List (ICall α)
  | .plain c => [.table c]
  | .iterate cs => cs
  | .iterateFree cs => cs

theorem uses_sessionC {S : Call α → Prop} {pk : Prop} : ∀ (cs : List (ICall α)) (it : Iter) (acc : List (IReply α)),
    (∀ c, .table c ∈ cs → S c) → (.value ∈ cs → pk) → (sessionC it cs acc).Uses S pk := by
  intro cs
  induction cs with
  | nil => intro it acc _ _; exact .ret _
  | cons c cs ih =>
    intro it acc hS hp
    have ih' := fun it acc => ih it acc (fun c hc => hS c (List.mem_cons_of_mem _ hc)) (fun hv => hp (List.mem_cons_of_mem _ hv))
    unfold sessionC
    cases c with
    | table c => exact .call (hS c (List.mem_cons_self ..)) fun r => ih' _ _
    | value =>
      dsimp only
      split
      · exact .peek (hp (List.mem_cons_self ..)) fun t => ih' _ _
      · exact ih' _ _
    | _ => exact ih' _ _

theorem uses_ucode {S : Call α → Prop} {pk : Prop} (h1 : S .iterate) (h2 : S .iterateFree) (c : UCall α)
    (hS : ∀ x, .table x ∈ c.calls → S x) (hp : .value ∈ c.calls → pk) : (ucode c).Uses S pk := by
  cases c with
  | plain c => exact .call (hS c (List.mem_singleton.2 rfl)) fun r => .ret _
  | iterate cs =>
    refine .call h1 fun r => ?_
    split
    · exact uses_sessionC _ _ _ hS hp
    · exact .ret _
  | iterateFree cs =>
    refine .call h2 fun r => ?_
    split
    · exact uses_sessionC _ _ _ hS hp
    · exact .ret _

/-- **C106** (what holds) Without `Value` there is no data race. Missing: goroutines that call `Value`, where it is
false. -/
theorem C106_no_race_partial {size : U64} {g : Cfg (UCall α) (Table α) (List (IReply α))} {H}
    (h : Exec uprog (newTable size) g H) (hno : ∀ n c, Ev.inv n c ∈ H → .value ∉ c.calls) : ¬ Race g := by
  classical
  let code : UCall α → UClient α := fun c => if .value ∈ c.calls then .ret [] else ucode c
  have h1 : Exec (fun c => (code c).compile codeOf) (newTable size) g H := by
    refine h.congr ?_
    intro n c hc
    show (ucode c).compile codeOf = (code c).compile codeOf
    simp only [code, if_neg (hno n c hc)]
  refine no_race sections ?_ h1
  intro c
  by_cases hc : .value ∈ c.calls
  · simp only [code, if_pos hc]; exact .ret _
  · simp only [code, if_neg hc]
    exact uses_ucode trivial trivial c (fun _ _ => trivial) hc

/-- **C106** (what holds) Unless `GetAll` is called, some goroutine can make a step. Missing: executions with `GetAll`
(see `C62`). -/
theorem C106_no_deadlock_partial {size : U64} {g : Cfg (UCall α) (Table α) (List (IReply α))} {H}
    (h : Exec uprog (newTable size) g H) (hno : ∀ n c, Ev.inv n c ∈ H → .table .getAll ∉ c.calls) :
    ¬ Deadlock uprog g := by
  classical
  let code : UCall α → UClient α := fun c => if .table .getAll ∈ c.calls then .ret [] else ucode c
  have h1 : Exec (fun c => (code c).compile codeOf) (newTable size) g H := by
    refine h.congr ?_
    intro n c hc
    show (ucode c).compile codeOf = (code c).compile codeOf
    simp only [code, if_neg (hno n c hc)]
  have := no_deadlock (S := fun c => c ≠ .getAll) (pk := True) sections (fun c hc => flat_codeOf c hc) ?_ h1
  · exact fun hd => this hd.congr
  · intro c
    by_cases hc : .table .getAll ∈ c.calls
    · simp only [code, if_pos hc]; exact .ret _
    · simp only [code, if_neg hc]
      exact uses_ucode (by simp) (by simp) c (fun x hx he => hc (he ▸ hx)) fun _ => trivial

/-! ### Nil -/

theorem Grows.safe_from {le : σ → σ → Prop} (ht : ∀ {a b c}, le a b → le b c → le a c) {p : Prog σ β} (h : Grows le p)
    {m₀ : σ} : ∀ m, le m₀ m → p.Safe le (fun m' _ => le m₀ m') m := by
  induction h with
  | ret r => exact fun _ h m' h' => ht h h'
  | read _ ih => exact fun m h m' h' => ih m' m' (ht h h')
  | write h1 _ ih => exact fun m h m' h' => ⟨h1 m', ih _ (ht h (ht h' (h1 m')))⟩
  | rlock _ ih => exact fun m h => ih m h
  | runlock _ ih => exact fun m h => ih m h
  | lock _ ih => exact fun m h => ih m h
  | unlock _ ih => exact fun m h => ih m h

theorem Safe.ret {le : σ → σ → Prop} {Q : σ → β → Prop} {r : β} {m : σ} (h : ∀ m, Q m r) : (Prog.ret r).Safe le Q m :=
  fun m' _ => h m'

theorem safe_sessionC : ∀ (cs : List (ICall α)) (it : Iter) (acc : List (IReply α)) (m : Table α),
    (∀ c, .table c ∈ cs → NoRelease c) → (∀ k ∈ it.keys, Pres m k) → .value none ∉ acc →
    ((sessionC it cs acc).compile codeOf).Safe MoreClaimed (fun _ y => .value none ∉ y) m := by
  intro cs
  induction cs with
  | nil => intro it acc m _ _ ha; exact Safe.ret fun _ => ha
  | cons c cs ih =>
    intro it acc m hc hk ha
    have hc' := fun c h => hc c (List.mem_cons_of_mem _ h)
    have hacc : ∀ r : IReply α, r ≠ .value none → .value none ∉ acc ++ [r] := by
      intro r hr h
      rcases List.mem_append.1 h with h | h
      · exact ha h
      · exact hr (List.mem_singleton.1 h).symm
    unfold sessionC
    cases c with
    | table c =>
      refine Safe.bind (Q := fun m' _ => MoreClaimed m m') MoreClaimed.refl ?_
        (Grows.safe_from (le := MoreClaimed) MoreClaimed.trans (grows_codeOf c (hc c (List.mem_cons_self ..))) m
          (MoreClaimed.refl m))
      intro m' r hm
      exact ih _ _ m' hc' (fun k h => hm k (hk k h)) (hacc _ (by simp))
    | next => exact ih _ _ m hc' hk (hacc _ (by simp))
    | id => exact ih _ _ m hc' hk (hacc _ (by split <;> simp))
    | isConsecutive => exact ih _ _ m hc' hk (hacc _ (by split <;> simp))
    | value =>
      dsimp only
      split
      · rename_i i hid
        intro m' hm
        have hp : Pres m' i := hm i (hk i (List.mem_of_getElem? hid))
        refine ih _ _ m' hc' (fun k h => hm k (hk k h)) (hacc _ ?_)
        intro h
        exact hp (IReply.value.inj h)
      · exact ih _ _ m hc' hk (hacc _ (by simp))

/-- the goroutine calls `Release` -/
def UCall.Releases (c : UCall α) : Prop := ∃ id, .table (.release id) ∈ c.calls

/-- **C106** (what holds) `Value` of an iterator from `Iterate` is not nil if no goroutine that calls `Release`
overlaps. Missing: the other executions, for some of which it is false. -/
theorem C106_no_nil_partial {size : U64} {g : Cfg (UCall α) (Table α) (List (IReply α))} {H}
    (h : Exec uprog (newTable size) g H) {n : Nat} {cs : List (ICall α)} {rs : List (IReply α)}
    (hi : Ev.inv n (.iterate cs) ∈ H) (hr : Ev.ret n rs ∈ H) (hown : ∀ id, .table (.release id) ∉ cs)
    (hno : ∀ m c, Ev.inv m c ∈ H → c.Releases → Before H m n ∨ Before H n m) : .value none ∉ rs := by
  have hrel : ∀ c : UCall α, ¬ c.Releases → ∀ x, .table x ∈ c.calls → NoRelease x := by
    rintro c hc x hx id rfl
    exact hc ⟨id, hx⟩
  have key := (exec_safe (le := MoreClaimed) (bad := UCall.Releases) MoreClaimed.refl MoreClaimed.trans
    (Q := fun c r => (∃ cs, c = .iterate cs) → .value none ∉ r) ?_ ?_ h).2 n _ _ hi hr ?_
  · rcases key with h1 | ⟨m, c, hb, hm, h1, h2⟩
    · exact h1 ⟨_, rfl⟩
    · rcases hno m c hm hb with h3 | h3
      · exact absurd h3 h1
      · exact absurd h3 h2
  · intro c hc
    exact (uses_ucode (S := NoRelease) (pk := True) (by intro _; simp) (by intro _; simp) c (hrel c hc)
      fun _ => trivial).grows grows_codeOf
  · intro c hc m
    cases c with
    | iterate cs =>
      refine Safe.bind (Q := fun m r => ∃ ks, r = .ids ks ∧ ∀ k ∈ ks, Pres m k) MoreClaimed.refl ?_ (safe_iterate m)
      rintro m' r ⟨ks, rfl, hks⟩
      exact Safe.weaken (fun _ _ h _ => h) (safe_sessionC cs _ [] m' (hrel _ hc) hks (by simp))
    | plain c =>
      refine Safe.weaken (fun _ _ _ h => ?_) ((uses_ucode (S := NoRelease) (pk := True) (by intro _; simp)
        (by intro _; simp) _ (hrel _ hc) fun _ => trivial).grows grows_codeOf |>.safe m)
      obtain ⟨_, h⟩ := h; cases h
    | iterateFree cs =>
      refine Safe.weaken (fun _ _ _ h => ?_) ((uses_ucode (S := NoRelease) (pk := True) (by intro _; simp)
        (by intro _; simp) _ (hrel _ hc) fun _ => trivial).grows grows_codeOf |>.safe m)
      obtain ⟨_, h⟩ := h; cases h
  · rintro ⟨id, hid⟩
    exact hown id hid

/-! ### Counterexamples -/

/-- a table with one entry -/
def exU : Table String := (IdxTable.step (newTable 4) (.claim 2 "a")).1

theorem exU_iterate : IdxTable.step exU .iterate = (exU, .ids [2]) := by
  show (exU, Reply.ids (IdxTable.Iter.drain ⟨-1, IdxTable.sortKeys [2#64]⟩)) = _
  rw [IdxTable.sortKeys_of_sorted _ (by simp)]
  rfl

/-- goroutine 1 has its iterator, has called `Next`, and is about to read the map -/
theorem ex_session : Exec uprog (newTable 4 : Table String)
    (quiet codeOf ⟨exU, [(.plain (.claim 2 "a"), none),
      (.iterate [.next, .value, .id], some (sessionC ⟨-1, [2]⟩ [.next, .value, .id] []))]⟩)
    [.inv 0 (.plain (.claim 2 "a")), .ret 0 [.table .ok], .inv 1 (.iterate [.next, .value, .id])] := by
  have h0 : AExec ucode IdxTable.step Eq (newTable 4 : Table String) ⟨newTable 4, []⟩ [] [] := .init
  have h1 := ((h0.doInv (.plain (.claim 2 "a"))).doCall 0 rfl rfl).doRet 0 rfl
  have h2 := (h1.doInv (.iterate [.next, .value, .id])).doCall 1 rfl exU_iterate
  exact realize sections h2

/-- **C106** (violated) `Value` reads the map while `Release` writes to it. -/
theorem C106_race_violated : ∃ g H, Exec uprog (newTable 4 : Table String) g H ∧ Race g := by
  refine ⟨_, _, follow_sound (l := [.start (.plain (.release 2)), .go 2, .go 2, .go 2]) ex_session rfl, 2, 1, _, _, by decide,
    rfl, rfl, ⟨_, _, rfl⟩, .inl ⟨_, rfl⟩⟩

/-- **C106** (violated) `Value` is nil if the entry has been released since the iterator was made. -/
theorem C106_nil_violated : ∃ g, Exec uprog (newTable 4 : Table String) g
    [.inv 0 (.plain (.claim 2 "a")), .ret 0 [.table .ok], .inv 1 (.iterate [.next, .value, .id]),
      .inv 2 (.plain (.release 2)), .ret 2 [.table .ok], .ret 1 [.bool true, .value none, .id 2]] :=
  ⟨_, follow_sound (l := [.start (.plain (.release 2)), .go 2, .go 2, .go 2, .go 2, .go 2, .go 2, .go 1, .go 1]) ex_session rfl⟩

/-- an execution that meets the hypotheses: the value is that of an update made since the iterator was made -/
example : ∃ g, Exec uprog (newTable 4 : Table String) g
    [.inv 0 (.plain (.claim 2 "a")), .ret 0 [.table .ok], .inv 1 (.iterate [.next, .value, .id]),
      .inv 2 (.plain (.update 2 "b")), .ret 2 [.table .ok], .ret 1 [.bool true, .value (some ⟨2, "b"⟩), .id 2]] :=
  ⟨_, follow_sound (l := [.start (.plain (.update 2 "b")), .go 2, .go 2, .go 2, .go 2, .go 2, .go 2, .go 2, .go 1, .go 1])
    ex_session rfl⟩

end Verif.Conc
