import Verif.Conc.ReadProps
import Verif.Conc.Keeps

/-! What the calls and the reads of a client have found, and when; invariants of the index table. -/

namespace Verif.Conc
open Verif.IdxTable (U64 Table Entry Call Reply newTable Inv)
variable {κ κ₀ σ ρ ρ₀ β γ α : Type}

/-- the client `d` becomes `d'`; its calls and reads find the memories `l` -/
inductive Client.Seen (sem : σ → κ₀ → σ × ρ₀) : Client κ₀ ρ₀ σ ρ → List σ → Client κ₀ ρ₀ σ ρ → Prop
  | refl (d) : Seen sem d [] d
  | call {c k s l d} : Seen sem (k (sem s c).2) l d → Seen sem (.call c k) (s :: l) d
  | peek {k s l d} : Seen sem (k s) l d → Seen sem (.peek k) (s :: l) d

theorem Client.Seen.trans {sem : σ → κ₀ → σ × ρ₀} {p q r : Client κ₀ ρ₀ σ ρ} {l l' : List σ} (h : p.Seen sem l q) :
    q.Seen sem l' r → p.Seen sem (l ++ l') r := by
  induction h with
  | refl => exact fun h => h
  | call _ ih => exact fun h => .call (ih h)
  | peek _ ih => exact fun h => .peek (ih h)

/-- every call of a client takes effect at a moment, with the reply for the memory of that moment, and every read
sees the memory of a moment; one after the other -/
theorem exec_seen {meth : κ₀ → Prog σ ρ₀} {sem : σ → κ₀ → σ × ρ₀} (hm : Sections meth sem)
    {code : κ → Client κ₀ ρ₀ σ ρ} {m₀ : σ} {g : Cfg κ σ ρ} {H : List (Ev κ ρ)}
    (h : Exec (fun c => (code c).compile meth) m₀ g H) :
    ∃ a : ACfg κ κ₀ ρ₀ σ ρ, Rel meth g a ∧
    (∀ (n : Nat) (c : κ) (d : Client κ₀ ρ₀ σ ρ), a.th[n]? = some (c, some d) →
      ∃ gs, Moments (fun c => (code c).compile meth) m₀ H n gs ∧
        (∀ g' ∈ gs, ∃ H', Later (fun c => (code c).compile meth) g' g H') ∧ (code c).Seen sem (gs.map (·.mem)) d) ∧
    (∀ (n : Nat) (c : κ) (r : ρ), Ev.inv n c ∈ H → Ev.ret n r ∈ H →
      ∃ gs, Moments (fun c => (code c).compile meth) m₀ H n gs ∧ (code c).Seen sem (gs.map (·.mem)) (.ret r)) := by
  induction h with
  | init => exact ⟨⟨m₀, []⟩, ⟨rfl, by simp, fun _ => rfl, by simp, by simp⟩, by simp, by simp⟩
  | @step g H e g' h0 hs ih =>
    obtain ⟨a, hrel, ih1, ih2⟩ := ih
    have other : ∀ (n : Nat) (c : κ) (d : Client κ₀ ρ₀ σ ρ), a.th[n]? = some (c, some d) →
        ∃ gs, Moments (fun c => (code c).compile meth) m₀ (H ++ e.toList) n gs ∧
          (∀ g'' ∈ gs, ∃ H', Later (fun c => (code c).compile meth) g'' g' H') ∧ (code c).Seen sem (gs.map (·.mem)) d := by
      intro n c d hd
      obtain ⟨gs, h1, h2, h3⟩ := ih1 n c d hd
      exact ⟨gs, h1.snoc, fun g'' hg => (h2 g'' hg).elim fun H' h => ⟨_, h.step hs⟩, h3⟩
    have hold : ∀ (n : Nat) (c : κ) (r : ρ), Ev.inv n c ∈ H → Ev.ret n r ∈ H →
        ∃ gs, Moments (fun c => (code c).compile meth) m₀ (H ++ e.toList) n gs ∧
          (code c).Seen sem (gs.map (·.mem)) (.ret r) := by
      intro n c r hi hr
      obtain ⟨gs, h1, h2⟩ := ih2 n c r hi hr
      exact ⟨gs, h1.snoc, h2⟩
    have hret : e = Option.none → ∀ (n : Nat) (c : κ) (r : ρ), Ev.inv n c ∈ H ++ e.toList → Ev.ret n r ∈ H ++ e.toList →
        ∃ gs, Moments (fun c => (code c).compile meth) m₀ (H ++ e.toList) n gs ∧
          (code c).Seen sem (gs.map (·.mem)) (.ret r) := by
      rintro rfl n c r hi hn
      exact hold n c r (by simpa using hi) (by simpa using hn)
    -- one more memory for goroutine `n`
    have more : ∀ {n : Nat} {c : κ} {d d' : Client κ₀ ρ₀ σ ρ}, a.th[n]? = some (c, some d) → d.Seen sem [g.mem] d' →
        ∃ gs, Moments (fun c => (code c).compile meth) m₀ (H ++ e.toList) n gs ∧
          (∀ g'' ∈ gs, ∃ H', Later (fun c => (code c).compile meth) g'' g' H') ∧ (code c).Seen sem (gs.map (·.mem)) d' := by
      intro n c d d' hd hsee
      obtain ⟨gs, h1, h2, h3⟩ := ih1 n c d hd
      refine ⟨gs ++ [g], ⟨?_, ?_⟩, ?_, ?_⟩
      · intro g'' hg
        rcases List.mem_append.1 hg with hg | hg
        · exact (h1.1 g'' hg).snoc
        · rcases List.mem_singleton.1 hg with rfl
          exact ⟨H, h0, List.prefix_append _ _, hrel.pending hd⟩
      · rw [List.pairwise_append]
        refine ⟨h1.2, by simp, fun x hx y hy => ?_⟩
        rcases List.mem_singleton.1 hy with rfl
        exact h2 x hx
      · intro g'' hg
        rcases List.mem_append.1 hg with hg | hg
        · obtain ⟨H', h⟩ := h2 g'' hg
          exact ⟨_, h.step hs⟩
        · rcases List.mem_singleton.1 hg with rfl
          exact ⟨_, Later.refl.step hs⟩
      · rw [List.map_append]
        exact h3.trans hsee
    rcases hrel.step hm hs with ⟨x, a', h4, h5, h6, h7⟩ | ⟨rfl, h5⟩
    · refine ⟨a', h5, ?_⟩
      have hlen : g.th.length = a.th.length := hrel.len
      cases h4 with
      | @inv m th c =>
        refine ⟨?_, ?_⟩
        · intro n c' d hd
          rcases getElem?_snoc hd with hd | ⟨rfl, hd⟩
          · exact other n c' d hd
          · obtain ⟨rfl, rfl⟩ : c = c' ∧ code c = d := by simpa using hd
            exact ⟨[], ⟨by simp, .nil⟩, by simp, .refl _⟩
        · intro n d r hi hn
          have hn' : Ev.ret n r ∈ H := by simpa using hn
          obtain ⟨x, hx, _⟩ := (exec_invs h0).2 n r hn'
          rcases List.mem_append.1 hi with hi | hi
          · exact hold n d r hi hn'
          · simp only [Option.toList, List.mem_cons, Ev.inv.injEq, List.not_mem_nil, or_false] at hi
            have := (List.getElem?_eq_some_iff.1 hx).1
            simp only at hlen
            omega
      | @ret m th n c r hx =>
        refine ⟨?_, ?_⟩
        · intro i c' d hi
          rcases getElem?_set_cases hi with ⟨rfl, h⟩ | ⟨_, h2⟩
          · cases h
          · exact other i c' d h2
        · intro n' c' r' hi hn
          have hi' : Ev.inv n' c' ∈ H := by simpa using hi
          rcases List.mem_append.1 hn with hn | hn
          · exact hold n' c' r' hi' hn
          · simp only [Option.toList, List.mem_cons, Ev.ret.injEq, List.not_mem_nil, or_false] at hn
            obtain ⟨rfl, rfl⟩ := hn
            obtain ⟨gs, h1, _, h3⟩ := other _ _ _ hx
            obtain ⟨y, hy, rfl⟩ := ((exec_invs h0).1 _ _).1 hi'
            have hT := hrel.th _ _ _ hy hx
            have : y.call = c := by cases hT <;> rfl
            rw [this]
            exact ⟨gs, h1, h3⟩
      | @call m th n c x k hx =>
        refine ⟨?_, hret rfl⟩
        have hmem : m = g.mem := h6 (by simp)
        intro i c' d hi
        rcases getElem?_set_cases hi with ⟨rfl, h⟩ | ⟨_, h2⟩
        · cases h
          rw [hmem]
          exact more hx (.call (.refl _))
        · exact other i c' d h2
      | @peek m th n c k s hx _ =>
        refine ⟨?_, hret rfl⟩
        obtain ⟨n', c', k', h8, h9, _⟩ := h7 rfl rfl
        rw [h9]
        intro i c'' d hi
        rcases getElem?_set_cases hi with ⟨rfl, h⟩ | ⟨_, h2⟩
        · cases h
          exact more h8 (.peek (.refl _))
        · exact other i c'' d h2
    · exact ⟨a, h5, other, hret rfl⟩

/-! ### Invariants that the reads of a program may rely on -/

theorem Keeps.get {J : σ → Prop} {f : σ → β} {k : β → Prog σ γ} (h : ∀ s, J s → Keeps J (k (f s))) :
    Keeps J ((get f).bind k) := .read h

theorem RdOnly.keeps {J : σ → Prop} {p : Prog σ β} (h : RdOnly p) : Keeps J p := by
  induction h with
  | ret r => exact .ret r
  | read _ ih => exact .read fun s _ => ih s

theorem Keeps.withRLock {J : σ → Prop} {p : Prog σ β} (h : Keeps J p) : Keeps J (withRLock p) :=
  .rlock (h.bind fun _ => .runlock (.ret _))

theorem Keeps.withLock {J : σ → Prop} {p : Prog σ β} (h : Keeps J p) : Keeps J (withLock p) :=
  .lock (h.bind fun _ => .unlock (.ret _))

theorem exec_keeps' {code : κ → Prog σ ρ} {m₀ : σ} {J : σ → Prop} (hc : ∀ c, Keeps J (code c))
    (h₀ : J m₀) {g : Cfg κ σ ρ} {H : List (Ev κ ρ)} (h : Exec code m₀ g H) : J g.mem :=
  (exec_holds h h₀ fun _ c _ => hc c).1

/-! ### The index table -/

/-- the invariant of the index table -/
def TInv (size : U64) (t : Table α) : Prop := Inv t ∧ t.size = size

theorem keeps_addP (size : U64) (e : Entry α) : Keeps (TInv size) (addP e) := by
  refine Keeps.get fun s hs => ?_
  cases hv : IdxTable.validate s e.id with
  | error er => exact .ret _
  | ok u =>
    have hlt := (IdxTable.validate_ok_iff s e.id hs.1.1).1 hv
    rw [hs.2] at hlt
    refine Keeps.get fun s' hs' => ?_
    split
    · exact .ret _
    · refine Keeps.bind (.write ?_ (.ret _)) fun _ => .ret _
      rintro m ⟨hm, rfl⟩
      exact ⟨hm.set e.id e.data hlt, rfl⟩

theorem keeps_updateP (size : U64) (e : Entry α) : Keeps (TInv size) (updateP e) := by
  refine Keeps.get fun s hs => ?_
  cases hv : IdxTable.validate s e.id with
  | error er => exact .ret _
  | ok u =>
    have hlt := (IdxTable.validate_ok_iff s e.id hs.1.1).1 hv
    rw [hs.2] at hlt
    refine Keeps.get fun s' hs' => ?_
    split
    · exact .ret _
    · refine Keeps.bind (.write ?_ (.ret _)) fun _ => .ret _
      rintro m ⟨hm, rfl⟩
      exact ⟨hm.set e.id e.data hlt, rfl⟩

theorem keeps_deleteP (size id : U64) : Keeps (TInv (α := α) size) (deleteP id) := by
  refine Keeps.get fun s hs => ?_
  cases hv : IdxTable.validate s id with
  | error er => exact .ret _
  | ok u =>
    refine Keeps.bind (.write ?_ (.ret _)) fun _ => .ret _
    rintro m ⟨hm, rfl⟩
    refine ⟨⟨hm.1, ?_⟩, rfl⟩
    intro i e he
    simp only [GoMap.get?_del] at he
    split at he
    · cases he
    · exact hm.2 i e he

theorem keeps_addAllP (size : U64) (d : α) : ∀ ids, Keeps (TInv size) (addAllP d ids)
  | [] => .ret _
  | id :: ids => by
    refine (keeps_addP size _).bind ?_
    rintro (er | u)
    · exact .ret _
    · exact keeps_addAllP size d ids

theorem keeps_addAllEP (size : U64) (d : α) : ∀ ids es, Keeps (TInv size) (addAllEP d ids es)
  | [], _ => .ret _
  | id :: ids, es => by
    refine (keeps_addP size _).bind ?_
    rintro (er | u)
    · exact .ret _
    · exact keeps_addAllEP size d ids _

/-- the calls of the index table keep its invariant, at all moments -/
theorem keeps_inv (size : U64) (c : Call α) : Keeps (TInv size) (codeOf c) := by
  cases c with
  | release i => exact (keeps_deleteP size i).withLock.bind fun _ => .ret _
  | get id =>
    refine Keeps.bind (Keeps.withRLock ?_) fun _ => .ret _
    refine (rdOnly_validateP _).keeps.bind ?_
    rintro (er | u)
    · exact .ret _
    · refine (rdOnly_get _).keeps.bind ?_
      rintro (_ | e)
      · exact .ret _
      · exact .ret _
  | claim id d => exact (keeps_addP size _).withLock.bind fun _ => .ret _
  | claimDynamic d =>
    refine Keeps.bind (Keeps.withLock ?_) fun _ => .ret _
    refine rdOnly_iterateFreeP.keeps.bind fun free => ?_
    simp only
    split
    · refine (keeps_addP size _).bind ?_
      rintro (er | u)
      · exact .ret _
      · exact .ret _
    · exact .ret _
  | claimRange start n d =>
    refine Keeps.bind (Keeps.withLock ?_) fun _ => .ret _
    refine (rdOnly_findFreeRangeP _ _).keeps.bind ?_
    rintro (er | u)
    · exact .ret _
    · exact keeps_addAllP size _ _
  | claimSize n d =>
    refine Keeps.bind (Keeps.withLock ?_) fun _ => .ret _
    refine (rdOnly_findFreeSizeP _).keeps.bind ?_
    rintro (er | u)
    · exact .ret _
    · exact keeps_addAllEP size _ _ _
  | update id d => exact (keeps_updateP size _).withLock.bind fun _ => .ret _
  | iterate => exact rdOnly_iterateP.keeps.withRLock.bind fun _ => .ret _
  | iterateFree => exact rdOnly_iterateFreeP.keeps.withRLock.bind fun _ => .ret _
  | size => exact (rdOnly_get _).keeps.withRLock.bind fun _ => .ret _
  | has id => exact (rdOnly_get _).keeps.withRLock.bind fun _ => .ret _
  | isFree id => exact (rdOnly_get _).keeps.withRLock.bind fun _ => .ret _
  | findFree =>
    refine Keeps.bind (Keeps.bind rdOnly_iterateFreeP.keeps.withRLock ?_) fun _ => .ret _
    intro free
    simp only
    split <;> exact .ret _
  | findFreeRange start n => exact (rdOnly_findFreeRangeP _ _).keeps.withRLock.bind fun _ => .ret _
  | findFreeSize n => exact (rdOnly_findFreeSizeP _).keeps.withRLock.bind fun _ => .ret _
  | getAll =>
    refine Keeps.bind (Keeps.withRLock ?_) fun _ => .ret _
    refine (rdOnly_get _).keeps.bind fun _ => ?_
    exact Keeps.bind rdOnly_iterateP.keeps.withRLock fun _ => (rdOnly_collectP _ _ _).keeps

theorem Client.keeps {J : σ → Prop} {meth : κ₀ → Prog σ ρ₀} (h : ∀ c, Keeps J (meth c)) :
    ∀ d : Client κ₀ ρ₀ σ ρ, Keeps J (d.compile meth)
  | .ret r => .ret r
  | .call c k => (h c).bind fun r => Client.keeps h (k r)
  | .peek k => .read fun s _ => Client.keeps h (k s)

/-- whatever clients do, the invariant of the index table holds at all moments -/
theorem exec_inv {size : U64} (hsize : size ≠ 0) {code : κ → Client (Call α) (Reply α) (Table α) ρ}
    {g : Cfg κ (Table α) ρ} {H} (h : Exec (fun c => (code c).compile codeOf) (newTable size) g H) :
    Inv g.mem ∧ g.mem.size = size :=
  exec_keeps' (J := TInv size) (fun c => Client.keeps (keeps_inv size) (code c))
    ⟨IdxTable.newTable_inv size hsize, rfl⟩ h

end Verif.Conc
