import Verif.Conc.Seen
import Verif.Conc.Tables

/-!
Property C125: how often the calls of the index table, the ranged tables and the IP table access the table, in every
execution. An access is an action of the programs in `Model.lean` and `Tables.lean`: one lookup in the map, one change of it, or
one read of the size. (`for key := range r.table` counts as one.)
-/

namespace Verif.Conc
open Verif.IdxTable (U64 Table Entry Call Reply Iter Err)

/-! ### Specification -/

section
variable {κ σ ρ : Type}

/-- the step from `g` to `g'` is an access of call number `n` to the memory -/
def Touch (g g' : Cfg κ σ ρ) (n : Nat) : Prop :=
  ∃ x y, g.th[n]? = some x ∧ x.Accesses ∧ g'.th[n]? = some y ∧ y.prog ≠ x.prog

/-- executions in which the memory always has the property `J`, and the number of accesses of call number `n` -/
inductive Counted (code : κ → Prog σ ρ) (m₀ : σ) (J : σ → Prop) (n : Nat) : Cfg κ σ ρ → Nat → Prop
  | init : Counted code m₀ J n ⟨m₀, []⟩ 0
  | touch {g a e g'} : Counted code m₀ J n g a → J g.mem → Step code g e g' → Touch g g' n → Counted code m₀ J n g' (a + 1)
  | other {g a e g'} : Counted code m₀ J n g a → J g.mem → Step code g e g' → ¬ Touch g g' n → Counted code m₀ J n g' a

end

/-- a bound on the number of accesses of a call of an index table with `N` ids, at most `K` of them claimed -/
def mostIdx {α : Type} (N K : Nat) : Call α → Nat
  | .size | .has _ | .isFree _ | .iterate => 1
  | .get _ | .release _ => 2
  | .claim _ _ | .update _ _ => 3
  | .iterateFree | .findFree => N + 1
  | .findFreeRange _ _ | .findFreeSize _ => N + 2
  | .claimDynamic _ => N + 4
  | .claimRange _ _ _ | .claimSize _ _ => 4 * N + 5
  | .getAll => K + 3

/-- the same for a ranged table -/
def mostRanged {L : Type} (N K : Nat) : Ranged.RCall L → Nat
  | .size | .has _ | .isFree _ => 1
  | .get _ | .release _ => 2
  | .update _ _ => 3
  | .claim _ _ => 4
  | .findFree => N + 1
  | .claimFree _ => N + 5
  | .getAll => K + 4
  | .getByLabel _ => K + 3

/-- the same for an IP table -/
def mostIP {R : Type} (N K : Nat) : IPTable.ICall R → Nat
  | .size | .has _ | .isFree _ => 1
  | .get _ | .release _ => 2
  | .update _ _ | .claim _ _ => 4
  | .findFree => N + 1
  | .getAll => K + 3
  | .getByLabel _ => 2 * K + 3

/-! ### Runs of a program, whatever the memory is at each access -/

section
variable {κ κ₀ σ ρ ρ₀ β : Type}

/-- the program returns `r` after `n` accesses, all of them to memories with the property `J` -/
inductive Takes (J : σ → Prop) : Prog σ ρ → ρ → Nat → Prop
  | ret (r) : Takes J (.ret r) r 0
  | read {k s r n} : J s → Takes J (k s) r n → Takes J (.read k) r (n + 1)
  | write {w k r n} : Takes J k r n → Takes J (.write w k) r (n + 1)
  | rlock {k r n} : Takes J k r n → Takes J (.rlock k) r n
  | runlock {k r n} : Takes J k r n → Takes J (.runlock k) r n
  | lock {k r n} : Takes J k r n → Takes J (.lock k) r n
  | unlock {k r n} : Takes J k r n → Takes J (.unlock k) r n

theorem takes_exists {J : σ → Prop} {s : σ} (hs : J s) (p : Prog σ ρ) : ∃ r n, Takes J p r n := by
  induction p with
  | ret r => exact ⟨r, 0, .ret r⟩
  | read k ih => obtain ⟨r, n, h⟩ := ih s; exact ⟨r, n + 1, .read hs h⟩
  | write w k ih => obtain ⟨r, n, h⟩ := ih; exact ⟨r, n + 1, .write h⟩
  | rlock k ih => obtain ⟨r, n, h⟩ := ih; exact ⟨r, n, .rlock h⟩
  | runlock k ih => obtain ⟨r, n, h⟩ := ih; exact ⟨r, n, .runlock h⟩
  | lock k ih => obtain ⟨r, n, h⟩ := ih; exact ⟨r, n, .lock h⟩
  | unlock k ih => obtain ⟨r, n, h⟩ := ih; exact ⟨r, n, .unlock h⟩

theorem takes_bind {J : σ → Prop} {p : Prog σ β} {f : β → Prog σ ρ} {r : ρ} : ∀ {n : Nat}, Takes J (p.bind f) r n →
    ∃ x a b, Takes J p x a ∧ Takes J (f x) r b ∧ n = a + b := by
  induction p with
  | ret x => exact fun h => ⟨x, 0, _, .ret x, h, by omega⟩
  | read k ih =>
    intro n h
    cases h with
    | read hs h => obtain ⟨x, a, b, h1, h2, rfl⟩ := ih _ h; exact ⟨x, a + 1, b, .read hs h1, h2, by omega⟩
  | write w k ih =>
    intro n h
    cases h with
    | write h => obtain ⟨x, a, b, h1, h2, rfl⟩ := ih h; exact ⟨x, a + 1, b, .write h1, h2, by omega⟩
  | rlock k ih => intro n h; cases h with | rlock h => obtain ⟨x, a, b, h1, h2, e⟩ := ih h; exact ⟨x, a, b, .rlock h1, h2, e⟩
  | runlock k ih => intro n h; cases h with | runlock h => obtain ⟨x, a, b, h1, h2, e⟩ := ih h; exact ⟨x, a, b, .runlock h1, h2, e⟩
  | lock k ih => intro n h; cases h with | lock h => obtain ⟨x, a, b, h1, h2, e⟩ := ih h; exact ⟨x, a, b, .lock h1, h2, e⟩
  | unlock k ih => intro n h; cases h with | unlock h => obtain ⟨x, a, b, h1, h2, e⟩ := ih h; exact ⟨x, a, b, .unlock h1, h2, e⟩

theorem takes_ret {J : σ → Prop} {x r : ρ} {n : Nat} (h : Takes J (.ret x : Prog σ ρ) r n) : r = x ∧ n = 0 := by
  cases h; exact ⟨rfl, rfl⟩

theorem takes_get {J : σ → Prop} {f : σ → β} {x : β} {n : Nat} (h : Takes J (get f) x n) : n = 1 ∧ ∃ s, J s ∧ x = f s := by
  cases h with
  | read hs h => obtain ⟨rfl, rfl⟩ := takes_ret h; exact ⟨rfl, _, hs, rfl⟩

theorem takes_put {J : σ → Prop} {w : σ → σ} {x : Unit} {n : Nat} (h : Takes J (put w) x n) : n = 1 := by
  cases h with
  | write h => obtain ⟨_, rfl⟩ := takes_ret h; rfl

theorem takes_withRLock {J : σ → Prop} {p : Prog σ β} {x : β} {n : Nat} (h : Takes J (withRLock p) x n) : Takes J p x n := by
  cases h with
  | rlock h =>
    obtain ⟨y, a, b, h1, h2, rfl⟩ := takes_bind h
    cases h2 with
    | runlock h2 => obtain ⟨rfl, rfl⟩ := takes_ret h2; exact h1

theorem takes_withLock {J : σ → Prop} {p : Prog σ β} {x : β} {n : Nat} (h : Takes J (withLock p) x n) : Takes J p x n := by
  cases h with
  | lock h =>
    obtain ⟨y, a, b, h1, h2, rfl⟩ := takes_bind h
    cases h2 with
    | unlock h2 => obtain ⟨rfl, rfl⟩ := takes_ret h2; exact h1

/-- a call followed by something that makes no access -/
theorem takes_map {J : σ → Prop} {p : Prog σ β} {f : β → ρ} {r : ρ} {n : Nat} (h : Takes J (p.bind fun x => .ret (f x)) r n) :
    ∃ x, Takes J p x n ∧ r = f x := by
  obtain ⟨x, a, b, h1, h2, rfl⟩ := takes_bind h
  obtain ⟨rfl, rfl⟩ := takes_ret h2
  exact ⟨x, h1, rfl⟩

/-! ### Executions -/

theorem prog_ne_read (m : σ) : ∀ (p : Prog σ ρ) (k : σ → Prog σ ρ), p = k m → p ≠ .read k := by
  intro p
  induction p with
  | read k' ih =>
    rintro k h e
    injection e with e
    subst e
    exact ih m k' rfl h.symm
  | _ => intro k _ e; cases e

theorem prog_ne_write (w : σ → σ) : ∀ p : Prog σ ρ, p ≠ .write w p := by
  intro p
  induction p with
  | write w' k ih => intro e; injection e with e1 e2; subst e1; exact ih e2
  | _ => intro e; cases e

theorem counted_exec {code : κ → Prog σ ρ} {m₀ : σ} {J : σ → Prop} {n : Nat} {g : Cfg κ σ ρ} {a : Nat} (h : Counted code m₀ J n g a) :
    ∃ H, Exec code m₀ g H := by
  induction h with
  | init => exact ⟨_, .init⟩
  | touch _ _ hs _ ih => obtain ⟨H, ih⟩ := ih; exact ⟨_, .step ih hs⟩
  | other _ _ hs _ ih => obtain ⟨H, ih⟩ := ih; exact ⟨_, .step ih hs⟩

/-- what remains of a call, after `a` accesses -/
def Left (J : σ → Prop) (code : κ → Prog σ ρ) (a : Nat) (x : Thread κ σ ρ) : Prop :=
  (∀ p, x.prog = some p → ∀ r j, Takes J p r j → Takes J (code x.call) r (a + j)) ∧
  (x.prog = none → ∃ r, Takes J (code x.call) r a)

theorem counted_left {code : κ → Prog σ ρ} {m₀ : σ} {J J' : σ → Prop} {n : Nat} {g : Cfg κ σ ρ} {a : Nat} (h : Counted code m₀ J n g a)
    (hJ : ∀ g H, Exec code m₀ g H → J g.mem → J' g.mem) :
    (∀ x, g.th[n]? = some x → Left J' code a x) ∧ (g.th[n]? = none → a = 0) := by
  have main : ∀ {g : Cfg κ σ ρ} {a : Nat} {e} {g' : Cfg κ σ ρ}, J' g.mem → Step code g e g' →
      ((∀ x, g.th[n]? = some x → Left J' code a x) ∧ (g.th[n]? = none → a = 0)) →
      (Touch g g' n → (∀ x, g'.th[n]? = some x → Left J' code (a + 1) x) ∧ (g'.th[n]? = none → a + 1 = 0)) ∧
      (¬ Touch g g' n → (∀ x, g'.th[n]? = some x → Left J' code a x) ∧ (g'.th[n]? = none → a = 0)) := by
    intro g a e g' hm hs ⟨h1, h2⟩
    -- a step of another call
    have same : g'.th[n]? = g.th[n]? →
        (Touch g g' n → (∀ x, g'.th[n]? = some x → Left J' code (a + 1) x) ∧ (g'.th[n]? = none → a + 1 = 0)) ∧
        (¬ Touch g g' n → (∀ x, g'.th[n]? = some x → Left J' code a x) ∧ (g'.th[n]? = none → a = 0)) := by
      intro e
      refine ⟨?_, fun _ => by rw [e]; exact ⟨h1, h2⟩⟩
      rintro ⟨x, y, e1, _, e3, e4⟩
      rw [e, e1] at e3
      cases e3
      exact absurd rfl e4
    -- a step of this call that is no access
    have silent : ∀ {x y : Thread κ σ ρ}, g.th[n]? = some x → g'.th[n]? = some y → ¬ x.Accesses → Left J' code a y →
        (Touch g g' n → (∀ x, g'.th[n]? = some x → Left J' code (a + 1) x) ∧ (g'.th[n]? = none → a + 1 = 0)) ∧
        (¬ Touch g g' n → (∀ x, g'.th[n]? = some x → Left J' code a x) ∧ (g'.th[n]? = none → a = 0)) := by
      intro x y ex ey hx hy
      refine ⟨?_, fun _ => ⟨?_, ?_⟩⟩
      · rintro ⟨x', _, e1, e2, _⟩
        rw [ex] at e1
        cases e1
        exact absurd e2 hx
      · intro z ez; rw [ey] at ez; cases ez; exact hy
      · intro ez; rw [ey] at ez; cases ez
    -- an access of this call
    have access : ∀ {x y : Thread κ σ ρ}, g.th[n]? = some x → g'.th[n]? = some y → x.Accesses → y.prog ≠ x.prog → Left J' code (a + 1) y →
        (Touch g g' n → (∀ x, g'.th[n]? = some x → Left J' code (a + 1) x) ∧ (g'.th[n]? = none → a + 1 = 0)) ∧
        (¬ Touch g g' n → (∀ x, g'.th[n]? = some x → Left J' code a x) ∧ (g'.th[n]? = none → a = 0)) := by
      intro x y ex ey hx hne hy
      refine ⟨fun _ => ⟨?_, ?_⟩, fun h => absurd ⟨x, y, ex, hx, ey, hne⟩ h⟩
      · intro z ez; rw [ey] at ez; cases ez; exact hy
      · intro ez; rw [ey] at ez; cases ez
    have at' : ∀ {th : List (Thread κ σ ρ)} {i : Nat} {x y : Thread κ σ ρ}, th[i]? = some x → (th.set i y)[i]? = some y := by
      intro th i x y h
      rw [List.getElem?_set_self (List.getElem?_eq_some_iff.1 h).1]
    have ne' : ∀ {th : List (Thread κ σ ρ)} {i : Nat} {y : Thread κ σ ρ}, i ≠ n → (th.set i y)[n]? = th[n]? := by
      intro th i y h
      rw [List.getElem?_set_ne h]
    have nacc : ∀ {x : Thread κ σ ρ} {p : Prog σ ρ}, x.prog = some p → (∀ k, p ≠ .read k) → (∀ w k, p ≠ .write w k) → ¬ x.Accesses := by
      rintro x p e h1 h2 (⟨k, h⟩ | ⟨w, k, h⟩)
      · rw [e] at h; cases h; exact h1 k rfl
      · rw [e] at h; cases h; exact h2 w k rfl
    cases hs with
    | @inv m th c =>
      by_cases hn : n < th.length
      · exact same (List.getElem?_append_left hn)
      · have e0 : th[n]? = none := List.getElem?_eq_none (by omega)
        obtain rfl := h2 e0
        refine ⟨?_, fun _ => ⟨?_, fun _ => rfl⟩⟩
        · rintro ⟨x, _, e1, _⟩
          rw [show th[n]? = some x from e1] at e0
          cases e0
        · intro x hx
          have hx : (th ++ [⟨c, some (code c), 0, .none⟩])[n]? = some x := hx
          rw [List.getElem?_append_right (by omega)] at hx
          have := List.mem_of_getElem? hx
          rw [List.mem_singleton.1 this]
          refine ⟨?_, fun h => by cases h⟩
          rintro p ⟨⟩ r j hj
          rw [Nat.zero_add]
          exact hj
    | @ret m th i c r rd wr hi =>
      by_cases hn : i = n
      · subst hn
        refine silent hi (at' hi) (nacc rfl (by simp) (by simp)) ⟨fun p h => (by cases h), fun _ => ⟨r, ?_⟩⟩
        exact (h1 _ hi).1 _ rfl r 0 (.ret r)
      · exact same (ne' hn)
    | @read m th i c k rd wr hi =>
      by_cases hn : i = n
      · subst hn
        refine access hi (at' hi) (.inl ⟨k, rfl⟩) (fun e => prog_ne_read m _ k rfl (by injection e)) ⟨?_, fun h => by cases h⟩
        rintro p ⟨⟩ r j hj
        have := (h1 _ hi).1 _ rfl r (j + 1) (.read hm hj)
        rwa [show a + 1 + j = a + (j + 1) by omega]
      · exact same (ne' hn)
    | @write m th i c w k rd wr hi =>
      by_cases hn : i = n
      · subst hn
        refine access hi (at' hi) (.inr ⟨w, k, rfl⟩) (fun e => prog_ne_write w k (by injection e)) ⟨?_, fun h => by cases h⟩
        rintro p ⟨⟩ r j hj
        have := (h1 _ hi).1 _ rfl r (j + 1) (.write hj)
        rwa [show a + 1 + j = a + (j + 1) by omega]
      · exact same (ne' hn)
    | @rlock m th i c k rd wr hi _ =>
      by_cases hn : i = n
      · subst hn
        refine silent hi (at' hi) (nacc rfl (by simp) (by simp)) ⟨?_, fun h => by cases h⟩
        rintro p ⟨⟩ r j hj
        exact (h1 _ hi).1 _ rfl r j (.rlock hj)
      · exact same (ne' hn)
    | @runlock m th i c k rd wr hi =>
      by_cases hn : i = n
      · subst hn
        refine silent hi (at' hi) (nacc rfl (by simp) (by simp)) ⟨?_, fun h => by cases h⟩
        rintro p ⟨⟩ r j hj
        exact (h1 _ hi).1 _ rfl r j (.runlock hj)
      · exact same (ne' hn)
    | @wait m th i c k rd hi _ =>
      by_cases hn : i = n
      · subst hn
        refine silent hi (at' hi) (nacc rfl (by simp) (by simp)) ⟨?_, fun h => by cases h⟩
        rintro p ⟨⟩ r j hj
        exact (h1 _ hi).1 _ rfl r j hj
      · exact same (ne' hn)
    | @lock m th i c k rd hi _ =>
      by_cases hn : i = n
      · subst hn
        refine silent hi (at' hi) (nacc rfl (by simp) (by simp)) ⟨?_, fun h => by cases h⟩
        rintro p ⟨⟩ r j hj
        exact (h1 _ hi).1 _ rfl r j (.lock hj)
      · exact same (ne' hn)
    | @unlock m th i c k rd hi =>
      by_cases hn : i = n
      · subst hn
        refine silent hi (at' hi) (nacc rfl (by simp) (by simp)) ⟨?_, fun h => by cases h⟩
        rintro p ⟨⟩ r j hj
        exact (h1 _ hi).1 _ rfl r j (.unlock hj)
      · exact same (ne' hn)
  induction h with
  | init => exact ⟨by simp, fun _ => rfl⟩
  | touch hc hm hs ht ih =>
    obtain ⟨H, he⟩ := counted_exec hc
    exact (main (hJ _ _ he hm) hs ih).1 ht
  | other hc hm hs ht ih =>
    obtain ⟨H, he⟩ := counted_exec hc
    exact (main (hJ _ _ he hm) hs ih).2 ht

end

/-! ### The index table -/

section
variable {α : Type}

/-- a table with `N` ids, at most `K` of them claimed -/
def Sized (N K : Nat) (t : Table α) : Prop := t.size.toNat = N ∧ t.m.len ≤ K

variable {N K n : Nat}

theorem takes_addP {J : Table α → Prop} {e : Entry α} {x} (h : Takes J (addP e) x n) : n ≤ 3 := by
  obtain ⟨v, a, b, h1, h2, rfl⟩ := takes_bind h
  have := (takes_get h1).1
  cases v with
  | error er => have := (takes_ret h2).2; omega
  | ok u =>
    obtain ⟨v, a', b', h3, h4, rfl⟩ := takes_bind h2
    have := (takes_get h3).1
    cases v with
    | false => have := (takes_ret h4).2; omega
    | true =>
      obtain ⟨_, a2, b2, h5, h6, rfl⟩ := takes_bind h4
      have := takes_put h5
      have := (takes_ret h6).2
      omega

theorem takes_updateP {J : Table α → Prop} {e : Entry α} {x} (h : Takes J (updateP e) x n) : n ≤ 3 := by
  obtain ⟨v, a, b, h1, h2, rfl⟩ := takes_bind h
  have := (takes_get h1).1
  cases v with
  | error er => have := (takes_ret h2).2; omega
  | ok u =>
    obtain ⟨v, a', b', h3, h4, rfl⟩ := takes_bind h2
    have := (takes_get h3).1
    cases v with
    | true => have := (takes_ret h4).2; omega
    | false =>
      obtain ⟨_, a2, b2, h5, h6, rfl⟩ := takes_bind h4
      have := takes_put h5
      have := (takes_ret h6).2
      omega

theorem takes_deleteP {J : Table α → Prop} {id : U64} {x} (h : Takes J (deleteP id) x n) : n ≤ 2 := by
  obtain ⟨v, a, b, h1, h2, rfl⟩ := takes_bind h
  have := (takes_get h1).1
  cases v with
  | error er => have := (takes_ret h2).2; omega
  | ok u =>
    obtain ⟨_, a2, b2, h5, h6, rfl⟩ := takes_bind h2
    have := takes_put h5
    have := (takes_ret h6).2
    omega

theorem takes_freeKeysP {J : Table α → Prop} : ∀ (m i : Nat) (acc ks : List U64) (n : Nat), Takes J (freeKeysP m i acc) ks n →
    n = m ∧ ks.length ≤ acc.length + m := by
  intro m
  induction m with
  | zero =>
    intro i acc ks n h
    obtain ⟨rfl, rfl⟩ := takes_ret h
    exact ⟨rfl, by omega⟩
  | succ m ih =>
    intro i acc ks n h
    obtain ⟨v, a, b, h1, h2, rfl⟩ := takes_bind h
    have := (takes_get h1).1
    cases v with
    | true =>
      have := ih _ _ _ _ h2
      simp only [List.length_append, List.length_singleton] at this
      omega
    | false =>
      have := ih _ _ _ _ h2
      omega

theorem takes_iterateFreeP {it : Iter} (h : Takes (Sized (α := α) N K) iterateFreeP it n) : n = N + 1 ∧ it.keys.length ≤ N := by
  obtain ⟨v, a, b, h1, h2, rfl⟩ := takes_bind h
  obtain ⟨rfl, s, hs, rfl⟩ := takes_get h1
  obtain ⟨ks, a', b', h3, h4, rfl⟩ := takes_bind h2
  obtain ⟨rfl, rfl⟩ := takes_ret h4
  have := takes_freeKeysP _ _ _ _ _ h3
  have e := hs.1
  simp only [List.length_nil] at this
  refine ⟨by omega, ?_⟩
  show (IdxTable.sortKeys ks).length ≤ N
  rw [(IdxTable.sortKeys_perm _).length_eq]
  omega

theorem takes_iterateP {it : Iter} (h : Takes (Sized (α := α) N K) iterateP it n) : n = 1 ∧ it.keys.length ≤ K := by
  obtain ⟨v, a, b, h1, h2, rfl⟩ := takes_bind h
  obtain ⟨rfl, s, hs, rfl⟩ := takes_get h1
  obtain ⟨rfl, rfl⟩ := takes_ret h2
  refine ⟨rfl, ?_⟩
  show (IdxTable.sortKeys s.m.keys).length ≤ K
  rw [(IdxTable.sortKeys_perm _).length_eq, ← GoMap.len_eq_keys_length]
  exact hs.2

theorem findFreeRangeLoop_length (start stop : U64) : ∀ (fuel : Nat) (it : Iter) (es ids : List U64),
    IdxTable.findFreeRangeLoop start stop fuel it es = .ok ids → ids.length ≤ es.length + fuel := by
  intro fuel
  induction fuel with
  | zero => intro it es ids h; cases h
  | succ fuel ih =>
    intro it es ids h
    rw [IdxTable.findFreeRangeLoop] at h
    simp only at h
    split at h
    · split at h
      · have := ih _ _ _ h; omega
      split at h
      · have := ih _ _ _ h
        simp only [List.length_append, List.length_singleton] at this
        omega
      split at h
      · split at h
        · cases h
        · have := ih _ _ _ h
          simp only [List.length_append, List.length_singleton] at this
          omega
      · injection h with h
        rw [← h]
        simp only [List.length_append, List.length_singleton]
        omega
    · cases h

theorem findFreeSizeLoop_length (size : U64) : ∀ (fuel : Nat) (it : Iter) (i : U64) (es ids : List U64),
    IdxTable.findFreeSizeLoop size fuel it i es = .ok ids → ids.length ≤ es.length + fuel := by
  intro fuel
  induction fuel with
  | zero => intro it i es ids h; cases h
  | succ fuel ih =>
    intro it i es ids h
    rw [IdxTable.findFreeSizeLoop] at h
    simp only at h
    split at h
    · split at h
      · injection h with h
        rw [← h]
        simp only [List.length_append, List.length_singleton]
        omega
      · have := ih _ _ _ _ h
        simp only [List.length_append, List.length_singleton] at this
        omega
    · cases h

theorem takes_findFreeRangeP {start size : U64} {x} (h : Takes (Sized (α := α) N K) (findFreeRangeP start size) x n) :
    n ≤ N + 2 ∧ ∀ ids, x = .ok ids → ids.length ≤ N + 1 := by
  obtain ⟨v, a, b, h1, h2, rfl⟩ := takes_bind h
  have := (takes_get h1).1
  split at h2
  · obtain ⟨rfl, h2⟩ := takes_ret h2
    exact ⟨by omega, fun ids h => by cases h⟩
  split at h2
  · obtain ⟨rfl, h2⟩ := takes_ret h2
    exact ⟨by omega, fun ids h => by cases h⟩
  · obtain ⟨it, h3, rfl⟩ := takes_map h2
    have := takes_iterateFreeP h3
    refine ⟨by omega, fun ids h => ?_⟩
    have := findFreeRangeLoop_length _ _ _ _ _ _ h
    simp only [List.length_nil] at this
    omega

theorem takes_findFreeSizeP {size : U64} {x} (h : Takes (Sized (α := α) N K) (findFreeSizeP size) x n) :
    n ≤ N + 2 ∧ ∀ ids, x = .ok ids → ids.length ≤ N + 1 := by
  obtain ⟨v, a, b, h1, h2, rfl⟩ := takes_bind h
  have := (takes_get h1).1
  split at h2
  · obtain ⟨rfl, h2⟩ := takes_ret h2
    exact ⟨by omega, fun ids h => by cases h⟩
  · obtain ⟨it, h3, rfl⟩ := takes_map h2
    have := takes_iterateFreeP h3
    refine ⟨by omega, fun ids h => ?_⟩
    have := findFreeSizeLoop_length _ _ _ _ _ _ h
    simp only [List.length_nil] at this
    omega

theorem takes_addAllP {J : Table α → Prop} {d : α} : ∀ (ids : List U64) {x} (n : Nat), Takes J (addAllP d ids) x n → n ≤ 3 * ids.length := by
  intro ids
  induction ids with
  | nil => intro x n h; have := (takes_ret h).2; omega
  | cons id ids ih =>
    intro x n h
    obtain ⟨v, a, b, h1, h2, rfl⟩ := takes_bind h
    have := takes_addP h1
    rw [List.length_cons]
    cases v with
    | error er => have := (takes_ret h2).2; omega
    | ok u => have := ih _ h2; omega

theorem takes_addAllEP {J : Table α → Prop} {d : α} : ∀ (ids : List U64) (es : List (Entry α)) {x} (n : Nat),
    Takes J (addAllEP d ids es) x n → n ≤ 3 * ids.length := by
  intro ids
  induction ids with
  | nil => intro es x n h; have := (takes_ret h).2; omega
  | cons id ids ih =>
    intro es x n h
    obtain ⟨v, a, b, h1, h2, rfl⟩ := takes_bind h
    have := takes_addP h1
    rw [List.length_cons]
    cases v with
    | error er => have := (takes_ret h2).2; omega
    | ok u => have := ih _ _ h2; omega

theorem takes_collectP {J : Table α → Prop} : ∀ (fuel : Nat) (it : Iter) (acc : List (Option (Entry α))) {x} (n : Nat),
    Takes J (collectP fuel it acc) x n → n ≤ fuel := by
  intro fuel
  induction fuel with
  | zero => intro it acc x n h; have := (takes_ret h).2; omega
  | succ fuel ih =>
    intro it acc x n h
    rw [collectP] at h
    split at h
    · obtain ⟨v, a, b, h1, h2, rfl⟩ := takes_bind h
      have := (takes_get h1).1
      have := ih _ _ _ h2
      omega
    · have := (takes_ret h).2; omega

theorem takes_findFree {r : Reply α} (h : Takes (Sized (α := α) N K) (codeOf .findFree) r n) : n = N + 1 := by
  obtain ⟨x, h, _⟩ := takes_map h
  obtain ⟨it, a, b, h1, h2, rfl⟩ := takes_bind h
  have := takes_iterateFreeP (takes_withRLock h1)
  dsimp only at h2
  split at h2 <;> have := (takes_ret h2).2 <;> omega

theorem takes_claimDynamic {d : α} {r : Reply α} (h : Takes (Sized (α := α) N K) (codeOf (.claimDynamic d)) r n) : N + 1 ≤ n ∧ n ≤ N + 4 := by
  obtain ⟨x, h, _⟩ := takes_map h
  obtain ⟨it, a, b, h1, h2, rfl⟩ := takes_bind (takes_withLock h)
  have := takes_iterateFreeP h1
  dsimp only at h2
  split at h2
  · obtain ⟨v, a', b', h3, h4, rfl⟩ := takes_bind h2
    have := takes_addP h3
    cases v with
    | error er => have := (takes_ret h4).2; omega
    | ok u => have := (takes_ret h4).2; omega
  · have := (takes_ret h2).2; omega

theorem drainLoop_length : ∀ (fuel : Nat) (it : Iter) (acc : List U64), (IdxTable.Iter.drainLoop fuel it acc).length ≤ acc.length + fuel := by
  intro fuel
  induction fuel with
  | zero => intro it acc; exact Nat.le_refl _
  | succ fuel ih =>
    intro it acc
    rw [IdxTable.Iter.drainLoop]
    split
    · have := ih it.advance (acc ++ [it.advance.id ‹_›])
      simp only [List.length_append, List.length_singleton] at this
      exact Nat.le_trans this (by omega)
    · omega

theorem takes_iterate {r : Reply α} (h : Takes (Sized (α := α) N K) (codeOf .iterate) r n) :
    n = 1 ∧ ∀ ks, r = .ids ks → ks.length ≤ K + 1 := by
  obtain ⟨it, h', rfl⟩ := takes_map h
  have h2 := takes_iterateP (takes_withRLock h')
  refine ⟨h2.1, ?_⟩
  rintro ks ⟨⟩
  have := drainLoop_length (it.keys.length + 1) it []
  simp only [List.length_nil] at this
  exact Nat.le_trans this (by omega)

theorem takes_idx (c : Call α) {r : Reply α} (h : Takes (Sized (α := α) N K) (codeOf c) r n) : n ≤ mostIdx N K c := by
  cases c with
  | get id =>
    obtain ⟨x, h, _⟩ := takes_map h
    obtain ⟨v, a, b, h1, h2, rfl⟩ := takes_bind (takes_withRLock h)
    have := (takes_get h1).1
    show _ ≤ 2
    cases v with
    | error er => have := (takes_ret h2).2; omega
    | ok u =>
      obtain ⟨v, a', b', h3, h4, rfl⟩ := takes_bind h2
      have := (takes_get h3).1
      cases v with
      | none => have := (takes_ret h4).2; omega
      | some e => have := (takes_ret h4).2; omega
  | claim id d => obtain ⟨x, h, _⟩ := takes_map h; exact takes_addP (takes_withLock h)
  | claimDynamic d => exact (takes_claimDynamic h).2
  | claimRange start m d =>
    obtain ⟨x, h, _⟩ := takes_map h
    obtain ⟨v, a, b, h1, h2, rfl⟩ := takes_bind (takes_withLock h)
    have h3 := takes_findFreeRangeP h1
    show _ ≤ 4 * N + 5
    cases v with
    | error er => have := (takes_ret h2).2; omega
    | ok ids => have := takes_addAllP _ _ h2; have := h3.2 _ rfl; omega
  | claimSize m d =>
    obtain ⟨x, h, _⟩ := takes_map h
    obtain ⟨v, a, b, h1, h2, rfl⟩ := takes_bind (takes_withLock h)
    have h3 := takes_findFreeSizeP h1
    show _ ≤ 4 * N + 5
    cases v with
    | error er => have := (takes_ret h2).2; omega
    | ok ids => have := takes_addAllEP _ _ _ h2; have := h3.2 _ rfl; omega
  | release id => obtain ⟨x, h, _⟩ := takes_map h; exact takes_deleteP (takes_withLock h)
  | update id d => obtain ⟨x, h, _⟩ := takes_map h; exact takes_updateP (takes_withLock h)
  | iterate => exact Nat.le_of_eq (takes_iterate h).1
  | iterateFree =>
    obtain ⟨x, h, _⟩ := takes_map h
    exact Nat.le_of_eq (takes_iterateFreeP (takes_withRLock h)).1
  | size => obtain ⟨x, h, _⟩ := takes_map h; exact Nat.le_of_eq (takes_get (takes_withRLock h)).1
  | has id => obtain ⟨x, h, _⟩ := takes_map h; exact Nat.le_of_eq (takes_get (takes_withRLock h)).1
  | isFree id => obtain ⟨x, h, _⟩ := takes_map h; exact Nat.le_of_eq (takes_get (takes_withRLock h)).1
  | findFree => exact Nat.le_of_eq (takes_findFree h)
  | findFreeRange start m => obtain ⟨x, h, _⟩ := takes_map h; exact (takes_findFreeRangeP (takes_withRLock h)).1
  | findFreeSize m => obtain ⟨x, h, _⟩ := takes_map h; exact (takes_findFreeSizeP (takes_withRLock h)).1
  | getAll =>
    obtain ⟨x, h, _⟩ := takes_map h
    obtain ⟨v, a, b, h1, h2, rfl⟩ := takes_bind (takes_withRLock h)
    have := (takes_get h1).1
    obtain ⟨it, a', b', h3, h4, rfl⟩ := takes_bind h2
    have := takes_iterateP (takes_withRLock h3)
    have := takes_collectP _ _ _ _ h4
    show _ ≤ K + 3
    omega

end

/-! ### The ranged tables and the IP table -/

section
variable {α ρ : Type} {N K n : Nat}

theorem takes_call {c : Call α} {k : Reply α → Client (Call α) (Reply α) (Table α) ρ} {r : ρ}
    (h : Takes (Sized (α := α) N K) ((Client.call c k).compile codeOf) r n) :
    ∃ x a b, Takes (Sized (α := α) N K) (codeOf c) x a ∧ a ≤ mostIdx N K c ∧ Takes (Sized (α := α) N K) ((k x).compile codeOf) r b ∧ n = a + b := by
  obtain ⟨x, a, b, h1, h2, e⟩ := takes_bind h
  exact ⟨x, a, b, h1, takes_idx c h1, h2, e⟩

/-- a call followed by a reply -/
theorem takes_last {c : Call α} {k : Reply α → Client (Call α) (Reply α) (Table α) ρ} (hk : ∀ x, ∃ y, k x = .ret y) {r : ρ}
    (h : Takes (Sized (α := α) N K) ((Client.call c k).compile codeOf) r n) : n ≤ mostIdx N K c ∧ ∃ x, Takes (Sized (α := α) N K) (codeOf c) x n := by
  obtain ⟨x, a, b, h1, h2, h3, rfl⟩ := takes_call h
  obtain ⟨y, hy⟩ := hk x
  rw [hy] at h3
  have := (takes_ret h3).2
  subst this
  exact ⟨h2, x, h1⟩

end

section
open Verif.Ranged (Width RTable TEntry RCall RReply)
variable {P : Width} {L : Type} {N K n : Nat}

theorem takes_rclaimC {r : RTable P L} {id : U64} {l : L} {k : Bool → RClient L} (hk : ∀ b, ∃ y, k b = .ret y) {x : RReply L}
    (h : Takes (Sized (α := TEntry L) N K) ((rclaimC r id l k).compile codeOf) x n) : n ≤ 4 := by
  have done : ∀ {b : Bool} {n : Nat} {x : RReply L}, Takes (Sized (α := TEntry L) N K) ((k b).compile codeOf) x n → n = 0 := by
    intro b n x h
    obtain ⟨y, hy⟩ := hk b
    rw [hy] at h
    exact (takes_ret h).2
  unfold rclaimC at h
  split at h
  · have := done h; omega
  · obtain ⟨v, a, b, _, h2, h3, rfl⟩ := takes_call h
    have h2 : a ≤ 1 := h2
    split at h3
    · obtain ⟨v, a', b', _, h4, h5, rfl⟩ := takes_call h3
      have h4 : a' ≤ 3 := h4
      split at h5 <;> have := done h5 <;> omega
    · have := done h3; omega

theorem takes_rbyLabelC {r : RTable P L} {sel : L → Bool} : ∀ (ks : List U64) (acc : List (TEntry L)) {x : RReply L} (n : Nat),
    Takes (Sized (α := TEntry L) N K) ((rbyLabelC r sel ks acc).compile codeOf) x n → n ≤ ks.length := by
  intro ks
  induction ks with
  | nil => intro acc x n h; have := (takes_ret h).2; omega
  | cons k ks ih =>
    intro acc x n h
    rw [List.length_cons]
    cases h with
    | read hs h =>
      dsimp only at h
      split at h
      · have := (takes_ret h).2; omega
      · split at h <;> have := ih _ _ h <;> omega

theorem takes_ranged_findFree {r : RTable P L} {x : RReply L} (h : Takes (Sized (α := TEntry L) N K) ((rcode r .findFree).compile codeOf) x n) :
    n = N + 1 := by
  obtain ⟨_, y, hy⟩ := takes_last (fun x => by cases x <;> exact ⟨_, rfl⟩) h
  exact takes_findFree hy

theorem takes_ranged_claimFree {r : RTable P L} {l : L} {x : RReply L}
    (h : Takes (Sized (α := TEntry L) N K) ((rcode r (.claimFree l)).compile codeOf) x n) : N + 1 ≤ n ∧ n ≤ N + 5 := by
  obtain ⟨v, a, b, h1, _, h3, rfl⟩ := takes_call h
  have := takes_findFree h1
  split at h3
  · have := takes_rclaimC (fun b => ⟨_, rfl⟩) h3; omega
  · have := (takes_ret h3).2; omega

theorem takes_ranged {r : RTable P L} (c : RCall L) {x : RReply L}
    (h : Takes (Sized (α := TEntry L) N K) ((rcode r c).compile codeOf) x n) : n ≤ mostRanged N K c := by
  cases c with
  | get id =>
    simp only [rcode] at h
    split at h
    · rw [(takes_ret h).2]; exact Nat.zero_le _
    · exact (takes_last (fun x => by cases x <;> exact ⟨_, rfl⟩) h).1
  | claim id l => simp only [rcode] at h; exact takes_rclaimC (fun b => ⟨_, rfl⟩) h
  | claimFree l => exact (takes_ranged_claimFree h).2
  | release id =>
    simp only [rcode] at h
    split at h
    · rw [(takes_ret h).2]; exact Nat.zero_le _
    · exact (takes_last (fun x => by cases x <;> exact ⟨_, rfl⟩) h).1
  | update id l =>
    simp only [rcode] at h
    split at h
    · rw [(takes_ret h).2]; exact Nat.zero_le _
    · exact (takes_last (fun x => by cases x <;> exact ⟨_, rfl⟩) h).1
  | size => exact (takes_last (fun x => by cases x <;> exact ⟨_, rfl⟩) h).1
  | has id =>
    simp only [rcode] at h
    split at h
    · rw [(takes_ret h).2]; exact Nat.zero_le _
    · exact (takes_last (fun x => by cases x <;> exact ⟨_, rfl⟩) h).1
  | isFree id =>
    simp only [rcode] at h
    split at h
    · rw [(takes_ret h).2]; exact Nat.zero_le _
    · exact (takes_last (fun x => by cases x <;> exact ⟨_, rfl⟩) h).1
  | findFree => exact Nat.le_of_eq (takes_ranged_findFree h)
  | getAll =>
    obtain ⟨v, a, b, _, h2, h3, rfl⟩ := takes_call h
    have h2 : a ≤ 1 := h2
    have h4 : b ≤ K + 3 := (takes_last (fun x => by cases x <;> exact ⟨_, rfl⟩) h3).1
    show _ ≤ K + 4
    omega
  | getByLabel sel =>
    obtain ⟨v, a, b, _, h2, h3, rfl⟩ := takes_call h
    have h2 : a ≤ 1 := h2
    obtain ⟨v, a', b', h4, _, h5, rfl⟩ := takes_call h3
    obtain ⟨h6, h7⟩ := takes_iterate h4
    show _ ≤ K + 3
    split at h5
    · have := takes_rbyLabelC _ _ _ h5
      have := h7 _ rfl
      omega
    · have := (takes_ret h5).2; omega

end

section
open Verif.IPTable (Addr IPTab ICall IReply)
variable {R : Type} {parse : String → Option Addr} {N K n : Nat}

theorem takes_ibyLabelC {sel : R → Bool} : ∀ (ks : List U64) (acc : List R) {x : IReply R} (n : Nat),
    Takes (Sized (α := R) N K) ((ibyLabelC sel ks acc).compile codeOf) x n → n ≤ 2 * ks.length := by
  intro ks
  induction ks with
  | nil => intro acc x n h; have := (takes_ret h).2; omega
  | cons k ks ih =>
    intro acc x n h
    rw [List.length_cons]
    cases h with
    | read hs h =>
      dsimp only at h
      split at h
      · have := (takes_ret h).2; omega
      · split at h
        · cases h with
          | read hs h =>
            dsimp only at h
            split at h
            · have := (takes_ret h).2; omega
            · have := ih _ _ h; omega
        · have := ih _ _ h; omega

theorem takes_ip_findFree {r : IPTab R} {x : IReply R} (h : Takes (Sized (α := R) N K) ((icode parse r .findFree).compile codeOf) x n) :
    n = N + 1 := by
  obtain ⟨_, y, hy⟩ := takes_last (fun x => by
    cases x with
    | id i => dsimp only; split <;> exact ⟨_, rfl⟩
    | _ => exact ⟨_, rfl⟩) h
  exact takes_findFree hy

theorem takes_ip {r : IPTab R} (c : ICall R) {x : IReply R}
    (h : Takes (Sized (α := R) N K) ((icode parse r c).compile codeOf) x n) : n ≤ mostIP N K c := by
  cases c with
  | get y =>
    simp only [icode] at h
    split at h
    · rw [(takes_ret h).2]; exact Nat.zero_le _
    · exact (takes_last (fun x => by cases x <;> exact ⟨_, rfl⟩) h).1
  | claim y d =>
    simp only [icode] at h
    split at h
    · rw [(takes_ret h).2]; exact Nat.zero_le _
    · obtain ⟨v, a, b, _, h2, h3, rfl⟩ := takes_call h
      have h2 : a ≤ 1 := h2
      show _ ≤ 4
      split at h3
      · have h4 : b ≤ 3 := (takes_last (fun x => by cases x <;> exact ⟨_, rfl⟩) h3).1
        omega
      · have := (takes_ret h3).2; omega
  | release y =>
    simp only [icode] at h
    split at h
    · rw [(takes_ret h).2]; exact Nat.zero_le _
    · exact (takes_last (fun x => by cases x <;> exact ⟨_, rfl⟩) h).1
  | update y d =>
    simp only [icode] at h
    split at h
    · rw [(takes_ret h).2]; exact Nat.zero_le _
    · obtain ⟨v, a, b, _, h2, h3, rfl⟩ := takes_call h
      have h2 : a ≤ 1 := h2
      show _ ≤ 4
      split at h3
      · have h4 : b ≤ 3 := (takes_last (fun x => by cases x <;> exact ⟨_, rfl⟩) h3).1
        omega
      · have := (takes_ret h3).2; omega
  | size => exact (takes_last (fun x => by cases x <;> exact ⟨_, rfl⟩) h).1
  | has y =>
    simp only [icode] at h
    split at h
    · rw [(takes_ret h).2]; exact Nat.zero_le _
    · exact (takes_last (fun x => by cases x <;> exact ⟨_, rfl⟩) h).1
  | isFree y =>
    simp only [icode] at h
    split at h
    · rw [(takes_ret h).2]; exact Nat.zero_le _
    · exact (takes_last (fun x => by cases x <;> exact ⟨_, rfl⟩) h).1
  | findFree => exact Nat.le_of_eq (takes_ip_findFree h)
  | getAll => exact (takes_last (fun x => by cases x <;> exact ⟨_, rfl⟩) h).1
  | getByLabel sel =>
    obtain ⟨v, a', b', h4, _, h5, rfl⟩ := takes_call h
    obtain ⟨h6, h7⟩ := takes_iterate h4
    show _ ≤ 2 * K + 3
    split at h5
    · have := takes_ibyLabelC _ _ _ h5
      have := h7 _ rfl
      omega
    · have := (takes_ret h5).2; omega

end

/-! ### Theorems -/

section
variable {κ α ρ : Type}

/-- from runs of programs to executions -/
theorem counted_takes {size : U64} (hs : size ≠ 0) {code : κ → Client (Call α) (Reply α) (Table α) ρ} {K n a : Nat}
    {g : Cfg κ (Table α) ρ} (h : Counted (fun c => (code c).compile codeOf) (IdxTable.newTable size) (fun t => t.m.len ≤ K) n g a)
    {x : Thread κ (Table α) ρ} (hx : g.th[n]? = some x) :
    (∃ r b, a ≤ b ∧ Takes (Sized size.toNat K) ((code x.call).compile codeOf) r b) ∧
    (x.prog = none → ∃ r, Takes (Sized size.toNat K) ((code x.call).compile codeOf) r a) := by
  have hl := (counted_left (J' := Sized size.toNat K) h fun g H he hm => ⟨by rw [(exec_inv hs he).2], hm⟩).1 x hx
  refine ⟨?_, hl.2⟩
  cases hp : x.prog with
  | none => obtain ⟨r, h⟩ := hl.2 hp; exact ⟨r, a, Nat.le_refl _, h⟩
  | some p =>
    obtain ⟨r, j, hj⟩ := takes_exists (J := Sized size.toNat K) (s := IdxTable.newTable size) ⟨rfl, Nat.zero_le _⟩ p
    exact ⟨r, a + j, Nat.le_add_right _ _, hl.1 p hp r j hj⟩

theorem codeOf_client : (codeOf : Call α → TProg α (Reply α)) = fun c => (Client.call c Client.ret : Client (Call α) (Reply α) (Table α) (Reply α)).compile codeOf := by
  funext c
  have key : ∀ p : TProg α (Reply α), p = p.bind .ret := by
    intro p
    induction p with
    | ret r => rfl
    | read k ih => exact congrArg Prog.read (funext ih)
    | write w k ih => exact congrArg (Prog.write w) ih
    | rlock k ih => exact congrArg Prog.rlock ih
    | runlock k ih => exact congrArg Prog.runlock ih
    | lock k ih => exact congrArg Prog.lock ih
    | unlock k ih => exact congrArg Prog.unlock ih
  exact key _

/-- **C125**, index table, every execution in which at most `K` ids are claimed at any moment: a call makes no more accesses than
`mostIdx` says, those that look for free ids one per id of the table. FindFree and ClaimDynamic make at least as many, wherever
the first free id is. -/
theorem C125_idx_partial {size : U64} (hs : size ≠ 0) {K n a : Nat} {g : Cfg (Call α) (Table α) (Reply α)}
    (h : Counted codeOf (IdxTable.newTable size) (fun t => t.m.len ≤ K) n g a) {x} (hx : g.th[n]? = some x) :
    a ≤ mostIdx size.toNat K x.call ∧
    (x.prog = none → (x.call = .findFree → a = size.toNat + 1) ∧ (∀ d, x.call = .claimDynamic d → size.toNat + 1 ≤ a)) := by
  rw [codeOf_client] at h
  obtain ⟨⟨r, b, hb, h1⟩, h2⟩ := counted_takes hs h hx
  have e : ∀ c : Call α, (Client.call c Client.ret : Client (Call α) (Reply α) (Table α) (Reply α)).compile codeOf = codeOf c :=
    fun c => (congrFun codeOf_client c).symm
  rw [e] at h1
  refine ⟨Nat.le_trans hb (takes_idx _ h1), fun hp => ?_⟩
  obtain ⟨r, h3⟩ := h2 hp
  rw [e] at h3
  refine ⟨fun hc => ?_, fun d hc => ?_⟩
  · rw [hc] at h3; exact takes_findFree h3
  · rw [hc] at h3; exact (takes_claimDynamic h3).1

end

section
open Verif.Ranged (Width RTable TEntry RCall RReply IsPkg new)
variable {P : Width} {L : Type}

/-- **C125**, ranged tables of any range but the full one -/
theorem C125_ranged_partial (hP : IsPkg P) {start stop : BitVec P.W} (hle : start ≤ stop) (hf : stop.toNat - start.toNat + 1 < 2 ^ P.W)
    {K n a : Nat} {g : Cfg (RCall L) (Table (TEntry L)) (RReply L)}
    (h : Counted (rprog start stop) (new start stop : RTable P L).tab (fun t => t.m.len ≤ K) n g a) {x} (hx : g.th[n]? = some x) :
    a ≤ mostRanged (stop.toNat - start.toNat + 1) K x.call ∧
    (x.prog = none → (x.call = .findFree → a = stop.toNat - start.toNat + 1 + 1) ∧
      (∀ l, x.call = .claimFree l → stop.toNat - start.toNat + 1 + 1 ≤ a)) := by
  have hi := Ranged.new_inv (L := L) hP.good start stop hle
  have hN := hi.size_eq hf
  have hs : (new start stop : RTable P L).tab.size ≠ 0 := by
    intro e
    rw [e] at hN
    simp at hN
  obtain ⟨⟨r, b, hb, h1⟩, h2⟩ := counted_takes (code := rcode (new start stop : RTable P L)) hs h hx
  have hN : (new start stop : RTable P L).tab.size.toNat = stop.toNat - start.toNat + 1 := hN
  rw [← hN]
  refine ⟨Nat.le_trans hb (takes_ranged _ h1), fun hp => ?_⟩
  obtain ⟨r, h3⟩ := h2 hp
  refine ⟨fun hc => ?_, fun d hc => ?_⟩
  · rw [hc] at h3; exact takes_ranged_findFree h3
  · rw [hc] at h3; exact (takes_ranged_claimFree h3).1

/-- a range that is not full -/
example : (5 : BitVec 16) ≤ 4000 ∧ (4000 : BitVec 16).toNat - (5 : BitVec 16).toNat + 1 < 2 ^ 16 := by decide

end

section
open Verif.IPTable (Addr IPTab ICall IReply SmallRange num new)
variable {R : Type} {parse : String → Option Addr}

/-- **C125**, IP tables of ranges of fewer than `2^64` addresses -/
theorem C125_ip_partial {lo hi : Addr} (hr : SmallRange lo hi) {K n a : Nat} {g : Cfg (ICall R) (Table R) (IReply R)}
    (h : Counted (iprog parse lo hi) (new lo hi : IPTab R).tab (fun t => t.m.len ≤ K) n g a) {x} (hx : g.th[n]? = some x) :
    a ≤ mostIP (num hi - num lo + 1) K x.call ∧ (x.prog = none → x.call = .findFree → a = num hi - num lo + 1 + 1) := by
  obtain ⟨hm, hf⟩ := IPTable.mid_of_small hr
  have hN := (IPTable.new_inv (R := R) hm).size' hf
  have hs : (new lo hi : IPTab R).tab.size ≠ 0 := by
    intro e
    rw [e] at hN
    simp at hN
  obtain ⟨⟨r, b, hb, h1⟩, h2⟩ := counted_takes (code := icode parse (new lo hi : IPTab R)) hs h hx
  rw [← hN]
  refine ⟨Nat.le_trans hb (takes_ip _ h1), fun hp hc => ?_⟩
  obtain ⟨r, h3⟩ := h2 hp
  rw [hc] at h3
  exact takes_ip_findFree h3

/-- the range of an IPv6 /96 subnet -/
example : SmallRange (.v6 0x20010db8000000000000000000000000 "") (.v6 0x20010db80000000000000000ffffffff "") := by
  constructor <;> decide

end

/-! ### The violation -/

section
variable {κ σ ρ β : Type}

/-- a program that only reads, in the only goroutine -/
theorem counted_reads {code : κ → Prog σ ρ} {m₀ : σ} {J : σ → Prop} {m : σ} (hm : J m) {c : κ} {f : β → Prog σ ρ} {rd : Nat} {wr : WSt}
    {p : Prog σ β} (hp : RdOnly p) : ∀ {a : Nat}, Counted code m₀ J 0 ⟨m, [⟨c, some (p.bind f), rd, wr⟩]⟩ a →
    ∃ y a', Counted code m₀ J 0 ⟨m, [⟨c, some (f y), rd, wr⟩]⟩ a' := by
  induction hp with
  | ret r => exact fun h => ⟨r, _, h⟩
  | @read k _ ih =>
    intro a h
    refine ih m (a := a + 1) (.touch h hm (.read (n := 0) (k := fun s => (k s).bind f) rfl) ?_)
    refine ⟨_, _, rfl, .inl ⟨_, rfl⟩, rfl, fun e => ?_⟩
    exact prog_ne_read m _ (fun s => (k s).bind f) rfl (by injection e)

end

/-- **C125** is violated: for every number `c` (such that `c + 1` fits into 64 bits) there is a table in which nothing was ever claimed, and a call of FindFree, alone,
that makes more than `c` accesses to find that 0 is free. -/
theorem C125_findFree_violated (c : Nat) (hc : c < 2 ^ 64 - 1) : ∃ (size : U64) (g : Cfg (Call Nat) (Table Nat) (Reply Nat)) (a : Nat) (x : _),
    Counted codeOf (IdxTable.newTable size) (fun t => t.m.len ≤ 0) 0 g a ∧ g.th[0]? = some x ∧ x.call = .findFree ∧ x.prog = none ∧ c < a := by
  let size : U64 := BitVec.ofNat 64 (c + 1)
  have hsz : size.toNat = c + 1 := by simp only [size, BitVec.toNat_ofNat]; omega
  have hs : size ≠ 0 := by intro e; rw [e] at hsz; simp at hsz
  have hJ : (IdxTable.newTable size : Table Nat).m.len ≤ 0 := Nat.le_refl _
  suffices ∃ g a x, Counted codeOf (IdxTable.newTable size) (fun t : Table Nat => t.m.len ≤ 0) 0 g a ∧ g.th[0]? = some x ∧
      x.call = .findFree ∧ x.prog = none by
    obtain ⟨g, a, x, h1, h2, h3, h4⟩ := this
    refine ⟨size, g, a, x, h1, h2, h3, h4, ?_⟩
    have := ((C125_idx_partial hs h1 h2).2 h4).1 h3
    omega
  have h0 := Counted.other (J := fun t : Table Nat => t.m.len ≤ 0) (n := 0) (.init (code := codeOf) (m₀ := IdxTable.newTable size)) hJ
    (.inv (code := codeOf) .findFree) (by rintro ⟨x, _, h, _⟩; cases h)
  have h1 := Counted.other h0 hJ (.rlock (n := 0) rfl (by intro x hx; rw [List.mem_singleton.1 hx]))
    (by rintro ⟨x, _, h, ⟨k, h'⟩ | ⟨w, k, h'⟩, _⟩ <;> cases h <;> cases h')
  have h2 := h1
  rw [show ([] ++ [_] : List (Thread (Call Nat) (Table Nat) (Reply Nat))).set 0 _ = [_] from rfl, bind_bind, bind_bind] at h2
  obtain ⟨it, a, h3⟩ := counted_reads (J := fun t : Table Nat => t.m.len ≤ 0) (m := IdxTable.newTable size) hJ rdOnly_iterateFreeP h2
  have h4 := Counted.other h3 hJ (.runlock (n := 0) (rd := 0) rfl) (by rintro ⟨x, _, h, ⟨k, h'⟩ | ⟨w, k, h'⟩, _⟩ <;> cases h <;> cases h')
  obtain ⟨r, hr⟩ : ∃ r : Reply Nat, (Prog.bind (if h : it.advance.inBounds then Prog.ret (.ok (it.advance.id h)) else Prog.ret (.error .noFree))
      (fun x => Prog.ret (IdxTable.replyId x)) : TProg Nat (Reply Nat)) = .ret r := by
    split <;> exact ⟨_, rfl⟩
  have h5 : Counted codeOf (IdxTable.newTable size) (fun t : Table Nat => t.m.len ≤ 0) 0
      ⟨IdxTable.newTable size, [⟨.findFree, some (.ret r), 0, .none⟩]⟩ a := by
    rw [← hr]
    exact h4
  have h6 := Counted.other h5 hJ (.ret (n := 0) rfl) (by rintro ⟨x, _, h, ⟨k, h'⟩ | ⟨w, k, h'⟩, _⟩ <;> cases h <;> cases h')
  exact ⟨_, _, _, h6, rfl, rfl, rfl⟩

/-- an execution of `C125_idx_partial` is the one of `C125_findFree_violated` -/
example := C125_findFree_violated 1000 (by decide)

end Verif.Conc
