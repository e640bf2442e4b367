import Verif.Conc.Safe
import Verif.Conc.Model
import Verif.IdxTable.Refine

/-! The methods of the index table are critical sections, and do what the sequential model says. -/

namespace Verif.Conc
open Verif.IdxTable
variable {σ ρ β γ α : Type}

/-- run a program without interruption, ignoring the locks -/
def Prog.exec : Prog σ β → σ → σ × β
  | .ret r, m => (m, r)
  | .read k, m => (k m).exec m
  | .write w k, m => k.exec (w m)
  | .rlock k, m => k.exec m
  | .runlock k, m => k.exec m
  | .lock k, m => k.exec m
  | .unlock k, m => k.exec m

theorem exec_bind (p : Prog σ β) (f : β → Prog σ γ) (m : σ) :
    (p.bind f).exec m = (f (p.exec m).2).exec (p.exec m).1 := by
  induction p generalizing m with
  | ret r => rfl
  | read k ih => exact ih m m
  | write w k ih => exact ih (w m)
  | rlock k ih => exact ih m
  | runlock k ih => exact ih m
  | lock k ih => exact ih m
  | unlock k ih => exact ih m

/-- no use of the mutex -/
inductive NoLock : Prog σ β → Prop
  | ret (r) : NoLock (.ret r)
  | read {k} : (∀ s, NoLock (k s)) → NoLock (.read k)
  | write {w k} : NoLock k → NoLock (.write w k)

/-- reads only -/
inductive RdOnly : Prog σ β → Prop
  | ret (r) : RdOnly (.ret r)
  | read {k} : (∀ s, RdOnly (k s)) → RdOnly (.read k)

theorem NoLock.bind {p : Prog σ β} (h : NoLock p) {f : β → Prog σ γ} (hf : ∀ x, NoLock (f x)) :
    NoLock (p.bind f) := by
  induction h with
  | ret r => exact hf r
  | read _ ih => exact .read ih
  | write _ ih => exact .write ih

theorem RdOnly.bind {p : Prog σ β} (h : RdOnly p) {f : β → Prog σ γ} (hf : ∀ x, RdOnly (f x)) :
    RdOnly (p.bind f) := by
  induction h with
  | ret r => exact hf r
  | read _ ih => exact .read ih

theorem RdOnly.noLock {p : Prog σ β} (h : RdOnly p) : NoLock p := by
  induction h with
  | ret r => exact .ret r
  | read _ ih => exact .read ih

theorem RdOnly.exec {p : Prog σ β} (h : RdOnly p) (m : σ) : (p.exec m).1 = m := by
  induction h with
  | ret r => rfl
  | read _ ih => exact ih m

theorem rdOnly_get (f : σ → β) : RdOnly (get f) := .read fun _ => .ret _
theorem noLock_put (w : σ → σ) : NoLock (put w) := .write (.ret _)

theorem InW.seq {p : Prog σ β} (hp : NoLock p) {f : β → Prog σ ρ} {m m' : σ} {q : Prog σ ρ}
    (h : InW m' q (p.exec m).1 (f (p.exec m).2)) : InW m' q m (p.bind f) := by
  induction hp generalizing m with
  | ret r => exact h
  | read _ ih => exact .read (ih m h)
  | write _ ih => exact .write (ih h)

theorem InR.seq {p : Prog σ β} (hp : RdOnly p) {f : β → Prog σ ρ} {m : σ} {n : Nat} {q : Prog σ ρ}
    (h : InR m q n (f (p.exec m).2)) : InR m q n (p.bind f) := by
  induction hp with
  | ret r => exact h
  | read _ ih => exact .read (ih m h)

theorem InR1.seq {p : Prog σ β} (hp : RdOnly p) {f : β → Prog σ ρ} {m : σ} {q : Prog σ ρ}
    (h : InR1 m q (f (p.exec m).2)) : InR1 m q (p.bind f) := by
  induction hp with
  | ret r => exact h
  | read _ ih => exact .read (ih m h)

/-- reads and complete critical sections under the read lock -/
structure Nested (p : Prog σ β) : Prop where
  out : ∀ {ρ : Type} (m : σ) (q : Prog σ ρ) (n : Nat) (f : β → Prog σ ρ),
    InR m q n (f (p.exec m).2) → InR m q n (p.bind f)

theorem bind_bind (p : Prog σ β) (f : β → Prog σ γ) (g : γ → Prog σ ρ) :
    (p.bind f).bind g = p.bind (fun x => (f x).bind g) := by
  induction p with
  | ret r => rfl
  | read k ih => simp only [Prog.bind]; congr; funext s; exact ih s
  | write w k ih => simp only [Prog.bind]; rw [ih]
  | rlock k ih => simp only [Prog.bind]; rw [ih]
  | runlock k ih => simp only [Prog.bind]; rw [ih]
  | lock k ih => simp only [Prog.bind]; rw [ih]
  | unlock k ih => simp only [Prog.bind]; rw [ih]

theorem RdOnly.nested {p : Prog σ β} (h : RdOnly p) : Nested p := ⟨fun _ _ _ _ hf => InR.seq h hf⟩

theorem Nested.bind {p : Prog σ β} (h : Nested p) {f : β → Prog σ γ} (hf : ∀ x, Nested (f x))
    (hm : ∀ m, (p.exec m).1 = m) : Nested (p.bind f) := by
  refine ⟨fun {ρ} m q n g hg => ?_⟩
  rw [bind_bind]
  apply h.out
  apply (hf _).out
  rw [exec_bind, hm] at hg
  exact hg

theorem Nested.withRLock {p : Prog σ β} (h : Nested p) : Nested (withRLock p) := by
  refine ⟨fun {ρ} m q n f hf => ?_⟩
  refine .rlock ?_
  rw [bind_bind]
  apply h.out
  refine .runlock ?_
  have : ((Conc.withRLock p).exec m).2 = (p.exec m).2 := by
    show ((p.bind _).exec m).2 = _
    rw [exec_bind]; rfl
  rw [this] at hf
  exact hf

theorem rsec_of_nested {p : Prog σ β} (h : Nested p) {sem : σ → σ × β} (hs : ∀ m, p.exec m = sem m)
    (hm : ∀ m, (sem m).1 = m) : RSec sem (withRLock p) := by
  refine ⟨_, rfl, fun m => ⟨hm m, ?_⟩⟩
  apply h.out
  rw [hs]
  exact .last

theorem wsec_of {p : Prog σ β} (h : NoLock p) {sem : σ → σ × β} (hs : ∀ m, p.exec m = sem m) :
    WSec sem (withLock p) := by
  refine ⟨_, rfl, fun m => ?_⟩
  apply InW.seq h
  rw [hs]
  exact .last

theorem RSec.map {sem : σ → σ × β} {p : Prog σ β} (h : RSec sem p) (f : β → γ) :
    RSec (fun m => ((sem m).1, f (sem m).2)) (p.bind fun x => .ret (f x)) := by
  obtain ⟨k, rfl, h⟩ := h
  exact ⟨_, rfl, fun m => ⟨(h m).1, (h m).2.bind (fun x => .ret (f x))⟩⟩

theorem WSec.map {sem : σ → σ × β} {p : Prog σ β} (h : WSec sem p) (f : β → γ) :
    WSec (fun m => ((sem m).1, f (sem m).2)) (p.bind fun x => .ret (f x)) := by
  obtain ⟨k, rfl, h⟩ := h
  exact ⟨_, rfl, fun m => (h m).bind (fun x => .ret (f x))⟩

theorem flat_withRLock {p : Prog σ β} (h : RdOnly p) : Flat (withRLock p) := by
  intro k hk m
  cases hk
  refine ⟨.ret (p.exec m).2, ?_⟩
  apply InR1.seq h
  exact .last

theorem flat_withLock {p : Prog σ β} : Flat (withLock p) := by
  intro k hk
  cases hk

theorem Flat.bind {p : Prog σ β} (h : Flat p) (hp : (∃ k, p = .rlock k) ∨ ∃ k, p = .lock k) (f : β → Prog σ γ) :
    Flat (p.bind f) := by
  intro k hk m
  rcases hp with ⟨k0, rfl⟩ | ⟨k0, rfl⟩
  · cases hk
    obtain ⟨q, hq⟩ := h k0 rfl m
    exact ⟨_, hq.bind f⟩
  · cases hk

/-! ### The bodies of the methods -/

theorem rdOnly_validateP (id : U64) : RdOnly (validateP (α := α) id) := rdOnly_get _
theorem exec_validateP (id : U64) (t : Table α) : (validateP id).exec t = (t, validate t id) := rfl
theorem exec_isFreeP (id : U64) (t : Table α) : (isFreeP id).exec t = (t, isFreeB t id) := rfl
theorem exec_get (f : σ → β) (m : σ) : (get f).exec m = (m, f m) := rfl
theorem rdOnly_isFreeP (id : U64) : RdOnly (isFreeP (α := α) id) := rdOnly_get _

theorem exec_addP (e : Entry α) (t : Table α) : (addP e).exec t = add t e := by
  show ((validateP e.id).bind _).exec t = _
  rw [exec_bind, exec_validateP]
  unfold add
  cases validate t e.id with
  | error er => rfl
  | ok u =>
    show ((isFreeP e.id).bind _).exec t = _
    rw [exec_bind, exec_isFreeP]
    cases isFreeB t e.id <;> rfl

theorem noLock_addP (e : Entry α) : NoLock (addP e) := by
  refine (rdOnly_validateP _).noLock.bind ?_
  rintro (er | u)
  · exact .ret _
  · refine (rdOnly_isFreeP _).noLock.bind ?_
    rintro (_ | _)
    · exact .ret _
    · exact .write (.ret _)

theorem exec_updateP (e : Entry α) (t : Table α) : (updateP e).exec t = updateE t e := by
  show ((validateP e.id).bind _).exec t = _
  rw [exec_bind, exec_validateP]
  unfold updateE
  cases validate t e.id with
  | error er => rfl
  | ok u =>
    show ((isFreeP e.id).bind _).exec t = _
    rw [exec_bind, exec_isFreeP]
    cases isFreeB t e.id <;> rfl

theorem noLock_updateP (e : Entry α) : NoLock (updateP e) := by
  refine (rdOnly_validateP _).noLock.bind ?_
  rintro (er | u)
  · exact .ret _
  · refine (rdOnly_isFreeP _).noLock.bind ?_
    rintro (_ | _)
    · exact .write (.ret _)
    · exact .ret _

theorem exec_deleteP (id : U64) (t : Table α) : (deleteP id).exec t = delete t id := by
  show ((validateP id).bind _).exec t = _
  rw [exec_bind, exec_validateP]
  unfold delete
  cases validate t id <;> rfl

theorem noLock_deleteP (id : U64) : NoLock (deleteP (α := α) id) := by
  refine (rdOnly_validateP _).noLock.bind ?_
  rintro (er | u)
  · exact .ret _
  · exact .write (.ret _)

theorem rdOnly_freeKeysP : ∀ (n i : Nat) (acc : List U64), RdOnly (freeKeysP (α := α) n i acc)
  | 0, _, _ => .ret _
  | n + 1, i, acc => by
    refine (rdOnly_isFreeP _).bind ?_
    rintro (_ | _)
    · exact rdOnly_freeKeysP n _ _
    · exact rdOnly_freeKeysP n _ _

theorem exec_freeKeysP (t : Table α) : ∀ (n i : Nat) (acc : List U64), (freeKeysP n i acc).exec t =
    (t, acc ++ ((List.range' i n).map (BitVec.ofNat 64)).filter (fun id => isFreeB t id))
  | 0, _, acc => by simp [freeKeysP, Prog.exec, pure]
  | n + 1, i, acc => by
    show ((isFreeP _).bind _).exec t = _
    rw [exec_bind, exec_isFreeP]
    rw [List.range'_succ, List.map_cons]
    cases hf : isFreeB t (BitVec.ofNat 64 i) with
    | false =>
      show (freeKeysP n (i + 1) acc).exec t = _
      rw [exec_freeKeysP t n, List.filter_cons, if_neg (by simp [hf])]
    | true =>
      show (freeKeysP n (i + 1) (acc ++ [BitVec.ofNat 64 i])).exec t = _
      rw [exec_freeKeysP t n, List.filter_cons, if_pos (by simp [hf])]
      simp

theorem rdOnly_iterateFreeP : RdOnly (iterateFreeP (α := α)) :=
  (rdOnly_get _).bind fun _ => (rdOnly_freeKeysP _ _ _).bind fun _ => .ret _

theorem exec_iterateFreeP (t : Table α) : iterateFreeP.exec t = (t, iterateFree t) := by
  show ((get (fun t : Table α => t.size)).bind _).exec t = _
  rw [exec_bind]
  show ((freeKeysP t.size.toNat 0 []).bind _).exec t = _
  rw [exec_bind, exec_freeKeysP]
  unfold iterateFree freeKeys
  rw [List.range_eq_range', List.nil_append]
  rfl

theorem rdOnly_iterateP : RdOnly (iterateP (α := α)) := (rdOnly_get _).bind fun _ => .ret _

theorem exec_iterateP (t : Table α) : iterateP.exec t = (t, iterateT t) := rfl

theorem rdOnly_findFreeRangeP (start n : U64) : RdOnly (findFreeRangeP (α := α) start n) := by
  refine (rdOnly_get _).bind fun s => ?_
  show RdOnly (if start > s - 1 then _ else _)
  split
  · exact .ret _
  · split
    · exact .ret _
    · exact rdOnly_iterateFreeP.bind fun _ => .ret _

theorem exec_findFreeRangeP (start n : U64) (t : Table α) :
    (findFreeRangeP start n).exec t = (t, findFreeRange t start n) := by
  show ((get (fun t : Table α => t.size)).bind _).exec t = _
  rw [exec_bind]
  show (if start > t.size - 1 then _ else if start + n - 1 > t.size - 1 then _ else _ : TProg α _).exec t = _
  unfold findFreeRange
  split
  · rfl
  · show _ = (t, if start + n - 1 > t.size - 1 then _ else _)
    split
    · rfl
    · show (iterateFreeP.bind _).exec t = _
      rw [exec_bind, exec_iterateFreeP]
      rfl

theorem rdOnly_findFreeSizeP (n : U64) : RdOnly (findFreeSizeP (α := α) n) := by
  refine (rdOnly_get _).bind fun s => ?_
  show RdOnly (if n > s then _ else _)
  split
  · exact .ret _
  · exact rdOnly_iterateFreeP.bind fun _ => .ret _

theorem exec_findFreeSizeP (n : U64) (t : Table α) :
    (findFreeSizeP n).exec t = (t, findFreeSize t n) := by
  show ((get (fun t : Table α => t.size)).bind _).exec t = _
  rw [exec_bind]
  show (if n > t.size then _ else _ : TProg α _).exec t = _
  unfold findFreeSize
  split
  · rfl
  · show (iterateFreeP.bind _).exec t = _
    rw [exec_bind, exec_iterateFreeP]
    rfl

theorem noLock_addAllP (d : α) : ∀ ids, NoLock (addAllP d ids)
  | [] => .ret _
  | id :: ids => by
    refine (noLock_addP _).bind ?_
    rintro (er | u)
    · exact .ret _
    · exact noLock_addAllP d ids

theorem exec_addAllP (d : α) : ∀ (ids : List U64) (t : Table α), (addAllP d ids).exec t = addAll t d ids
  | [], t => rfl
  | id :: ids, t => by
    show ((addP ⟨id, d⟩).bind _).exec t = _
    rw [exec_bind, exec_addP]
    unfold addAll
    rcases add t ⟨id, d⟩ with ⟨t', er | u⟩
    · rfl
    · exact exec_addAllP d ids t'

theorem noLock_addAllEP (d : α) : ∀ ids es, NoLock (addAllEP d ids es)
  | [], _ => .ret _
  | id :: ids, es => by
    refine (noLock_addP _).bind ?_
    rintro (er | u)
    · exact .ret _
    · exact noLock_addAllEP d ids _

theorem exec_addAllEP (d : α) : ∀ (ids : List U64) (es : List (Entry α)) (t : Table α),
    (addAllEP d ids es).exec t = addAllE t d ids es
  | [], _, t => rfl
  | id :: ids, es, t => by
    show ((addP ⟨id, d⟩).bind _).exec t = _
    rw [exec_bind, exec_addP]
    unfold addAllE
    rcases add t ⟨id, d⟩ with ⟨t', er | u⟩
    · rfl
    · exact exec_addAllEP d ids _ t'

theorem rdOnly_collectP : ∀ n it acc, RdOnly (collectP (α := α) n it acc)
  | 0, _, _ => .ret _
  | n + 1, it, acc => by
    unfold collectP
    show RdOnly (if h : it.advance.inBounds then _ else _)
    split
    · exact (rdOnly_get _).bind fun _ => rdOnly_collectP n _ _
    · exact .ret _

theorem exec_collectP (t : Table α) : ∀ n it acc, (collectP n it acc).exec t = (t, collectLoop t.m n it acc)
  | 0, _, _ => rfl
  | n + 1, it, acc => by
    unfold collectP collectLoop
    show (if h : it.advance.inBounds then _ else _ : TProg α _).exec t =
      (t, if h : it.advance.inBounds then _ else _)
    split
    · exact exec_collectP t n _ _
    · rfl

theorem nested_IterateP : Nested (IterateP (α := α)) := rdOnly_iterateP.nested.withRLock

theorem exec_withRLock (p : Prog σ β) (m : σ) : (withRLock p).exec m = p.exec m := by
  show (p.bind _).exec m = _
  rw [exec_bind]; rfl

/-- the methods are critical sections with the effect of the sequential model -/
theorem sections : Sections (codeOf (α := α)) step := by
  intro c
  cases c with
  | get id =>
    refine .inl ?_
    have : RSec (fun t : Table α => (t, IdxTable.get t id)) (GetP id) := by
      apply rsec_of_nested
      · apply RdOnly.nested
        refine (rdOnly_validateP _).bind ?_
        rintro (er | u)
        · exact .ret _
        · refine (rdOnly_get _).bind ?_
          rintro (_ | e)
          · exact .ret _
          · exact .ret _
      · intro t
        show ((validateP id).bind _).exec t = _
        rw [exec_bind, exec_validateP]
        unfold IdxTable.get
        cases validate t id with
        | error er => rfl
        | ok u =>
          show ((get fun t => t.m.get? id).bind _).exec t = _
          rw [exec_bind, exec_get]
          cases t.m.get? id <;> rfl
      · intro t; rfl
    exact this.map replyEntry
  | claim id d => exact .inr ((wsec_of (noLock_addP _) (exec_addP _)).map replyUnit)
  | claimDynamic d =>
    refine .inr ?_
    have : WSec (fun t : Table α => claimDynamic t d) (ClaimDynamicP d) := by
      apply wsec_of
      · refine rdOnly_iterateFreeP.noLock.bind fun free => ?_
        show NoLock (if h : free.advance.inBounds then _ else _)
        split
        · refine (noLock_addP _).bind ?_
          rintro (er | u)
          · exact .ret _
          · exact .ret _
        · exact .ret _
      · intro t
        show (iterateFreeP.bind _).exec t = _
        rw [exec_bind, exec_iterateFreeP]
        unfold claimDynamic
        show (if h : (iterateFree t).advance.inBounds then _ else _ : TProg α _).exec t =
          if h : (iterateFree t).advance.inBounds then _ else _
        split
        · rename_i h
          show ((addP ⟨(iterateFree t).advance.id h, d⟩).bind _).exec t = _
          rw [exec_bind, exec_addP]
          simp only
          rcases add t ⟨(iterateFree t).advance.id h, d⟩ with ⟨t', er | u⟩ <;> rfl
        · rfl
    exact this.map replyEntry
  | claimRange start n d =>
    refine .inr ?_
    have : WSec (fun t : Table α => claimRange t start n d) (ClaimRangeP start n d) := by
      apply wsec_of
      · refine (rdOnly_findFreeRangeP _ _).noLock.bind ?_
        rintro (er | ids)
        · exact .ret _
        · exact noLock_addAllP d ids
      · intro t
        show ((findFreeRangeP start n).bind _).exec t = _
        rw [exec_bind, exec_findFreeRangeP]
        unfold claimRange
        simp only
        cases findFreeRange t start n with
        | error er => rfl
        | ok ids => exact exec_addAllP d ids t
    exact this.map replyUnit
  | claimSize n d =>
    refine .inr ?_
    have : WSec (fun t : Table α => claimSize t n d) (ClaimSizeP n d) := by
      apply wsec_of
      · refine (rdOnly_findFreeSizeP _).noLock.bind ?_
        rintro (er | ids)
        · exact .ret _
        · exact noLock_addAllEP d ids []
      · intro t
        show ((findFreeSizeP n).bind _).exec t = _
        rw [exec_bind, exec_findFreeSizeP]
        unfold claimSize
        simp only
        cases findFreeSize t n with
        | error er => rfl
        | ok ids => exact exec_addAllEP d ids [] t
    exact this.map replyEntries
  | release id => exact .inr ((wsec_of (noLock_deleteP _) (exec_deleteP _)).map replyUnit)
  | update id d => exact .inr ((wsec_of (noLock_updateP _) (exec_updateP _)).map replyUnit)
  | iterate =>
    exact .inl ((rsec_of_nested rdOnly_iterateP.nested exec_iterateP fun _ => rfl).map fun it => Reply.ids it.drain)
  | iterateFree =>
    exact .inl ((rsec_of_nested rdOnly_iterateFreeP.nested exec_iterateFreeP fun _ => rfl).map
      fun it => Reply.ids it.drain)
  | size =>
    exact .inl ((rsec_of_nested (sem := fun t : Table α => (t, IdxTable.sizeOf t)) (rdOnly_get _).nested (fun _ => rfl)
      fun _ => rfl).map Reply.nat)
  | has id =>
    exact .inl ((rsec_of_nested (sem := fun t : Table α => (t, has t id)) (rdOnly_get _).nested (fun _ => rfl)
      fun _ => rfl).map Reply.bool)
  | isFree id =>
    exact .inl ((rsec_of_nested (sem := fun t : Table α => (t, isFree t id)) (rdOnly_get _).nested (fun _ => rfl)
      fun _ => rfl).map Reply.bool)
  | findFree =>
    refine .inl ?_
    have h1 : RSec (fun t : Table α => (t, iterateFree t)) IterateFreeP :=
      rsec_of_nested rdOnly_iterateFreeP.nested exec_iterateFreeP fun _ => rfl
    have h2 := h1.map (fun free => if h : free.advance.inBounds then (.ok (free.advance.id h) : Except Err U64)
      else .error .noFree)
    have h3 := h2.map (replyId (α := α))
    have he : codeOf (α := α) .findFree = (IterateFreeP.bind fun free =>
        .ret (if h : free.advance.inBounds then (.ok (free.advance.id h) : Except Err U64) else .error .noFree)).bind
        fun x => .ret (replyId x) := by
      show (IterateFreeP.bind _).bind _ = _
      congr 1
      congr 1
      funext free
      show (if h : free.advance.inBounds then _ else _) = _
      split <;> rfl
    rw [he]
    exact h3
  | findFreeRange start n =>
    exact .inl ((rsec_of_nested (rdOnly_findFreeRangeP _ _).nested (exec_findFreeRangeP _ _) fun _ => rfl).map replyIds)
  | findFreeSize n =>
    exact .inl ((rsec_of_nested (rdOnly_findFreeSizeP _).nested (exec_findFreeSizeP _) fun _ => rfl).map replyIds)
  | getAll =>
    refine .inl ?_
    have : RSec (fun t : Table α => (t, getAll t)) GetAllP := by
      apply rsec_of_nested
      · refine (rdOnly_get _).nested.bind (fun _ => ?_) (fun _ => rfl)
        refine nested_IterateP.bind (fun it => (rdOnly_collectP _ _ _).nested) (fun m => ?_)
        rw [IterateP, exec_withRLock, exec_iterateP]
      · intro t
        show ((get _).bind _).exec t = _
        rw [exec_bind]
        show (IterateP.bind _).exec t = _
        rw [exec_bind, IterateP, exec_withRLock, exec_iterateP, exec_collectP]
        rfl
      · intro t; rfl
    exact this.map Reply.entries

/-- only `GetAll` takes the read lock twice -/
theorem flat_codeOf (c : Call α) (hc : c ≠ .getAll) : Flat (codeOf c) := by
  cases c with
  | get id =>
    refine (flat_withRLock ?_).bind (.inl ⟨_, rfl⟩) _
    refine (rdOnly_validateP _).bind ?_
    rintro (er | u)
    · exact .ret _
    · refine (rdOnly_get _).bind ?_
      rintro (_ | e)
      · exact .ret _
      · exact .ret _
  | claim id d => exact flat_withLock.bind (.inr ⟨_, rfl⟩) _
  | claimDynamic d => exact flat_withLock.bind (.inr ⟨_, rfl⟩) _
  | claimRange start n d => exact flat_withLock.bind (.inr ⟨_, rfl⟩) _
  | claimSize n d => exact flat_withLock.bind (.inr ⟨_, rfl⟩) _
  | release id => exact flat_withLock.bind (.inr ⟨_, rfl⟩) _
  | update id d => exact flat_withLock.bind (.inr ⟨_, rfl⟩) _
  | iterate => exact (flat_withRLock rdOnly_iterateP).bind (.inl ⟨_, rfl⟩) _
  | iterateFree => exact (flat_withRLock rdOnly_iterateFreeP).bind (.inl ⟨_, rfl⟩) _
  | size => exact (flat_withRLock (rdOnly_get _)).bind (.inl ⟨_, rfl⟩) _
  | has id => exact (flat_withRLock (rdOnly_get _)).bind (.inl ⟨_, rfl⟩) _
  | isFree id => exact (flat_withRLock (rdOnly_get _)).bind (.inl ⟨_, rfl⟩) _
  | findFree =>
    exact ((flat_withRLock rdOnly_iterateFreeP).bind (.inl ⟨_, rfl⟩) _).bind (.inl ⟨_, rfl⟩) _
  | findFreeRange start n => exact (flat_withRLock (rdOnly_findFreeRangeP _ _)).bind (.inl ⟨_, rfl⟩) _
  | findFreeSize n => exact (flat_withRLock (rdOnly_findFreeSizeP _)).bind (.inl ⟨_, rfl⟩) _
  | getAll => exact absurd rfl hc

end Verif.Conc
