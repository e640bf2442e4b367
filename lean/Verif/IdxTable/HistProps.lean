import Verif.IdxTable.Props

/-!
C96 and C97 for the index table: replies depend on the claimed ids only, not on how they came to be claimed; calls
about different ids commute.
-/

namespace Verif.IdxTable
variable {α : Type}

/-- no sequence of calls tells the two tables apart -/
def Alike (t₁ t₂ : Table α) : Prop := ∀ cs : List (Call α), (run t₁ cs).2 = (run t₂ cs).2

/-- same capacity, same contents -/
structure Same (t₁ t₂ : Table α) : Prop where
  size : t₁.size = t₂.size
  get : ∀ k, t₁.m.get? k = t₂.m.get? k

theorem Same.refl (t : Table α) : Same t t := ⟨rfl, fun _ => rfl⟩

theorem Same.keys {t₁ t₂ : Table α} (h : Same t₁ t₂) : t₁.m.keys.Perm t₂.m.keys := by
  rw [List.perm_ext_iff_of_nodup (GoMap.keys_nodup _) (GoMap.keys_nodup _)]
  intro k
  rw [← GoMap.get?_isSome_iff, ← GoMap.get?_isSome_iff, h.get]

theorem Same.isFreeB {t₁ t₂ : Table α} (h : Same t₁ t₂) (k : U64) : isFreeB t₁ k = isFreeB t₂ k := by
  unfold IdxTable.isFreeB; rw [h.get]

theorem Same.validate {t₁ t₂ : Table α} (h : Same t₁ t₂) (k : U64) : validate t₁ k = validate t₂ k := by
  unfold IdxTable.validate; rw [h.size]

theorem Same.iterateFree {t₁ t₂ : Table α} (h : Same t₁ t₂) : iterateFree t₁ = iterateFree t₂ := by
  unfold IdxTable.iterateFree freeKeys
  rw [h.size]
  congr 2
  exact List.filter_congr fun x _ => h.isFreeB x

theorem Same.iterateT {t₁ t₂ : Table α} (h : Same t₁ t₂) : iterateT t₁ = iterateT t₂ := by
  unfold IdxTable.iterateT iterate
  rw [sortKeys_perm_eq h.keys (GoMap.keys_nodup _)]

theorem Same.set {t₁ t₂ : Table α} (h : Same t₁ t₂) (k : U64) (e : Entry α) :
    Same { t₁ with m := t₁.m.set k e } { t₂ with m := t₂.m.set k e } :=
  ⟨h.size, fun k' => by simp only [GoMap.get?_set, h.get]⟩

theorem Same.add {t₁ t₂ : Table α} (h : Same t₁ t₂) (e : Entry α) :
    Same (add t₁ e).1 (add t₂ e).1 ∧ (add t₁ e).2 = (add t₂ e).2 := by
  unfold IdxTable.add
  rw [h.validate, h.isFreeB]
  split
  · exact ⟨h, rfl⟩
  · split
    · exact ⟨h, rfl⟩
    · exact ⟨h.set _ _, rfl⟩

theorem Same.updateE {t₁ t₂ : Table α} (h : Same t₁ t₂) (e : Entry α) :
    Same (updateE t₁ e).1 (updateE t₂ e).1 ∧ (updateE t₁ e).2 = (updateE t₂ e).2 := by
  unfold IdxTable.updateE
  rw [h.validate, h.isFreeB]
  split
  · exact ⟨h, rfl⟩
  · split
    · exact ⟨h, rfl⟩
    · exact ⟨h.set _ _, rfl⟩

theorem Same.delete {t₁ t₂ : Table α} (h : Same t₁ t₂) (id : U64) :
    Same (delete t₁ id).1 (delete t₂ id).1 ∧ (delete t₁ id).2 = (delete t₂ id).2 := by
  unfold IdxTable.delete
  rw [h.validate]
  split
  · exact ⟨h, rfl⟩
  · exact ⟨⟨h.size, fun k' => by simp only [GoMap.get?_del, h.get]⟩, rfl⟩

theorem Same.addAll {d : α} : ∀ {ids : List U64} {t₁ t₂ : Table α}, Same t₁ t₂ →
    Same (addAll t₁ d ids).1 (addAll t₂ d ids).1 ∧ (addAll t₁ d ids).2 = (addAll t₂ d ids).2
  | [], _, _, h => ⟨h, rfl⟩
  | id :: ids, t₁, t₂, h => by
    unfold IdxTable.addAll
    obtain ⟨h1, h2⟩ := h.add ⟨id, d⟩
    revert h1 h2
    generalize IdxTable.add t₁ ⟨id, d⟩ = p₁
    generalize IdxTable.add t₂ ⟨id, d⟩ = p₂
    obtain ⟨u₁, r₁⟩ := p₁
    obtain ⟨u₂, r₂⟩ := p₂
    rintro h1 h2
    simp only at h1 h2
    subst h2
    cases r₁ with
    | error => exact ⟨h1, rfl⟩
    | ok => exact h1.addAll

theorem Same.addAllE {d : α} : ∀ {ids : List U64} {acc : List (Entry α)} {t₁ t₂ : Table α}, Same t₁ t₂ →
    Same (addAllE t₁ d ids acc).1 (addAllE t₂ d ids acc).1 ∧ (addAllE t₁ d ids acc).2 = (addAllE t₂ d ids acc).2
  | [], _, _, _, h => ⟨h, rfl⟩
  | id :: ids, acc, t₁, t₂, h => by
    unfold IdxTable.addAllE
    obtain ⟨h1, h2⟩ := h.add ⟨id, d⟩
    revert h1 h2
    generalize IdxTable.add t₁ ⟨id, d⟩ = p₁
    generalize IdxTable.add t₂ ⟨id, d⟩ = p₂
    obtain ⟨u₁, r₁⟩ := p₁
    obtain ⟨u₂, r₂⟩ := p₂
    rintro h1 h2
    simp only at h1 h2
    subst h2
    cases r₁ with
    | error => exact ⟨h1, rfl⟩
    | ok => exact h1.addAllE

theorem Same.collectLoop {m₁ m₂ : GoMap U64 (Entry α)} (h : ∀ k, m₁.get? k = m₂.get? k) :
    ∀ (n : Nat) (it : Iter) (acc : List (Option (Entry α))), collectLoop m₁ n it acc = collectLoop m₂ n it acc
  | 0, _, _ => rfl
  | n + 1, it, acc => by
    unfold IdxTable.collectLoop
    simp only
    split
    · unfold Iter.value
      rw [h, Same.collectLoop h]
    · rfl

theorem Same.getAll {t₁ t₂ : Table α} (h : Same t₁ t₂) : getAll t₁ = getAll t₂ := by
  unfold IdxTable.getAll getAllOrd
  have : iterate t₁.m.keys = iterate t₂.m.keys := h.iterateT
  rw [this, Same.collectLoop h.get]

theorem Same.findFree {t₁ t₂ : Table α} (h : Same t₁ t₂) : findFree t₁ = findFree t₂ := by
  unfold IdxTable.findFree; rw [h.iterateFree]

theorem Same.getE {t₁ t₂ : Table α} (h : Same t₁ t₂) (k : U64) : IdxTable.get t₁ k = IdxTable.get t₂ k := by
  unfold IdxTable.get; rw [h.validate, h.get]

theorem Same.sizeOf {t₁ t₂ : Table α} (h : Same t₁ t₂) : IdxTable.sizeOf t₁ = IdxTable.sizeOf t₂ := by
  unfold IdxTable.sizeOf; rw [GoMap.len_eq_keys_length, GoMap.len_eq_keys_length, h.keys.length_eq]

theorem Same.step {t₁ t₂ : Table α} (h : Same t₁ t₂) (c : Call α) :
    Same (step t₁ c).1 (step t₂ c).1 ∧ (step t₁ c).2 = (step t₂ c).2 := by
  cases c with
  | get id => exact ⟨h, by simp only [IdxTable.step, h.getE]⟩
  | claim id d =>
    obtain ⟨h1, h2⟩ := h.add ⟨id, d⟩
    exact ⟨h1, congrArg replyUnit h2⟩
  | update id d =>
    obtain ⟨h1, h2⟩ := h.updateE ⟨id, d⟩
    exact ⟨h1, congrArg replyUnit h2⟩
  | release id =>
    obtain ⟨h1, h2⟩ := h.delete id
    exact ⟨h1, congrArg replyUnit h2⟩
  | claimDynamic d =>
    simp only [IdxTable.step, claimDynamic]
    rw [h.iterateFree]
    split
    · rename_i hb
      obtain ⟨h1, h2⟩ := h.add ⟨(IdxTable.iterateFree t₂).advance.id hb, d⟩
      revert h1 h2
      generalize IdxTable.add t₁ _ = p₁
      generalize IdxTable.add t₂ _ = p₂
      obtain ⟨u₁, r₁⟩ := p₁
      obtain ⟨u₂, r₂⟩ := p₂
      rintro h1 h2
      simp only at h1 h2
      subst h2
      cases r₁ <;> exact ⟨h1, rfl⟩
    · exact ⟨h, rfl⟩
  | claimRange start n d =>
    have hf : IdxTable.findFreeRange t₁ start n = IdxTable.findFreeRange t₂ start n := by
      unfold IdxTable.findFreeRange; rw [h.iterateFree, h.size]
    simp only [IdxTable.step, claimRange, hf]
    cases IdxTable.findFreeRange t₂ start n with
    | error => exact ⟨h, rfl⟩
    | ok ids => exact ⟨h.addAll.1, congrArg replyUnit h.addAll.2⟩
  | claimSize n d =>
    have hf : IdxTable.findFreeSize t₁ n = IdxTable.findFreeSize t₂ n := by
      unfold IdxTable.findFreeSize; rw [h.iterateFree, h.size]
    simp only [IdxTable.step, claimSize, hf]
    cases IdxTable.findFreeSize t₂ n with
    | error => exact ⟨h, rfl⟩
    | ok ids => exact ⟨h.addAllE.1, congrArg replyEntries h.addAllE.2⟩
  | iterate => exact ⟨h, by simp only [IdxTable.step, h.iterateT]⟩
  | iterateFree => exact ⟨h, by simp only [IdxTable.step, h.iterateFree]⟩
  | size => exact ⟨h, congrArg Reply.nat h.sizeOf⟩
  | has id => exact ⟨h, by simp only [IdxTable.step, has, h.get]⟩
  | isFree id => exact ⟨h, congrArg Reply.bool (h.isFreeB id)⟩
  | findFree => exact ⟨h, congrArg replyId h.findFree⟩
  | findFreeRange start n =>
    refine ⟨h, congrArg replyIds ?_⟩
    unfold IdxTable.findFreeRange; rw [h.iterateFree, h.size]
  | findFreeSize n =>
    refine ⟨h, congrArg replyIds ?_⟩
    unfold IdxTable.findFreeSize; rw [h.iterateFree, h.size]
  | getAll => exact ⟨h, congrArg Reply.entries h.getAll⟩

theorem Same.alike {t₁ t₂ : Table α} (h : Same t₁ t₂) : Alike t₁ t₂ := by
  intro cs
  induction cs generalizing t₁ t₂ with
  | nil => rfl
  | cons c cs ih =>
    obtain ⟨h1, h2⟩ := h.step c
    simp only [run]
    rw [h2, ih h1]

/-! ## what is stored can be read -/

theorem add_size (t : Table α) (e : Entry α) : (add t e).1.size = t.size := by
  unfold add; split
  · rfl
  · split <;> rfl

theorem addAll_size {d : α} : ∀ {ids : List U64} {t : Table α}, (addAll t d ids).1.size = t.size
  | [], _ => rfl
  | id :: ids, t => by
    unfold addAll
    have h := add_size t ⟨id, d⟩
    split
    · rename_i u er he; rw [he] at h; exact h
    · rename_i u he; rw [he] at h; exact addAll_size.trans h

theorem addAllE_size {d : α} : ∀ {ids : List U64} {acc : List (Entry α)} {t : Table α}, (addAllE t d ids acc).1.size = t.size
  | [], _, _ => rfl
  | id :: ids, acc, t => by
    unfold addAllE
    have h := add_size t ⟨id, d⟩
    split
    · rename_i u er he; rw [he] at h; exact h
    · rename_i u he; rw [he] at h; exact addAllE_size.trans h

theorem step_size (t : Table α) (c : Call α) : (step t c).1.size = t.size := by
  cases c with
  | claim id d => exact add_size t _
  | update id d =>
    simp only [step, update, updateE]
    split
    · rfl
    · split <;> rfl
  | release id =>
    simp only [step, release, delete]
    split <;> rfl
  | claimDynamic d =>
    simp only [step, claimDynamic]
    split
    · have h := add_size t ⟨(iterateFree t).advance.id (by assumption), d⟩
      split
      · rename_i u er he; rw [he] at h; exact h
      · rename_i u he; rw [he] at h; exact h
    · rfl
  | claimRange start n d =>
    simp only [step, claimRange]
    split
    · rfl
    · exact addAll_size
  | claimSize n d =>
    simp only [step, claimSize]
    split
    · rfl
    · exact addAllE_size
  | _ => rfl

theorem run_size (cs : List (Call α)) : ∀ t : Table α, (run t cs).1.size = t.size := by
  induction cs with
  | nil => intro t; rfl
  | cons c cs ih => intro t; exact (ih _).trans (step_size t c)

/-- what is stored passes the test of `Get` -/
theorem run_valid (size : U64) (cs : List (Call α)) (k : U64) (e : Entry α)
    (h : (run (newTable size : Table α) cs).1.m.get? k = some e) :
    validate (run (newTable size : Table α) cs).1 k = .ok () := by
  by_cases hs : size = 0
  · unfold validate
    rw [run_size]
    subst hs
    rw [if_neg]
    show ¬ k > 0 - 1
    bv_omega
  · have hi := (run_refines (newTable size) (newTable_inv size hs) cs).2.1
    exact validate_of_lt _ _ (hi.2 k e h).2

theorem get_reply {t : Table α} {k : U64} {e : Entry α} :
    (step t (.get k)).2 = .entry e ↔ validate t k = .ok () ∧ t.m.get? k = some e := by
  simp only [step, get]
  cases validate t k with
  | error => simp [replyEntry]
  | ok =>
    cases t.m.get? k with
    | none => simp [replyEntry]
    | some e' => simp [replyEntry]

/-! ## C96 -/

/-- C96 for the index table: two tables of the same capacity, 0 included, reached by any two histories, whose `Get`
replies are the same for all ids, give the same replies to all sequences of calls. -/
theorem C96_index (size : U64) (cs₁ cs₂ : List (Call α))
    (hget : ∀ id, (step (run (newTable size) cs₁).1 (.get id)).2 = (step (run (newTable size) cs₂).1 (.get id)).2) :
    Alike (run (newTable size) cs₁).1 (run (newTable size) cs₂).1 := by
  refine Same.alike ⟨by rw [run_size, run_size], fun k => Option.ext fun e => ?_⟩
  constructor
  · intro h
    have := get_reply.2 ⟨run_valid size cs₁ k e h, h⟩
    rw [hget] at this
    exact (get_reply.1 this).2
  · intro h
    have := get_reply.2 ⟨run_valid size cs₂ k e h, h⟩
    rw [← hget] at this
    exact (get_reply.1 this).2

/-- two histories with the same result: the hypothesis of `C96_index` -/
example : ∀ id, (step (run (newTable 8 : Table String) [.claim 1 "a", .claim 5 "b"]).1 (.get id)).2 =
    (step (run (newTable 8) [.claim 0 "x", .claim 5 "c", .claim 1 "a", .update 5 "b", .release 0]).1 (.get id)).2 := by
  intro id
  have key : ∀ t₁ t₂ : Table String, t₁.size = t₂.size → t₁.m.get? id = t₂.m.get? id →
      (step t₁ (.get id)).2 = (step t₂ (.get id)).2 := by
    intro t₁ t₂ h1 h2
    simp only [step, get, validate, h1, h2]
  refine key _ _ rfl ?_
  show Option.map Prod.snd (List.find? (fun p => p.1 = id) [((1 : U64), (⟨1, "a"⟩ : Entry String)), (5, ⟨5, "b"⟩)]) =
    Option.map Prod.snd (List.find? (fun p => p.1 = id) [((5 : U64), (⟨5, "b"⟩ : Entry String)), (1, ⟨1, "a"⟩)])
  by_cases h1 : id = 1
  · subst h1; rfl
  · by_cases h5 : id = 5
    · subst h5; rfl
    · have e1 : ¬ (1 : U64) = id := fun h => h1 h.symm
      have e5 : ¬ (5 : U64) = id := fun h => h5 h.symm
      simp only [List.find?_cons, e1, e5, decide_false]

/-! ## C97 -/

/-- the id that a call is about -/
def Call.about : Call α → Option U64
  | .get id | .claim id _ | .release id | .update id _ | .has id | .isFree id => some id
  | _ => none

/-- what a call about the id `k` does to the entry stored under `k`, and its reply -/
def Call.eff (k size : U64) (o : Option (Entry α)) : Call α → Option (Entry α) × Reply α
  | .get _ => (o, if k > size - 1 then .err else match o with | some e => .entry e | none => .err)
  | .claim _ d => if k > size - 1 then (o, .err) else match o with | some e => (some e, .err) | none => (some ⟨k, d⟩, .ok)
  | .update _ d => if k > size - 1 then (o, .err) else match o with | some _ => (some ⟨k, d⟩, .ok) | none => (none, .err)
  | .release _ => if k > size - 1 then (o, .err) else (none, .ok)
  | .has _ => (o, .bool o.isSome)
  | .isFree _ => (o, .bool o.isNone)
  | _ => (o, .err)

theorem about_eff {c : Call α} {k : U64} (hc : c.about = some k) (t : Table α) :
    (step t c).2 = (c.eff k t.size (t.m.get? k)).2 ∧
    ∀ k', (step t c).1.m.get? k' = if k' = k then (c.eff k t.size (t.m.get? k)).1 else t.m.get? k' := by
  have same : ∀ k', t.m.get? k' = if k' = k then t.m.get? k else t.m.get? k' := by
    intro k'
    split
    · rename_i h; rw [h]
    · rfl
  cases c with
  | get id =>
    cases hc
    refine ⟨?_, same⟩
    simp only [step, get, validate, Call.eff]
    by_cases hv : k > t.size - 1
    · simp only [hv, if_true]; rfl
    · simp only [hv, if_false]
      cases t.m.get? k <;> rfl
  | has id => cases hc; exact ⟨rfl, same⟩
  | isFree id => cases hc; exact ⟨rfl, same⟩
  | claim id d =>
    cases hc
    simp only [step, claim, add, validate, isFreeB, Call.eff]
    by_cases hv : k > t.size - 1
    · simp only [hv, if_true]; exact ⟨rfl, same⟩
    · simp only [hv, if_false]
      rcases Option.eq_none_or_eq_some (t.m.get? k) with hk | ⟨e, hk⟩
      · simp only [hk]
        exact ⟨rfl, fun k' => GoMap.get?_set t.m k k' _⟩
      · rw [hk] at same
        simp only [hk]
        exact ⟨rfl, same⟩
  | update id d =>
    cases hc
    simp only [step, update, updateE, validate, isFreeB, Call.eff]
    by_cases hv : k > t.size - 1
    · simp only [hv, if_true]; exact ⟨rfl, same⟩
    · simp only [hv, if_false]
      rcases Option.eq_none_or_eq_some (t.m.get? k) with hk | ⟨e, hk⟩
      · rw [hk] at same
        simp only [hk]
        exact ⟨rfl, same⟩
      · simp only [hk]
        exact ⟨rfl, fun k' => GoMap.get?_set t.m k k' _⟩
  | release id =>
    cases hc
    simp only [step, release, delete, validate, Call.eff]
    by_cases hv : k > t.size - 1
    · simp only [hv, if_true]; exact ⟨rfl, same⟩
    · simp only [hv, if_false]; exact ⟨rfl, fun k' => GoMap.get?_del t.m k k'⟩
  | _ => cases hc

theorem commute_same (t : Table α) {c₁ c₂ : Call α} {k₁ k₂ : U64} (h₁ : c₁.about = some k₁) (h₂ : c₂.about = some k₂)
    (hne : k₁ ≠ k₂) :
    (step (step t c₁).1 c₂).2 = (step t c₂).2 ∧ (step (step t c₂).1 c₁).2 = (step t c₁).2 ∧
    Same (step (step t c₁).1 c₂).1 (step (step t c₂).1 c₁).1 := by
  obtain ⟨a1, a2⟩ := about_eff h₁ t
  obtain ⟨b1, b2⟩ := about_eff h₂ t
  obtain ⟨c1, c2⟩ := about_eff h₂ (step t c₁).1
  obtain ⟨d1, d2⟩ := about_eff h₁ (step t c₂).1
  have e1 : (step t c₁).1.m.get? k₂ = t.m.get? k₂ := by rw [a2, if_neg (Ne.symm hne)]
  have e2 : (step t c₂).1.m.get? k₁ = t.m.get? k₁ := by rw [b2, if_neg hne]
  rw [step_size, e1] at c1 c2
  rw [step_size, e2] at d1 d2
  refine ⟨c1.trans b1.symm, d1.trans a1.symm, ⟨by simp only [step_size], fun k' => ?_⟩⟩
  rw [c2, d2, a2, b2]
  by_cases e1 : k' = k₁
  · rw [if_pos e1, if_neg (fun h => hne (e1.symm.trans h)), if_pos e1]
  · rw [if_neg e1, if_neg e1]

/-- C97 for the index table: in every table, calls about two different ids have the same replies in either order, and no
later call tells the difference. -/
theorem C97_index_commute (t : Table α) {c₁ c₂ : Call α} {k₁ k₂ : U64} (h₁ : c₁.about = some k₁) (h₂ : c₂.about = some k₂)
    (hne : k₁ ≠ k₂) :
    (step (step t c₁).1 c₂).2 = (step t c₂).2 ∧ (step (step t c₂).1 c₁).2 = (step t c₁).2 ∧
    Alike (step (step t c₁).1 c₂).1 (step (step t c₂).1 c₁).1 :=
  ⟨(commute_same t h₁ h₂ hne).1, (commute_same t h₁ h₂ hne).2.1, (commute_same t h₁ h₂ hne).2.2.alike⟩

theorem undo_same (t : Table α) (k : U64) (d : α) (h : (step t (.claim k d)).2 = .ok) :
    (step (step t (.claim k d)).1 (.release k)).2 = .ok ∧ Same (step (step t (.claim k d)).1 (.release k)).1 t := by
  simp only [step, claim, add, release, delete] at h ⊢
  cases hv : validate t k with
  | error => rw [hv] at h; cases h
  | ok u =>
    rw [hv] at h
    cases hf : isFreeB t k with
    | false => simp [hf, replyUnit] at h
    | true =>
      simp only [Bool.not_true, Bool.false_eq_true, if_false]
      have hv' : validate { t with m := t.m.set k ⟨k, d⟩ } k = .ok () := hv
      rw [hv']
      refine ⟨rfl, ⟨rfl, fun k' => ?_⟩⟩
      simp only [GoMap.get?_del, GoMap.get?_set]
      by_cases hk : k' = k
      · rw [if_pos hk, hk]
        unfold isFreeB at hf
        cases hg : t.m.get? k with
        | none => rfl
        | some e => rw [hg] at hf; cases hf
      · rw [if_neg hk, if_neg hk]

/-- C97 for the index table: releasing what was just claimed undoes the claim. -/
theorem C97_index_undo (t : Table α) (k : U64) (d : α) (h : (step t (.claim k d)).2 = .ok) :
    (step (step t (.claim k d)).1 (.release k)).2 = .ok ∧ Alike (step (step t (.claim k d)).1 (.release k)).1 t :=
  ⟨(undo_same t k d h).1, (undo_same t k d h).2.alike⟩

/-- the hypotheses of C97: two claims in a table in which 1 and 5 are claimed -/
example : (Call.claim 2 "x").about = some 2 ∧ (Call.claim 3 "y").about = some 3 ∧ (step exTable (.claim 2 "x")).2 = .ok :=
  ⟨rfl, rfl, rfl⟩

end Verif.IdxTable
