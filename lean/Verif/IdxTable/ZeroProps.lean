import Verif.IdxTable.Props

/-!
C14: exactly what a table of capacity zero does.
-/

namespace Verif.IdxTable
variable {α : Type}

/-- invariant of the table of capacity zero -/
structure ZInv (t : Table α) : Prop where
  size : t.size = 0
  ids : ∀ i e, t.m.get? i = some e → e.id = i

theorem ZInv.validate {t : Table α} (h : ZInv t) (id : U64) : validate t id = .ok () := by
  unfold IdxTable.validate
  rw [h.size, if_neg]
  bv_omega

theorem ZInv.free {t : Table α} (h : ZInv t) : freeKeys t = [] := by simp [freeKeys, h.size]

theorem ZInv.set {t : Table α} (h : ZInv t) (id : U64) (d : α) :
    ZInv { t with m := t.m.set id ⟨id, d⟩ } := by
  refine ⟨h.size, fun i e he => ?_⟩
  simp only [GoMap.get?_set] at he
  by_cases hi : i = id
  · rw [if_pos hi] at he; cases he; exact hi.symm
  · rw [if_neg hi] at he; exact h.ids i e he

theorem not_avail_zero (s : PMap α) (i : U64) : ¬ Avail 0 s i := by
  rintro ⟨h, _⟩
  rw [BitVec.lt_def] at h
  simp at h

theorem not_rangeResult_zero (s : PMap α) (start n : U64) (ids : List U64) : ¬ RangeResult 0 s start n ids := by
  rintro ⟨h, _⟩
  rw [BitVec.lt_def] at h
  simp at h

theorem not_sizeResult_zero (s : PMap α) (n : U64) (ids : List U64) : ¬ SizeResult 0 s n ids := by
  rintro ⟨h1, h2, _, h4, _⟩
  cases ids with
  | nil => rw [List.length_nil] at h2; omega
  | cons i ids => exact not_avail_zero s i (h4 i (List.mem_cons_self ..))

/-- one call on the table of capacity zero; `GetAll` and `Iterate` count the entries in a `uint64` -/
theorem zero_step {t : Table α} (h : ZInv t) (c : Call α) (hn : c = .iterate ∨ c = .getAll → t.m.keys.length < 2 ^ 64) :
    ZeroStep (absMap t) c (absMap (step t c).1) (step t c).2 ∧ ZInv (step t c).1 ∧
    (step t c).1.m.keys.length ≤ t.m.keys.length + 1 := by
  have le : t.m.keys.length ≤ t.m.keys.length + 1 := Nat.le_succ _
  have hset : ∀ (i : U64) e, (t.m.set i e).keys.length ≤ t.m.keys.length + 1 := by
    intro i e
    rw [← GoMap.len_eq_keys_length, ← GoMap.len_eq_keys_length, GoMap.len_set]
    split <;> omega
  have C := C14_zero_capacity_partial t h.size
  cases c with
  | get id =>
    refine ⟨⟨rfl, ?_, ?_⟩, h, le⟩
    · intro d hd
      simp only [absMap, Option.map_eq_some_iff] at hd
      obtain ⟨e, he, rfl⟩ := hd
      have := h.ids id e he
      subst this
      simp [step, get, h.validate, he, replyEntry]
    · intro hd
      rw [absMap_eq_none] at hd
      simp [step, get, h.validate, hd, replyEntry]
  | claim id d =>
    simp only [step, claim, add, h.validate]
    by_cases hg : t.m.get? id = none
    · simp only [isFreeB, hg, Option.isNone_none]
      exact ⟨.inl ⟨(absMap_eq_none t id).2 hg, absMap_set t id d, rfl⟩, h.set id d, hset _ _⟩
    · obtain ⟨e, he⟩ := Option.ne_none_iff_exists'.1 hg
      simp only [isFreeB, he, Option.isNone_some]
      exact ⟨.inr ⟨fun h' => hg ((absMap_eq_none t id).1 h'), rfl, rfl⟩, h, le⟩
  | claimDynamic d =>
    obtain ⟨_, ⟨e, h1⟩, h2, _⟩ := C 0 0 d
    simp only [step, h1, h2]
    exact ⟨.inr ⟨not_avail_zero _, rfl, rfl⟩, h, le⟩
  | claimRange start n d =>
    obtain ⟨_, _, _, _, _, ⟨e, h1⟩, h2⟩ := C start n d
    simp only [step, h1, h2]
    exact ⟨.inr ⟨not_rangeResult_zero _ _ _, rfl, rfl⟩, h, le⟩
  | claimSize n d =>
    obtain ⟨_, _, _, ⟨e, h1⟩, h2, _⟩ := C 0 n d
    simp only [step, h1, h2]
    exact ⟨.inr ⟨not_sizeResult_zero _ _, rfl, rfl⟩, h, le⟩
  | release id =>
    simp only [step, release, delete, h.validate]
    refine ⟨⟨?_, rfl⟩, ⟨h.size, ?_⟩, ?_⟩
    · funext i
      simp only [absMap, GoMap.get?_del, PMap.drop]
      by_cases hi : i = id <;> simp [hi]
    · intro i e he
      simp only [GoMap.get?_del] at he
      by_cases hi : i = id
      · simp [hi] at he
      · simp [hi] at he; exact h.ids i e he
    · show (t.m.del id).keys.length ≤ _
      rw [← GoMap.len_eq_keys_length, ← GoMap.len_eq_keys_length]
      unfold GoMap.len GoMap.del
      exact Nat.le_succ_of_le (List.length_filter_le _ _)
  | update id d =>
    simp only [step, update, updateE, h.validate]
    by_cases hg : t.m.get? id = none
    · simp only [isFreeB, hg, Option.isNone_none]
      exact ⟨.inr ⟨(absMap_eq_none t id).2 hg, rfl, rfl⟩, h, le⟩
    · obtain ⟨e, he⟩ := Option.ne_none_iff_exists'.1 hg
      simp only [isFreeB, he, Option.isNone_some]
      exact ⟨.inl ⟨fun h' => hg ((absMap_eq_none t id).1 h'), absMap_set t id d, rfl⟩, h.set id d, hset _ _⟩
  | iterate =>
    refine ⟨⟨rfl, _, enumerates_sortKeys_keys t, ?_⟩, h, le⟩
    simp only [step, iterateT, iterate, Reply.ids.injEq]
    apply drain_at
    rw [(sortKeys_perm _).length_eq]; exact hn (.inl rfl)
  | iterateFree =>
    have := enumerates_freeKeys t
    rw [h.size] at this
    refine ⟨⟨rfl, _, this, ?_⟩, h, le⟩
    simp only [step, drain_iterateFree]
  | size =>
    refine ⟨⟨rfl, _, enumerates_sortKeys_keys t, ?_⟩, h, le⟩
    simp only [step, sizeOf, GoMap.len_eq_keys_length, (sortKeys_perm _).length_eq]
  | has id =>
    refine ⟨⟨rfl, _, ?_, rfl⟩, h, le⟩
    rw [ne_eq, absMap_eq_none, has]
    cases t.m.get? id <;> simp
  | isFree id =>
    refine ⟨⟨rfl, _, ?_, rfl⟩, h, le⟩
    rw [absMap_eq_none, isFree, isFreeB]
    cases t.m.get? id <;> simp
  | findFree =>
    refine ⟨⟨rfl, .inr ⟨not_avail_zero _, ?_⟩⟩, h, le⟩
    simp only [step, findFree_eq, h.free, replyId]
  | findFreeRange start n =>
    refine ⟨⟨rfl, .inr ⟨not_rangeResult_zero _ _ _, ?_⟩⟩, h, le⟩
    have := findFreeRange_eq_list t start n
    rw [h.free] at this
    simp only [step, this, ffrList]
    split <;> (try split) <;> rfl
  | findFreeSize n =>
    refine ⟨⟨rfl, .inr ⟨not_sizeResult_zero _ _, ?_⟩⟩, h, le⟩
    have := findFreeSize_eq t n
    rw [h.free] at this
    simp only [step, this]
    split
    · rfl
    · rw [if_neg (by simp; omega)]; rfl
  | getAll =>
    have hk : ∀ k ∈ sortKeys t.m.keys, k ∈ t.m.keys := by
      intro k hk; rwa [(sortKeys_perm _).mem_iff] at hk
    refine ⟨⟨rfl, (sortKeys t.m.keys).filterMap t.m.get?, ?_, ?_, ?_⟩, h, le⟩
    · rw [filterMap_ids_of h.ids _ hk]
      exact sortKeys_pairwise_lt _ t.m.keys_nodup
    · intro e
      simp only [List.mem_filterMap, absMap, Option.map_eq_some_iff]
      constructor
      · rintro ⟨k, _, he⟩
        have := h.ids k e he
        subst this
        exact ⟨e, he, rfl⟩
      · rintro ⟨e', he, hd⟩
        have := h.ids _ _ he
        refine ⟨e.id, ?_, ?_⟩
        · rw [(sortKeys_perm _).mem_iff, ← GoMap.get?_isSome_iff, he]; rfl
        · rw [he]
          obtain ⟨i, d⟩ := e
          obtain ⟨i', d'⟩ := e'
          simp at this hd; simp [this, hd]
    · simp only [step, getAll_eq_of_len (hn (.inr rfl))]

theorem zero_run (cs : List (Call α)) : ∀ {t : Table α}, ZInv t → t.m.keys.length + cs.length ≤ 2 ^ 64 →
    ZeroRun (absMap t) cs (run t cs).2 (absMap (run t cs).1) := by
  induction cs with
  | nil => intro t _ _; exact .nil _
  | cons c cs ih =>
    intro t h hn
    rw [List.length_cons] at hn
    obtain ⟨h1, h2, h3⟩ := zero_step h c (fun _ => by omega)
    exact .cons h1 (ih h2 (by omega))

/-- C14, exactly what happens instead, for histories of at most `2^64` calls: the table of capacity zero behaves as a
partial map on all ids in which no id is available: `Claim` of every unclaimed id and every `Release` succeed,
`FindFree`, `ClaimDynamic`, `ClaimRange`, `ClaimSize` and the like always fail. -/
theorem C14_zero_capacity_exact_partial (cs : List (Call α)) (hn : cs.length ≤ 2 ^ 64) :
    ∃ s, ZeroRun (fun _ => none) cs (run (newTable 0 : Table α) cs).2 s := by
  have h : ZInv (newTable 0 : Table α) := ⟨rfl, by intro i e he; simp [newTable] at he⟩
  refine ⟨_, zero_run cs h ?_⟩
  simpa [newTable] using hn

/-- a history: claims of distant ids, a claim that fails, a release -/
example : (run (newTable 0 : Table String)
    [.claim 7 "x", .claim 0xffffffffffffffff "y", .claim 7 "z", .size, .release 7, .has 7, .get 0xffffffffffffffff]).2 =
    [.ok, .ok, .err, .nat 2, .ok, .bool false, .entry ⟨0xffffffffffffffff, "y"⟩] := rfl

/-! A table of any capacity: used for the tables on top, whose capacity may wrap to zero. -/

/-- one call on a table of any capacity -/
def AnyStep (size : U64) (s : PMap α) (c : Call α) (s' : PMap α) (r : Reply α) : Prop :=
  (size ≠ 0 ∧ SpecStep size s c s' r) ∨ (size = 0 ∧ ZeroStep s c s' r)

/-- invariant of a table of any capacity -/
def AnyInv (t : Table α) : Prop := (t.size ≠ 0 ∧ Inv t) ∨ ZInv t

theorem any_new (size : U64) : AnyInv (newTable size : Table α) := by
  by_cases h : size = 0
  · exact .inr ⟨h, by intro i e he; simp [newTable] at he⟩
  · exact .inl ⟨h, newTable_inv size h⟩

theorem AnyInv.ids {t : Table α} (h : AnyInv t) {i : U64} {e : Entry α} (he : t.m.get? i = some e) : e.id = i := by
  rcases h with ⟨_, h⟩ | h
  · exact (h.2 i e he).1
  · exact h.ids i e he

theorem any_step {t : Table α} (h : AnyInv t) (c : Call α)
    (hn : c = .iterate ∨ c = .getAll → t.m.keys.length < 2 ^ 64) :
    AnyStep t.size (absMap t) c (absMap (step t c).1) (step t c).2 ∧ AnyInv (step t c).1 ∧
    (step t c).1.size = t.size := by
  rcases h with ⟨h0, h⟩ | h
  · obtain ⟨h1, h2, h3⟩ := step_refines t h c
    exact ⟨.inl ⟨h0, h1⟩, .inl ⟨by rw [h3]; exact h0, h2⟩, h3⟩
  · obtain ⟨h1, h2, _⟩ := zero_step h c hn
    exact ⟨.inr ⟨h.size, h1⟩, .inr h2, by rw [h.size, h2.size]⟩

theorem AnyInv.len {t : Table α} (h : AnyInv t) (hn : t.size = 0 → t.m.keys.length < 2 ^ 64) : t.m.keys.length < 2 ^ 64 := by
  rcases h with ⟨_, h⟩ | h
  · exact h.keys_length_lt
  · exact hn h.size

end Verif.IdxTable
