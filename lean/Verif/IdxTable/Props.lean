import Verif.IdxTable.Refine

/-!
C01–C14: the index table (`pkg/idxtable`).

`Reachable size t`: `t` is the state of a table created by `NewTable(size)`, `size >= 1`, after an
arbitrary finite history of interface calls.
-/

namespace Verif.IdxTable
variable {α : Type}

/-- a state of `NewTable(size)` after some history of calls -/
def Reachable (size : U64) (t : Table α) : Prop :=
  size ≠ 0 ∧ ∃ cs : List (Call α), t = (run (newTable size) cs).1

theorem Reachable.inv {size : U64} {t : Table α} (h : Reachable size t) : Inv t ∧ t.size = size := by
  obtain ⟨hs, cs, rfl⟩ := h
  have := run_refines (newTable size) (newTable_inv size hs) cs
  exact ⟨this.2.1, this.2.2⟩

theorem run_append (t : Table α) (cs ds : List (Call α)) :
    (run t (cs ++ ds)).1 = (run (run t cs).1 ds).1 := by
  induction cs generalizing t with
  | nil => rfl
  | cons c cs ih => simp only [List.cons_append, run, ih]

theorem Reachable.step {size : U64} {t : Table α} (h : Reachable size t) (c : Call α) :
    Reachable size (step t c).1 := by
  obtain ⟨hs, cs, rfl⟩ := h
  refine ⟨hs, cs ++ [c], ?_⟩
  rw [run_append]; rfl

theorem has_eq_false (t : Table α) (id : U64) : has t id = false ↔ t.m.get? id = none := by
  unfold has; cases t.m.get? id <;> simp

theorem has_eq_true (t : Table α) (id : U64) : has t id = true ↔ ∃ e, t.m.get? id = some e := by
  unfold has; cases t.m.get? id <;> simp

theorem get_congr {t t' : Table α} {j : U64} (hs : t'.size = t.size)
    (hg : t'.m.get? j = t.m.get? j) : get t' j = get t j ∧ has t' j = has t j := by
  simp only [get, has, validate, hs, hg, and_self]

theorem get_some {t : Table α} {j : U64} {e : Entry α} (hj : j < t.size)
    (hg : t.m.get? j = some e) : get t j = .ok e := by
  simp only [get, validate_of_lt t j hj, hg]

/-- a small table used in the examples: capacity 8, ids 1 and 5 claimed -/
def exTable : Table String := (run (newTable 8) [.claim 1 "a", .claim 5 "b"]).1

theorem exTable_reachable : Reachable 8 exTable := ⟨by decide, _, rfl⟩

/-! ## C01 -/

/-- C01: `Claim` is exclusive and exact. -/
theorem C01_claim_exclusive {size : U64} {t : Table α} (h : Reachable size t) (id : U64) (d : α) :
    ((claim t id d).2 = .ok () ↔ id < size ∧ has t id = false) ∧
    ((claim t id d).2 = .ok () →
      get (claim t id d).1 id = .ok ⟨id, d⟩ ∧ has (claim t id d).1 id = true ∧
      ∀ j, j ≠ id → get (claim t id d).1 j = get t j ∧ has (claim t id d).1 j = has t j) ∧
    ((claim t id d).2 ≠ .ok () → (claim t id d).1 = t) := by
  obtain ⟨hi, rfl⟩ := h.inv
  by_cases hl : id < t.size
  · by_cases hn : t.m.get? id = none
    · have hc : claim t id d = ({ t with m := t.m.set id ⟨id, d⟩ }, .ok ()) := add_free t _ hl hn
      rw [hc]
      refine ⟨by simp [hl, has_eq_false, hn], fun _ => ⟨?_, ?_, ?_⟩, by simp⟩
      · exact get_some hl (by simp [GoMap.get?_set])
      · simp [has, GoMap.get?_set]
      · intro j hj
        exact get_congr rfl (by simp [GoMap.get?_set, hj])
    · have hc : claim t id d = (t, .error .alreadyExists) := by
        simp [claim, add, validate_of_lt t id hl, isFreeB, hn]
      rw [hc]
      refine ⟨by simp [has_eq_false, hn], by simp, by simp⟩
  · have hc : claim t id d = (t, .error .tooBig) := by
      simp only [claim, add, (validate_err_iff t id hi.1).2 hl]
    rw [hc]
    exact ⟨by simp [hl], by simp, by simp⟩

example : (claim exTable 2 "c").2 = .ok () ∧ (claim exTable 1 "c").2 ≠ .ok () ∧
    (claim exTable 8 "c").2 ≠ .ok () := by decide

/-! ## C02 -/

/-- C02: the replies of every call history on `NewTable(size)` are those of an abstract partial
map that starts empty. -/
theorem C02_refines_partial_map (size : U64) (hs : size ≠ 0) (cs : List (Call α)) :
    ∃ s', SpecRun size (fun _ => none) cs (run (newTable size) cs).2 s' := by
  have h := (run_refines (newTable size) (newTable_inv size hs) cs).1
  have he : absMap (newTable size : Table α) = fun _ => none := by
    funext i; simp [absMap, newTable]
  rw [he] at h
  exact ⟨_, h⟩

theorem RangeResult.unique {size : U64} {s : PMap α} {start n : U64} {l₁ l₂ : List U64}
    (h₁ : RangeResult size s start n l₁) (h₂ : RangeResult size s start n l₂) : l₁ = l₂ := by
  obtain ⟨_, _, _, z, a1, a2, a3, a4, a5⟩ := h₁
  obtain ⟨_, _, _, w, b1, b2, b3, b4, b5⟩ := h₂
  have h1 := a4 w b1 b2 b3
  have h2 := b4 z a1 a2 a3
  have : z = w := by bv_omega
  subst this
  exact a5.unique b5

theorem SizeResult.unique {size : U64} {s : PMap α} {n : U64} {l₁ l₂ : List U64}
    (h₁ : SizeResult size s n l₁) (h₂ : SizeResult size s n l₂) : l₁ = l₂ := by
  obtain ⟨_, a1, a2, a3, a4⟩ := h₁
  obtain ⟨_, b1, b2, b3, b4⟩ := h₂
  -- both are lower sections of the available ids, so one contains the other
  have key : ∀ {l m : List U64}, l.length = m.length → Ascending l → Ascending m →
      (∀ i ∈ l, Avail size s i) → (∀ i ∈ m, ∀ j, Avail size s j → j < i → j ∈ m) →
      (∀ i ∈ l, ∀ j, Avail size s j → j < i → j ∈ l) → (∀ i ∈ m, Avail size s i) →
      ∀ x ∈ l, x ∈ m := by
    intro l m hlen hl hm hla hmc hlc hma x hx
    apply Classical.byContradiction
    intro hxm
    -- every element of m is below x, hence in l; with x this makes l longer
    have hsub : List.Subset (x :: m) l := by
      intro y hy
      rcases List.mem_cons.1 hy with rfl | hy
      · exact hx
      · have hne : y ≠ x := fun e => hxm (e ▸ hy)
        have hlt : y < x := by
          apply Classical.byContradiction
          intro hnl
          exact hxm (hmc y hy x (hla x hx) (by bv_omega))
        exact hlc x hx y (hma y hy) hlt
    have hnd : (x :: m).Nodup :=
      List.nodup_cons.2 ⟨hxm, hm.imp (by intro a b h; bv_omega)⟩
    have := (List.subperm_of_subset hnd hsub).length_le
    simp at this; omega
  exact sorted_ext a2 b2 (fun x =>
    ⟨key (by omega) a2 b2 a3 b4 a4 b3 x, key (by omega) b2 a2 b3 a4 b4 a3 x⟩)

theorem LeastAvail.unique {size : U64} {s : PMap α} {i j : U64} (h₁ : LeastAvail size s i)
    (h₂ : LeastAvail size s j) : i = j := by
  have := h₁.2 j h₂.1
  have := h₂.2 i h₁.1
  bv_omega

/-- The abstract map of C02 is deterministic: it fixes reply and next state of every call, so C02
pins down the behaviour of the table completely. -/
theorem C02_spec_deterministic {size : U64} {s : PMap α} {c : Call α} {s₁ s₂ : PMap α}
    {r₁ r₂ : Reply α} (h₁ : SpecStep size s c s₁ r₁) (h₂ : SpecStep size s c s₂ r₂) :
    s₁ = s₂ ∧ r₁ = r₂ := by
  cases c with
  | get id =>
    obtain ⟨rfl, a, b⟩ := h₁
    obtain ⟨rfl, c, d⟩ := h₂
    cases hs : s₂ id with
    | none => exact ⟨rfl, by rw [b hs, d hs]⟩
    | some x => exact ⟨rfl, by rw [a x hs, c x hs]⟩
  | claim id d =>
    rcases h₁ with ⟨a, rfl, rfl⟩ | ⟨a, rfl, rfl⟩ <;> rcases h₂ with ⟨b, rfl, rfl⟩ | ⟨b, rfl, rfl⟩ <;>
      first | exact ⟨rfl, rfl⟩ | exact absurd a b | exact absurd b a
  | claimDynamic d =>
    rcases h₁ with ⟨i, a, rfl, rfl⟩ | ⟨a, rfl, rfl⟩ <;>
      rcases h₂ with ⟨j, b, rfl, rfl⟩ | ⟨b, rfl, rfl⟩
    · rw [a.unique b]; exact ⟨rfl, rfl⟩
    · exact absurd a.1 (b i)
    · exact absurd b.1 (a j)
    · exact ⟨rfl, rfl⟩
  | claimRange start n d =>
    rcases h₁ with ⟨i, a, rfl, rfl⟩ | ⟨a, rfl, rfl⟩ <;>
      rcases h₂ with ⟨j, b, rfl, rfl⟩ | ⟨b, rfl, rfl⟩
    · rw [a.unique b]; exact ⟨rfl, rfl⟩
    · exact absurd a (b i)
    · exact absurd b (a j)
    · exact ⟨rfl, rfl⟩
  | claimSize n d =>
    rcases h₁ with ⟨i, a, rfl, rfl⟩ | ⟨a, rfl, rfl⟩ <;>
      rcases h₂ with ⟨j, b, rfl, rfl⟩ | ⟨b, rfl, rfl⟩
    · rw [a.unique b]; exact ⟨rfl, rfl⟩
    · exact absurd a (b i)
    · exact absurd b (a j)
    · exact ⟨rfl, rfl⟩
  | release id =>
    rcases h₁ with ⟨a, rfl, rfl⟩ | ⟨a, rfl, rfl⟩ <;> rcases h₂ with ⟨b, rfl, rfl⟩ | ⟨b, rfl, rfl⟩ <;>
      first | exact ⟨rfl, rfl⟩ | exact absurd a b | exact absurd b a
  | update id d =>
    rcases h₁ with ⟨a, rfl, rfl⟩ | ⟨a, rfl, rfl⟩ <;> rcases h₂ with ⟨b, rfl, rfl⟩ | ⟨b, rfl, rfl⟩
    · exact ⟨rfl, rfl⟩
    · exact absurd b a
    · exact absurd a b
    · exact ⟨rfl, rfl⟩
  | iterate =>
    obtain ⟨rfl, i, a, rfl⟩ := h₁; obtain ⟨rfl, j, b, rfl⟩ := h₂
    rw [a.unique b]; exact ⟨rfl, rfl⟩
  | iterateFree =>
    obtain ⟨rfl, i, a, rfl⟩ := h₁; obtain ⟨rfl, j, b, rfl⟩ := h₂
    rw [a.unique b]; exact ⟨rfl, rfl⟩
  | size =>
    obtain ⟨rfl, i, a, rfl⟩ := h₁; obtain ⟨rfl, j, b, rfl⟩ := h₂
    rw [a.unique b]; exact ⟨rfl, rfl⟩
  | has id =>
    obtain ⟨rfl, i, a, rfl⟩ := h₁; obtain ⟨rfl, j, b, rfl⟩ := h₂
    have : i = j := by rw [Bool.eq_iff_iff]; exact a.trans b.symm
    rw [this]; exact ⟨rfl, rfl⟩
  | isFree id =>
    obtain ⟨rfl, i, a, rfl⟩ := h₁; obtain ⟨rfl, j, b, rfl⟩ := h₂
    have : i = j := by rw [Bool.eq_iff_iff]; exact a.trans b.symm
    rw [this]; exact ⟨rfl, rfl⟩
  | findFree =>
    obtain ⟨rfl, h₁⟩ := h₁; obtain ⟨rfl, h₂⟩ := h₂
    rcases h₁ with ⟨i, a, rfl⟩ | ⟨a, rfl⟩ <;> rcases h₂ with ⟨j, b, rfl⟩ | ⟨b, rfl⟩
    · rw [a.unique b]; exact ⟨rfl, rfl⟩
    · exact absurd a.1 (b i)
    · exact absurd b.1 (a j)
    · exact ⟨rfl, rfl⟩
  | findFreeRange start n =>
    obtain ⟨rfl, h₁⟩ := h₁; obtain ⟨rfl, h₂⟩ := h₂
    rcases h₁ with ⟨i, a, rfl⟩ | ⟨a, rfl⟩ <;> rcases h₂ with ⟨j, b, rfl⟩ | ⟨b, rfl⟩
    · rw [a.unique b]; exact ⟨rfl, rfl⟩
    · exact absurd a (b i)
    · exact absurd b (a j)
    · exact ⟨rfl, rfl⟩
  | findFreeSize n =>
    obtain ⟨rfl, h₁⟩ := h₁; obtain ⟨rfl, h₂⟩ := h₂
    rcases h₁ with ⟨i, a, rfl⟩ | ⟨a, rfl⟩ <;> rcases h₂ with ⟨j, b, rfl⟩ | ⟨b, rfl⟩
    · rw [a.unique b]; exact ⟨rfl, rfl⟩
    · exact absurd a (b i)
    · exact absurd b (a j)
    · exact ⟨rfl, rfl⟩
  | getAll =>
    obtain ⟨rfl, i, a, a', rfl⟩ := h₁; obtain ⟨rfl, j, b, b', rfl⟩ := h₂
    have hids : i.map Entry.id = j.map Entry.id := by
      apply sorted_ext a b
      intro x
      simp only [List.mem_map]
      constructor
      · rintro ⟨e, he, rfl⟩; exact ⟨e, (b' e).2 ((a' e).1 he), rfl⟩
      · rintro ⟨e, he, rfl⟩; exact ⟨e, (a' e).2 ((b' e).1 he), rfl⟩
    have hrec : ∀ l : List (Entry α), (∀ e ∈ l, s₂ e.id = some e.data) →
        l.map some = (l.map Entry.id).map (fun k => (s₂ k).map (fun d => ⟨k, d⟩)) := by
      intro l hl
      rw [List.map_map]
      apply List.map_congr_left
      intro e he
      simp [hl e he]
    rw [hrec i (fun e he => (a' e).1 he), hrec j (fun e he => (b' e).1 he), hids]
    exact ⟨rfl, rfl⟩

/-- C02, as an equation: any reply list the abstract map allows is the one the table gives. -/
theorem C02_replies_unique (size : U64) (hs : size ≠ 0) (cs : List (Call α)) (rs : List (Reply α))
    (s' : PMap α) (h : SpecRun size (fun _ => none) cs rs s') :
    rs = (run (newTable size) cs).2 := by
  obtain ⟨s'', h'⟩ := C02_refines_partial_map (α := α) size hs cs
  have key : ∀ {s : PMap α} {cs rs₁ s₁}, SpecRun size s cs rs₁ s₁ → ∀ {rs₂ s₂},
      SpecRun size s cs rs₂ s₂ → rs₁ = rs₂ := by
    intro s cs rs₁ s₁ h₁
    induction h₁ with
    | nil => intro rs₂ s₂ h₂; cases h₂; rfl
    | cons a _ ih =>
      intro rs₂ s₂ h₂
      cases h₂ with
      | cons b hr =>
        obtain ⟨rfl, rfl⟩ := C02_spec_deterministic a b
        rw [ih hr]
  exact key h h'

example : (8 : U64) ≠ 0 ∧
    ((run (newTable 8) [.claim 1 "a", .claim 1 "b", .get 1]).2.length = 3) := by decide

/-! ## C03 -/

/-- C03: `Release` frees exactly one id and is idempotent. -/
theorem C03_release {size : U64} {t : Table α} (h : Reachable size t) (id : U64) :
    (id < size →
      (release t id).2 = .ok () ∧ has (release t id).1 id = false ∧
      (∀ d, (claim (release t id).1 id d).2 = .ok ()) ∧
      (∀ j, j ≠ id → get (release t id).1 j = get t j ∧ has (release t id).1 j = has t j) ∧
      (has t id = false → (release t id).1 = t) ∧
      release (release t id).1 id = ((release t id).1, .ok ())) ∧
    (¬ id < size → (release t id).2 ≠ .ok () ∧ (release t id).1 = t) := by
  have hreach := h.step (.release id)
  obtain ⟨hi, rfl⟩ := h.inv
  constructor
  · intro hl
    have hr : release t id = ({ t with m := t.m.del id }, .ok ()) := by
      simp only [release, delete, validate_of_lt t id hl]
    have hf : has (release t id).1 id = false := by
      rw [hr, has_eq_false]; simp [GoMap.get?_del]
    refine ⟨by rw [hr], hf, ?_, ?_, ?_, ?_⟩
    · intro d
      exact ((C01_claim_exclusive hreach id d).1).2 ⟨hl, hf⟩
    · intro j hj
      rw [hr]
      exact get_congr rfl (by simp [GoMap.get?_del, hj])
    · intro hn
      rw [has_eq_false] at hn
      rw [hr]
      simp only [GoMap.del_of_not_mem _ _ hn]
    · rw [hr]
      have hl' : id < ({ t with m := t.m.del id } : Table α).size := hl
      simp only [release, delete, validate_of_lt _ id hl']
      have : (t.m.del id).get? id = none := by simp [GoMap.get?_del]
      rw [GoMap.del_of_not_mem _ _ this]
  · intro hl
    have hr : release t id = (t, .error .tooBig) := by
      simp only [release, delete, (validate_err_iff t id hi.1).2 hl]
    rw [hr]; simp

example : (5 : U64) < 8 ∧ has exTable 5 = true ∧ ¬ (9 : U64) < 8 := by decide

/-! ## C04 -/

/-- C04: `Update` never creates an entry. -/
theorem C04_update {size : U64} {t : Table α} (h : Reachable size t) (id : U64) (d : α) :
    ((update t id d).2 = .ok () ↔ id < size ∧ has t id = true) ∧
    ((update t id d).2 = .ok () → get (update t id d).1 id = .ok ⟨id, d⟩) ∧
    (∀ j, has (update t id d).1 j = has t j) ∧
    (∀ j, j ≠ id → get (update t id d).1 j = get t j) ∧
    ((update t id d).2 ≠ .ok () → (update t id d).1 = t) := by
  obtain ⟨hi, rfl⟩ := h.inv
  by_cases hl : id < t.size
  · by_cases hn : t.m.get? id = none
    · have hc : update t id d = (t, .error .notCreated) := by
        simp [update, updateE, validate_of_lt t id hl, isFreeB, hn]
      rw [hc]
      have : has t id = false := (has_eq_false t id).2 hn
      simp [this]
    · have hc : update t id d = ({ t with m := t.m.set id ⟨id, d⟩ }, .ok ()) := by
        simp [update, updateE, validate_of_lt t id hl, isFreeB, hn]
      obtain ⟨e, he⟩ := Option.ne_none_iff_exists'.1 hn
      rw [hc]
      refine ⟨by simp [hl, has, he], fun _ => get_some hl (by simp [GoMap.get?_set]), ?_, ?_, by simp⟩
      · intro j
        by_cases hj : j = id
        · subst hj; simp [has, GoMap.get?_set, he]
        · simp [has, GoMap.get?_set, hj]
      · intro j hj
        exact (get_congr (t := t) (t' := { t with m := t.m.set id ⟨id, d⟩ }) (j := j) rfl
          (by simp [GoMap.get?_set, hj])).1
  · have hc : update t id d = (t, .error .tooBig) := by
      simp only [update, updateE, (validate_err_iff t id hi.1).2 hl]
    rw [hc]; simp [hl]

example : (update exTable 5 "z").2 = .ok () ∧ (update exTable 0 "z").2 ≠ .ok () := by decide

/-! ## C05 -/

/-- C05: `ClaimDynamic` claims and returns the smallest free id, or fails when there is none. -/
theorem C05_claimDynamic_smallest {size : U64} {t : Table α} (h : Reachable size t) (d : α) :
    (∃ i, i < size ∧ has t i = false ∧ (∀ j, j < i → has t j = true) ∧
      (claimDynamic t d).2 = .ok ⟨i, d⟩ ∧
      get (claimDynamic t d).1 i = .ok ⟨i, d⟩ ∧ has (claimDynamic t d).1 i = true ∧
      ∀ j, j ≠ i → get (claimDynamic t d).1 j = get t j ∧ has (claimDynamic t d).1 j = has t j) ∨
    ((∀ j, j < size → has t j = true) ∧ (∃ e, (claimDynamic t d).2 = .error e) ∧
      (claimDynamic t d).1 = t) := by
  obtain ⟨hi, rfl⟩ := h.inv
  rw [claimDynamic_eq]
  cases hk : freeKeys t with
  | nil =>
    right
    refine ⟨?_, ⟨_, rfl⟩, rfl⟩
    intro j hj
    apply Classical.byContradiction
    intro hf
    have : j ∈ freeKeys t := by
      rw [mem_freeKeys]; exact ⟨hj, (has_eq_false t j).1 (by simpa using hf)⟩
    rw [hk] at this; cases this
  | cons x xs =>
    left
    obtain ⟨⟨h1, h2⟩, h3⟩ := (leastAvail_iff t x).2 ⟨xs, hk⟩
    rw [absMap_eq_none] at h2
    refine ⟨x, h1, (has_eq_false t x).2 h2, ?_, rfl, get_some h1 (by simp [GoMap.get?_set]),
      by simp [has, GoMap.get?_set], ?_⟩
    · intro j hj
      apply Classical.byContradiction
      intro hf
      have := h3 j ⟨by bv_omega, (absMap_eq_none t j).2 ((has_eq_false t j).1 (by simpa using hf))⟩
      bv_omega
    · intro j hj
      exact get_congr rfl (by simp [GoMap.get?_set, hj])

example : ∃ i, i < 8 ∧ has exTable i = false ∧ ∃ j, has exTable j = true :=
  ⟨0, by decide, by decide, 1, by decide⟩

/-! ## C06 -/

/-- the ids of `[0,size)` that are not claimed, as observed with `Has` -/
def FreeId (size : U64) (t : Table α) (i : U64) : Prop := i < size ∧ has t i = false

theorem freeId_iff {t : Table α} (i : U64) : FreeId t.size t i ↔ Avail t.size (absMap t) i := by
  rw [FreeId, has_eq_false, Avail, absMap_eq_none]

/-- C06: `ClaimSize(n,d)`, `n >= 1`: with `free` the ascending list of the free ids, it succeeds
iff `n <= len(free)` and then claims exactly the first `n` of them; otherwise nothing changes. -/
theorem C06_claimSize {size : U64} {t : Table α} (h : Reachable size t) (n : U64) (hn : n ≠ 0)
    (d : α) (free : List U64) (hfree : Enumerates free (FreeId size t)) :
    (n.toNat ≤ free.length →
      (claimSize t n d).2 = .ok ((free.take n.toNat).map fun i => ⟨i, d⟩) ∧
      (∀ i ∈ free.take n.toNat, get (claimSize t n d).1 i = .ok ⟨i, d⟩) ∧
      (∀ j, j ∉ free.take n.toNat →
        get (claimSize t n d).1 j = get t j ∧ has (claimSize t n d).1 j = has t j)) ∧
    (free.length < n.toNat →
      (∃ e, (claimSize t n d).2 = .error e) ∧ (claimSize t n d).1 = t) := by
  obtain ⟨hi, rfl⟩ := h.inv
  have hf : free = freeKeys t := by
    apply hfree.unique
    have := enumerates_freeKeys t
    exact ⟨this.1, fun i => (this.2 i).trans (freeId_iff i).symm⟩
  subst hf
  have hn' : 0 < n.toNat := by bv_omega
  have hle := freeKeys_length_le t
  have hff := findFreeSize_eq t n
  constructor
  · intro hlen
    rw [if_neg (by rw [gt_iff_lt, BitVec.lt_def]; omega), if_pos ⟨hn', hlen⟩] at hff
    rcases claimSize_eq t n d with ⟨ids, h1, h2, h3⟩ | ⟨e, h1, _, _⟩
    · rw [hff] at h1
      injection h1 with h1
      subst h1
      rw [h3]
      refine ⟨rfl, ?_, ?_⟩
      · intro i him
        apply get_some
        · rw [setAll_size]; exact ((mem_freeKeys t i).1 (List.mem_of_mem_take him)).1
        · rw [setAll_get?, if_pos him]
      · intro j hj
        exact get_congr (setAll_size _ _ _) (by rw [setAll_get?, if_neg hj])
    · rw [hff] at h1; cases h1
  · intro hlen
    rcases claimSize_eq t n d with ⟨ids, h1, h2, h3⟩ | ⟨e, h1, _, h3⟩
    · rw [hff] at h1
      split at h1
      · cases h1
      rw [if_neg (by omega)] at h1; cases h1
    · rw [h3]; exact ⟨⟨_, rfl⟩, rfl⟩

example : Enumerates [0, 2, 3, 4, 6, 7] (FreeId 8 exTable) := by
  have h := enumerates_freeKeys exTable
  have hs : freeKeys exTable = [0, 2, 3, 4, 6, 7] := by decide
  rw [hs] at h
  exact ⟨h.1, fun i => (h.2 i).trans (freeId_iff i).symm⟩

/-- `ClaimSize(0)` always fails (not covered by C06: it asks for nothing and gets an error). -/
theorem C06_claimSize_zero (t : Table α) (d : α) :
    (∃ e, (claimSize t 0 d).2 = .error e) ∧ (claimSize t 0 d).1 = t := by
  have hff := findFreeSize_eq t 0
  rw [if_neg (by bv_omega), if_neg (by simp)] at hff
  rw [claimSize, hff]
  exact ⟨⟨_, rfl⟩, rfl⟩

/-! ## C07 -/

/-- `x` is one of the `n` ids starting at `start` (as integers, no wrap-around) -/
def InWindow (start n x : U64) : Prop := start.toNat ≤ x.toNat ∧ x.toNat < start.toNat + n.toNat

/-- C07 as stated: whenever `ClaimRange(start,n,d)` succeeds, it claims exactly
`start..start+n-1`. -/
def ClaimRangeExact (t : Table String) (start n : U64) : Prop :=
  ∀ d, (claimRange t start n d).2 = .ok () →
    ∀ x, (has t x = false ∧ has (claimRange t start n d).1 x = true ↔ InWindow start n x)

theorem findFreeRange_eq_list (t : Table α) (start n : U64) :
    findFreeRange t start n =
      if start > t.size - 1 then .error .startTooBig
      else if start + n - 1 > t.size - 1 then .error .endTooBig
      else ffrList start (start + n - 1) none (freeKeys t) [] := by
  unfold findFreeRange
  simp only
  by_cases h1 : start > t.size - 1
  · rw [if_pos h1, if_pos h1]
  by_cases h2 : start + n - 1 > t.size - 1
  · rw [if_neg h1, if_neg h1, if_pos h2, if_pos h2]
  rw [if_neg h1, if_neg h1, if_neg h2, if_neg h2, iterateFree_keys, iterateFree_at,
    ffr_loop_eq_list _ _ _ (freeKeys_length_lt t) _ _ _ (by omega) (by omega)]
  rfl

/-- to refute `ClaimRangeExact` it is enough to exhibit one id -/
theorem claimRange_witness {size : U64} {t : Table String} (h : Reachable size t) (start n : U64)
    (ids : List U64) (hf : findFreeRange t start n = .ok ids) (x : U64)
    (hx : ¬ (x ∈ ids ↔ InWindow start n x)) : ¬ ClaimRangeExact t start n := by
  obtain ⟨hi, rfl⟩ := h.inv
  intro hall
  rcases claimRange_eq t hi.1 start n "d" with ⟨ids', h1, h2, h3⟩ | ⟨e, h1, _⟩
  · rw [hf] at h1; injection h1 with h1; subst h1
    have := hall "d" (by rw [h3]) x
    apply hx
    rw [← this, h3]
    constructor
    · intro hm
      refine ⟨(has_eq_false t x).2 ((absMap_eq_none t x).1 ((rangeResult_avail h2).2 x hm).2), ?_⟩
      simp [has, setAll_get?, hm]
    · rintro ⟨h4, h5⟩
      rw [has_eq_false] at h4
      apply Classical.byContradiction
      intro hm
      simp [has, setAll_get?, hm, h4] at h5
  · rw [hf] at h1; cases h1

/-- C07 is violated: a request for one id claims two. -/
theorem C07_single_violated :
    ∃ (size : U64) (t : Table String) (start : U64), Reachable size t ∧ start < size ∧
      has t start = false ∧ ¬ ClaimRangeExact t start 1 := by
  refine ⟨8, newTable 8, 3, ⟨by decide, [], rfl⟩, by decide, by decide, ?_⟩
  apply claimRange_witness (⟨by decide, [], rfl⟩ : Reachable 8 (newTable 8)) 3 1 [3, 4] _ 4
  · unfold InWindow; decide
  · rw [findFreeRange_eq_list]; decide

/-- C07 is violated: a claimed id just before the end of the window is skipped silently. -/
theorem C07_gap_violated :
    ∃ (size : U64) (t : Table String) (start n : U64), Reachable size t ∧
      start.toNat + n.toNat ≤ size.toNat ∧ 2 ≤ n.toNat ∧ ¬ ClaimRangeExact t start n := by
  refine ⟨8, exTable, 0, 3, exTable_reachable, by decide, by decide, ?_⟩
  apply claimRange_witness exTable_reachable 0 3 [0, 2] _ 1
  · unfold InWindow; decide
  · rw [findFreeRange_eq_list]; decide

/-- C07 is violated: if the last id of the window is claimed, an id beyond the window is taken. -/
theorem C07_end_violated :
    ∃ (size : U64) (t : Table String) (start n x : U64), Reachable size t ∧
      start.toNat + n.toNat ≤ size.toNat ∧ 2 ≤ n.toNat ∧
      (∃ d, (claimRange t start n d).2 = .ok () ∧ has t x = false ∧
        has (claimRange t start n d).1 x = true ∧ ¬ InWindow start n x) := by
  refine ⟨8, exTable, 3, 3, 6, exTable_reachable, by decide, by decide, "d", ?_⟩
  obtain ⟨hi, hsz⟩ := exTable_reachable.inv
  have hf : findFreeRange exTable 3 3 = .ok [3, 4, 6] := by rw [findFreeRange_eq_list]; decide
  rcases claimRange_eq exTable hi.1 3 3 "d" with ⟨ids', h1, h2, h3⟩ | ⟨e, h1, _⟩
  · rw [hf] at h1; injection h1 with h1; subst h1
    rw [h3]
    refine ⟨rfl, by decide, by simp [has, setAll_get?], by unfold InWindow; decide⟩
  · rw [hf] at h1; cases h1

/-- C07 is violated: the first id of the window is claimed, the call still succeeds. -/
theorem C07_start_violated :
    ∃ (size : U64) (t : Table String) (start n : U64), Reachable size t ∧
      start.toNat + n.toNat ≤ size.toNat ∧ 2 ≤ n.toNat ∧ has t start = true ∧
      (∃ ids, findFreeRange t start n = .ok ids) ∧ ¬ ClaimRangeExact t start n := by
  have hf : findFreeRange exTable 1 2 = .ok [2] := by rw [findFreeRange_eq_list]; decide
  refine ⟨8, exTable, 1, 2, exTable_reachable, by decide, by decide, by decide, ⟨_, hf⟩, ?_⟩
  apply claimRange_witness exTable_reachable 1 2 [2] hf 1
  unfold InWindow; decide

/-- C07 is violated: a window larger than the table is accepted because its end wraps around. -/
theorem C07_wrap_violated :
    ∃ (size : U64) (t : Table String) (start n : U64), Reachable size t ∧
      size.toNat < start.toNat + n.toNat ∧ (∃ ids, findFreeRange t start n = .ok ids) := by
  refine ⟨8, exTable, 2, -1, exTable_reachable, by decide, [2, 3], ?_⟩
  rw [findFreeRange_eq_list]; decide

theorem window_result {size : U64} {t : Table α} (h : Reachable size t) (start n : U64)
    (hn : 2 ≤ n.toNat) (hin : start.toNat + n.toNat ≤ size.toNat)
    (hall : ∀ x, InWindow start n x → has t x = false) :
    (∀ x, InWindow start n x → x < size) ∧
    ∃ ids, Enumerates ids (InWindow start n) ∧ RangeResult size (absMap t) start n ids := by
  obtain ⟨hi, rfl⟩ := h.inv
  have hsz := t.size.isLt
  have hstop : (start + n - 1).toNat = start.toNat + n.toNat - 1 := by bv_omega
  have hw : ∀ x, InWindow start n x → Avail t.size (absMap t) x := by
    intro x hx
    rw [← freeId_iff]
    refine ⟨?_, hall x hx⟩
    rw [BitVec.lt_def]; unfold InWindow at hx; omega
  have hstopw : InWindow start n (start + n - 1) := by unfold InWindow; omega
  have hex : ∃ ids, Enumerates ids (InWindow start n) ∧ RangeResult t.size (absMap t) start n ids := by
    refine ⟨(freeKeys t).filter (fun x => decide (start ≤ x ∧ x ≤ start + n - 1)), ?_⟩
    have hmem : ∀ x, (Avail t.size (absMap t) x ∧ start ≤ x ∧ x ≤ start + n - 1) ↔
        InWindow start n x := by
      intro x
      constructor
      · rintro ⟨_, h1, h2⟩
        rw [BitVec.le_def] at h1 h2
        unfold InWindow; omega
      · intro hx
        refine ⟨hw x hx, ?_⟩
        unfold InWindow at hx
        rw [BitVec.le_def, BitVec.le_def]; omega
    have henum : Enumerates ((freeKeys t).filter (fun x => decide (start ≤ x ∧ x ≤ start + n - 1)))
        (fun x => Avail t.size (absMap t) x ∧ start ≤ x ∧ x ≤ start + n - 1) := by
      refine ⟨(freeKeys_sorted t).filter _, ?_⟩
      intro i; simp [avail_iff]
    refine ⟨⟨henum.1, fun x => (henum.2 x).trans (hmem x)⟩, ?_⟩
    refine ⟨?_, ?_, ?_, start + n - 1, hw _ hstopw, ?_, ?_, ?_, henum⟩
    · rw [BitVec.lt_def]; omega
    · rw [BitVec.lt_def]; omega
    · intro x _ h1 h2
      apply hw
      rw [BitVec.lt_def] at h1 h2
      have : (x - 1).toNat = x.toNat - 1 := by bv_omega
      unfold InWindow; omega
    · rw [BitVec.lt_def]; omega
    · bv_omega
    · intro y _ _ hy; exact hy
  exact ⟨fun x hx => (hw x hx).1, hex⟩

/-- C07, part that holds (i): a window of at least two ids that lies in the table and is entirely
free is found, and claimed exactly. Missing for the full C07: single ids, windows whose ids are
partly in use, windows that wrap (see the `_violated` theorems). -/
theorem C07_free_window_partial {size : U64} {t : Table α} (h : Reachable size t) (start n : U64)
    (hn : 2 ≤ n.toNat) (hin : start.toNat + n.toNat ≤ size.toNat)
    (hall : ∀ x, InWindow start n x → has t x = false) (d : α) :
    (∃ ids, findFreeRange t start n = .ok ids ∧ Enumerates ids (InWindow start n)) ∧
    (claimRange t start n d).2 = .ok () ∧
    (∀ x, InWindow start n x → get (claimRange t start n d).1 x = .ok ⟨x, d⟩) ∧
    (∀ x, ¬ InWindow start n x →
      get (claimRange t start n d).1 x = get t x ∧ has (claimRange t start n d).1 x = has t x) := by
  obtain ⟨hlt, ids, he, hr⟩ := window_result h start n hn hin hall
  obtain ⟨hi, rfl⟩ := h.inv
  rcases claimRange_eq t hi.1 start n d with ⟨ids', h1, h2, h3⟩ | ⟨e, h1, h2, _⟩
  · have : ids' = ids := h2.unique hr
    subst this
    refine ⟨⟨_, h1, he⟩, by rw [h3], ?_, ?_⟩
    · intro x hx
      rw [h3]
      apply get_some
      · rw [setAll_size]; exact hlt x hx
      · rw [setAll_get?, if_pos ((he.2 x).2 hx)]
    · intro x hx
      rw [h3]
      exact get_congr (setAll_size _ _ _) (by rw [setAll_get?, if_neg (fun hm => hx ((he.2 x).1 hm))])
  · exact absurd hr (h2 ids)

example : (2 : Nat) ≤ (2 : U64).toNat ∧ (2 : U64).toNat + (3 : U64).toNat ≤ (8 : U64).toNat ∧
    ∀ x, InWindow 2 3 x → has exTable x = false := by
  refine ⟨by decide, by decide, ?_⟩
  intro x ⟨h1, h2⟩
  have : x = 2 ∨ x = 3 ∨ x = 4 := by
    have a : (2 : U64).toNat = 2 := rfl
    have b : (3 : U64).toNat = 3 := rfl
    rw [a] at h1; rw [a, b] at h2
    bv_omega
  rcases this with rfl | rfl | rfl <;> decide

/-- C07, part that holds (ii): the result is exactly the window as soon as it has `n` ids of which
none lies beyond the window, so a caller can detect every wrong answer. -/
theorem C07_detectable_partial {size : U64} {t : Table α} (h : Reachable size t) (start n : U64)
    (ids : List U64) (hf : findFreeRange t start n = .ok ids) (hlen : ids.length = n.toNat)
    (hlast : ∀ x ∈ ids, x.toNat < start.toNat + n.toNat) :
    Enumerates ids (InWindow start n) := by
  obtain ⟨hi, rfl⟩ := h.inv
  rw [← rangeResult_iff t hi.1] at hf
  obtain ⟨h1, h2, h3, z, _, _, _, _, he⟩ := hf
  refine ⟨he.1, ?_⟩
  have hsub : ∀ x ∈ ids, InWindow start n x := by
    intro x hx
    have := ((he.2 x).1 hx).2.1
    rw [BitVec.le_def] at this
    exact ⟨this, hlast x hx⟩
  intro x
  refine ⟨hsub x, ?_⟩
  intro hx
  apply Classical.byContradiction
  intro hxm
  have hnd : (x :: ids).Nodup := List.nodup_cons.2 ⟨hxm, he.1.imp (by intro a b h; bv_omega)⟩
  have hs : List.Subset ((x :: ids).map BitVec.toNat)
      ((List.range n.toNat).map (start.toNat + ·)) := by
    intro y hy
    obtain ⟨w, hw, rfl⟩ := List.mem_map.1 hy
    have hw' : InWindow start n w := by
      rcases List.mem_cons.1 hw with rfl | hw
      · exact hx
      · exact hsub w hw
    refine List.mem_map.2 ⟨w.toNat - start.toNat, List.mem_range.2 ?_, ?_⟩
    · unfold InWindow at hw'; omega
    · unfold InWindow at hw'; omega
  have hnd' : ((x :: ids).map BitVec.toNat).Nodup :=
    hnd.map BitVec.toNat (fun a b hab he => hab (BitVec.eq_of_toNat_eq he))
  have := (List.subperm_of_subset hnd' hs).length_le
  simp at this; omega

example : findFreeRange exTable 2 3 = .ok [2, 3, 4] := by rw [findFreeRange_eq_list]; decide

/-- C07, the exact behaviour for all arguments (what the code does instead): success is
characterised by `RangeResult`, for every start and size including wrapping ones. -/
theorem C07_exact_behaviour_partial {size : U64} {t : Table α} (h : Reachable size t)
    (start n : U64) (ids : List U64) :
    findFreeRange t start n = .ok ids ↔
      RangeResult size (fun i => match get t i with | .ok e => some e.data | .error _ => none)
        start n ids := by
  obtain ⟨hi, rfl⟩ := h.inv
  rw [← rangeResult_iff t hi.1]
  have : absMap t = (fun i => match get t i with | .ok e => some e.data | .error _ => none) := by
    funext i
    unfold absMap
    cases hg : t.m.get? i with
    | none => rcases validate_cases t i with hv | hv <;> simp [get, hv, hg]
    | some e => rw [get_some (hi.2 i e hg).2 hg]; rfl
  rw [this]

/-! ## C08 -/

/-- C08: `ClaimRange` never overwrites and is atomic. -/
theorem C08_claimRange_safe {size : U64} {t : Table α} (h : Reachable size t) (start n : U64)
    (d : α) :
    (∀ j, has t j = true → get (claimRange t start n d).1 j = get t j) ∧
    ((claimRange t start n d).2 ≠ .ok () → (claimRange t start n d).1 = t) ∧
    ((claimRange t start n d).2 = .ok () → ∃ ids, findFreeRange t start n = .ok ids ∧
      Ascending ids ∧ ids ≠ [] ∧ (∀ i ∈ ids, start ≤ i ∧ i < size ∧ has t i = false) ∧
      ∀ j, (j ∈ ids → get (claimRange t start n d).1 j = .ok ⟨j, d⟩) ∧
        (j ∉ ids → get (claimRange t start n d).1 j = get t j ∧
          has (claimRange t start n d).1 j = has t j)) := by
  obtain ⟨hi, rfl⟩ := h.inv
  rcases claimRange_eq t hi.1 start n d with ⟨ids, h1, h2, h3⟩ | ⟨e, h1, _, h3⟩
  · rw [h3]
    have hav := rangeResult_avail h2
    have hnot : ∀ j, j ∉ ids → get (setAll t d ids) j = get t j ∧
        has (setAll t d ids) j = has t j := by
      intro j hj
      exact get_congr (setAll_size _ _ _) (by rw [setAll_get?, if_neg hj])
    refine ⟨?_, by simp, fun _ => ⟨ids, h1, ?_, ?_, ?_, ?_⟩⟩
    · intro j hj
      refine (hnot j ?_).1
      intro hm
      have := (has_eq_false t j).2 ((absMap_eq_none t j).1 (hav.2 j hm).2)
      rw [this] at hj; cases hj
    · obtain ⟨_, _, _, z, _, _, _, _, he⟩ := h2; exact he.1
    · obtain ⟨_, _, _, z, z1, z2, _, _, he⟩ := h2
      intro hnil
      have := (he.2 z).2 ⟨z1, by bv_omega, by bv_omega⟩
      rw [hnil] at this; cases this
    · intro i him
      refine ⟨?_, (hav.2 i him).1, (has_eq_false t i).2 ((absMap_eq_none t i).1 (hav.2 i him).2)⟩
      obtain ⟨_, _, _, z, _, _, _, _, he⟩ := h2
      exact ((he.2 i).1 him).2.1
    · intro j
      refine ⟨?_, hnot j⟩
      intro hj
      apply get_some
      · rw [setAll_size]; exact (hav.2 j hj).1
      · rw [setAll_get?, if_pos hj]
  · rw [h3]
    exact ⟨fun _ _ => rfl, fun _ => rfl, by simp⟩

example : (claimRange exTable 2 3 "r").2 = .ok () := by
  have := (C07_free_window_partial exTable_reachable 2 3 (by decide) (by decide) (by
    intro x ⟨h1, h2⟩
    have a : (2 : U64).toNat = 2 := rfl
    have b : (3 : U64).toNat = 3 := rfl
    rw [a] at h1; rw [a, b] at h2
    have : x = 2 ∨ x = 3 ∨ x = 4 := by bv_omega
    rcases this with rfl | rfl | rfl <;> decide) "r").2.1
  exact this

/-! ## C09 -/

/-- C09: claimed ids stay in bounds, `Size()` is the number of claimed ids. -/
theorem C09_bounds_and_size {size : U64} {t : Table α} (h : Reachable size t) :
    (∀ i, has t i = true → i < size) ∧
    (∀ ids, Enumerates ids (fun i => has t i = true) → sizeOf t = ids.length) ∧
    sizeOf t ≤ size.toNat := by
  obtain ⟨hi, rfl⟩ := h.inv
  refine ⟨?_, ?_, ?_⟩
  · intro i hx
    obtain ⟨e, he⟩ := (has_eq_true t i).1 hx
    exact (hi.2 i e he).2
  · intro ids he
    have h2 := enumerates_sortKeys_keys t
    have : ids = sortKeys t.m.keys := by
      apply he.unique
      refine ⟨h2.1, fun i => (h2.2 i).trans ?_⟩
      simp only [has_eq_true, ← Option.ne_none_iff_exists', ne_eq, absMap_eq_none]
    rw [this, (sortKeys_perm _).length_eq, sizeOf, GoMap.len_eq_keys_length]
  · rw [sizeOf, GoMap.len_eq_keys_length]; exact hi.keys_length

example : has exTable 5 = true ∧ sizeOf exTable = 2 := by decide

/-! ## C10 -/

/-- C10: whatever order Go yields the map keys in, `Iterate` delivers every claimed id exactly
once, ascending, and `GetAll` the corresponding entries. -/
theorem C10_iteration_complete {size : U64} {t : Table α} (h : Reachable size t)
    (order : List U64) (ho : order.Perm t.m.keys) :
    Enumerates (iterate order).drain (fun i => has t i = true) ∧
    (getAllOrd t order).map Except.ok = (iterate order).drain.map (fun i =>
      match get t i with
      | .ok e => .ok (some e)
      | .error e => (.error e : Except Err (Option (Entry α)))) := by
  obtain ⟨hi, rfl⟩ := h.inv
  have hn : order.Nodup := ho.nodup_iff.2 t.m.keys_nodup
  have hlen : order.length < 2 ^ 64 := by rw [ho.length_eq]; exact hi.keys_length_lt
  have hd : (iterate order).drain = sortKeys t.m.keys := by
    rw [iterate, sortKeys_perm_eq ho hn]
    apply drain_at
    rw [(sortKeys_perm _).length_eq]; exact hi.keys_length_lt
  rw [hd]
  have h2 := enumerates_sortKeys_keys t
  constructor
  · refine ⟨h2.1, fun i => (h2.2 i).trans ?_⟩
    simp only [has_eq_true, ← Option.ne_none_iff_exists', ne_eq, absMap_eq_none]
  · rw [getAllOrd_eq t order hlen, sortKeys_perm_eq ho hn, List.map_map]
    apply List.map_congr_left
    intro i hm
    rw [(sortKeys_perm _).mem_iff, ← GoMap.get?_isSome_iff, Option.isSome_iff_exists] at hm
    obtain ⟨e, he⟩ := hm
    simp only [Function.comp_apply, he, get_some (hi.2 i e he).2 he]

example : ([5, 1] : List U64).Perm exTable.m.keys := by decide

/-! ## C11 -/

/-- C11: free iteration is the complement of the claimed ids, and `FindFree` is its head. -/
theorem C11_free_iteration {size : U64} {t : Table α} (h : Reachable size t) :
    Enumerates (iterateFree t).drain (FreeId size t) ∧
    (∀ i, findFree t = .ok i ↔ (iterateFree t).drain.head? = some i) := by
  obtain ⟨hi, rfl⟩ := h.inv
  rw [drain_iterateFree]
  have h2 := enumerates_freeKeys t
  refine ⟨⟨h2.1, fun i => (h2.2 i).trans (freeId_iff i).symm⟩, ?_⟩
  intro i
  rw [findFree_eq]
  cases freeKeys t <;> simp

example : FreeId 8 exTable 0 ∧ ¬ FreeId 8 exTable 1 := by
  constructor
  · exact ⟨by decide, by decide⟩
  · intro h; exact absurd h.2 (by decide)

/-! ## C12 -/

/-- C12: `Has`, `IsFree` and `Get` agree. -/
theorem C12_observers_agree {size : U64} {t : Table α} (h : Reachable size t) (id : U64) :
    isFree t id = !has t id ∧
    ((∃ e, get t id = .ok e) ↔ id < size ∧ has t id = true) ∧
    (¬ id < size → has t id = false) := by
  have hb := (C09_bounds_and_size h).1 id
  obtain ⟨hi, rfl⟩ := h.inv
  refine ⟨?_, ?_, ?_⟩
  · simp only [isFree, isFreeB, has]; cases t.m.get? id <;> rfl
  · constructor
    · rintro ⟨e, he⟩
      have : has t id = true := by
        unfold get at he
        split at he
        · cases he
        · split at he
          · cases he
          · rename_i h'; simp [has, h']
      exact ⟨hb this, this⟩
    · rintro ⟨hl, hh⟩
      obtain ⟨e, he⟩ := (has_eq_true t id).1 hh
      exact ⟨e, get_some hl he⟩
  · intro hl
    cases hh : has t id with
    | false => rfl
    | true => exact absurd (hb hh) hl

/-- C12, first clause, for every table whatsoever -/
theorem C12_isFree_not_has (t : Table α) (id : U64) : isFree t id = !has t id := by
  simp only [isFree, isFreeB, has]; cases t.m.get? id <;> rfl

example : has exTable 5 = true ∧ isFree exTable 6 = true ∧ has exTable 100 = false := by decide

/-! ## C13 -/

/-- C13 is violated: an entry released after `Iterate` was called is delivered as nil, and an
updated one with its new payload. -/
theorem C13_snapshot_violated :
    ∃ (t t₁ t₂ : Table String) (it : Iter) (h : it.advance.inBounds),
      Reachable 8 t ∧ it = iterateT t ∧
      t₁ = (run t [.release 1]).1 ∧ t₂ = (run t [.update 1 "new"]).1 ∧
      it.advance.value t.m h = some ⟨1, "a"⟩ ∧
      it.advance.value t₁.m h = none ∧ it.advance.value t₂.m h = some ⟨1, "new"⟩ := by
  have hk : (iterateT exTable) = Iter.at [1, 5] 0 := by
    have : exTable.m.keys = [1, 5] := by decide
    simp only [iterateT, iterate, this, Iter.at]
    rw [sortKeys_of_sorted _ (by decide)]
    rfl
  have hb : (iterateT exTable).advance.inBounds := by
    rw [hk, Iter.inBounds_at _ _ (by decide)]; decide
  have hid : (iterateT exTable).advance.id hb = 1 := by
    simp only [hk]
    exact Iter.id_at _ 0 (by decide) (by decide) (by rw [← hk]; exact hb)
  refine ⟨exTable, _, _, iterateT exTable, hb, exTable_reachable, rfl, rfl, rfl, ?_, ?_, ?_⟩
  · simp only [Iter.value, hid]; decide
  · simp only [Iter.value, hid]; decide
  · simp only [Iter.value, hid]; decide

/-- C13, part that holds: the ids an iterator delivers are those claimed when `Iterate` was
called, whatever happens to the table later, and the value delivered with an id is the entry
stored under it at the time of delivery. Missing: the values are not a snapshot. -/
theorem C13_snapshot_keys_partial {size : U64} {t : Table α} (h : Reachable size t)
    (later : List (Call α)) :
    Enumerates (iterateT t).drain (fun i => has t i = true) ∧
    ∀ (it : Iter) (hb : it.inBounds), it.keys = (iterateT t).keys →
      has t (it.id hb) = true ∧
      it.value (run t later).1.m hb =
        (match get (run t later).1 (it.id hb) with | .ok e => some e | .error _ => none) := by
  refine ⟨(C10_iteration_complete h _ (List.Perm.refl _)).1, ?_⟩
  intro it hb hk
  have hr : Reachable size (run t later).1 := by
    obtain ⟨hs, cs, rfl⟩ := h
    exact ⟨hs, cs ++ later, (run_append _ _ _).symm⟩
  constructor
  · have hm : it.id hb ∈ it.keys := List.getElem_mem _
    rw [hk] at hm
    have hm' : it.id hb ∈ sortKeys t.m.keys := hm
    rw [(sortKeys_perm _).mem_iff, ← GoMap.get?_isSome_iff] at hm'
    exact hm'
  · obtain ⟨hi', _⟩ := hr.inv
    unfold Iter.value
    cases hg : (run t later).1.m.get? (it.id hb) with
    | none => rcases validate_cases (run t later).1 (it.id hb) with hv | hv <;> simp [get, hv, hg]
    | some e => rw [get_some (hi'.2 _ e hg).2 hg]

/-- the snapshot of a table with two ids, and the value read after both were changed -/
example : Reachable 8 exTable ∧ has exTable 1 = true ∧ has exTable 5 = true ∧
    has (run exTable [.update 1 "c", .release 5]).1 5 = false := ⟨exTable_reachable, by decide, by decide, by decide⟩

/-! ## C14 -/

/-- C14 is violated, completely: on `NewTable(0)` *every* claim succeeds. -/
theorem C14_zero_capacity_violated (id : U64) (d : α) :
    (claim (newTable 0) id d).2 = .ok () ∧ has (claim (newTable 0) id d).1 id = true := by
  have hv : validate (newTable 0 : Table α) id = .ok () := by
    unfold validate newTable
    rw [if_neg]
    show ¬ id > (0 : U64) - 1
    bv_omega
  have : claim (newTable 0) id d =
      ({ (newTable 0 : Table α) with m := (newTable 0 : Table α).m.set id ⟨id, d⟩ }, .ok ()) := by
    simp only [claim, add, hv]
    simp [isFreeB, newTable]
  rw [this]
  exact ⟨rfl, by simp [has, GoMap.get?_set]⟩

/-- C14, part that holds: on a table of capacity zero nothing is ever allocated dynamically, in
any state. Missing: `Claim` with an explicit id. -/
theorem C14_zero_capacity_partial (t : Table α) (hs : t.size = 0) (start n : U64) (d : α) :
    (∃ e, findFree t = .error e) ∧
    (∃ e, (claimDynamic t d).2 = .error e) ∧ (claimDynamic t d).1 = t ∧
    (∃ e, (claimSize t n d).2 = .error e) ∧ (claimSize t n d).1 = t ∧
    (∃ e, (claimRange t start n d).2 = .error e) ∧ (claimRange t start n d).1 = t := by
  have hk : freeKeys t = [] := by simp [freeKeys, hs]
  have h1 : findFree t = .error .noFree := by rw [findFree_eq, hk]
  have h2 : claimDynamic t d = (t, .error .noFree) := by rw [claimDynamic_eq, hk]
  have h3 : ∃ e, claimSize t n d = (t, .error e) := by
    have := findFreeSize_eq t n
    rw [hk] at this
    split at this
    · exact ⟨_, by simp [claimSize, this]; rfl⟩
    · rw [if_neg (by simp; omega)] at this
      exact ⟨_, by simp [claimSize, this]; rfl⟩
  have h4 : ∃ e, claimRange t start n d = (t, .error e) := by
    have := findFreeRange_eq_list t start n
    rw [hk] at this
    split at this
    · exact ⟨_, by simp [claimRange, this]; rfl⟩
    · split at this
      · exact ⟨_, by simp [claimRange, this]; rfl⟩
      · simp only [ffrList] at this
        exact ⟨_, by simp [claimRange, this]; rfl⟩
  obtain ⟨e3, h3⟩ := h3
  obtain ⟨e4, h4⟩ := h4
  rw [h1, h2, h3, h4]
  exact ⟨⟨_, rfl⟩, ⟨_, rfl⟩, rfl, ⟨_, rfl⟩, rfl, ⟨_, rfl⟩, rfl⟩

example : ((claim (newTable 0) 7 "x").1).size = 0 ∧ sizeOf (claim (newTable 0) 7 "x").1 = 1 := by
  decide

end Verif.IdxTable
