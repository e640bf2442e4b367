import Mathlib.Data.List.Perm.Subperm
import Verif.IdxTable.Lemmas
import Verif.IdxTable.Api

/-! The index table refines the abstract partial map. -/

namespace Verif.IdxTable
variable {α : Type}

/-- abstraction function -/
def absMap (t : Table α) : PMap α := fun id => (t.m.get? id).map Entry.data

/-- invariant of reachable tables: entries sit under their own id, inside the table -/
def Inv (t : Table α) : Prop :=
  t.size ≠ 0 ∧ ∀ id e, t.m.get? id = some e → e.id = id ∧ id < t.size

theorem absMap_eq_none (t : Table α) (id : U64) : absMap t id = none ↔ t.m.get? id = none := by
  simp [absMap]

theorem avail_iff (t : Table α) (id : U64) :
    Avail t.size (absMap t) id ↔ id ∈ freeKeys t := by
  rw [mem_freeKeys, Avail, absMap_eq_none]

theorem Inv.absMap_some {t : Table α} (h : Inv t) {id : U64} {d : α} :
    absMap t id = some d ↔ t.m.get? id = some ⟨id, d⟩ := by
  simp only [absMap, Option.map_eq_some_iff]
  constructor
  · rintro ⟨e, he, hd⟩
    rw [he]
    obtain ⟨i, d'⟩ := e
    have := (h.2 _ _ he).1
    simp at this hd
    simp [this, hd]
  · intro he; exact ⟨_, he, rfl⟩

theorem drain_loop (ks : List U64) (hk : ks.length < 2 ^ 64) :
    ∀ (fuel i : Nat) (acc : List U64), i ≤ ks.length → ks.length - i < fuel →
      Iter.drainLoop fuel (Iter.at ks i) acc = acc ++ ks.drop i := by
  intro fuel
  induction fuel with
  | zero => intro i acc _ h; omega
  | succ fuel ih =>
    intro i acc hi hf
    unfold Iter.drainLoop
    by_cases hlt : i < ks.length
    · have hb : (Iter.at ks i).advance.inBounds := (Iter.inBounds_at ks i (by omega)).2 hlt
      simp only [dif_pos hb, Iter.id_at ks i (by omega) hlt hb]
      simp only [Iter.advance_at']
      rw [ih (i + 1) _ (by omega) (by omega), List.drop_eq_getElem_cons hlt]
      simp only [List.append_assoc, List.singleton_append]
    · have hb : ¬ (Iter.at ks i).advance.inBounds := by
        rw [Iter.inBounds_at ks i (by omega)]; exact hlt
      have hd : ks.drop i = [] := List.drop_eq_nil_of_le (by omega)
      simp only [dif_neg hb, hd, List.append_nil]

theorem drain_at (ks : List U64) (hk : ks.length < 2 ^ 64) :
    (⟨-1, ks⟩ : Iter).drain = ks := by
  have := drain_loop ks hk (ks.length + 1) 0 [] (by omega) (by omega)
  simpa [Iter.drain, Iter.at] using this

theorem drain_iterateFree (t : Table α) : (iterateFree t).drain = freeKeys t := by
  have h := drain_at (freeKeys t) (freeKeys_length_lt t)
  rw [← h]
  simp only [iterateFree, sortKeys_of_sorted _ (freeKeys_sorted t), h]

/-- ids below `size` without duplicates are at most `size` many -/
theorem nodup_lt_length (l : List U64) (n : U64) (hn : l.Nodup) (h : ∀ x ∈ l, x < n) :
    l.length ≤ n.toNat := by
  have hsub : List.Subset l ((List.range n.toNat).map (BitVec.ofNat 64)) := by
    intro x hx
    exact List.mem_map.2 ⟨x.toNat, List.mem_range.2 (h x hx), by simp⟩
  have := (List.subperm_of_subset hn hsub).length_le
  simpa using this

theorem Inv.keys_length {t : Table α} (h : Inv t) : t.m.keys.length ≤ t.size.toNat := by
  apply nodup_lt_length _ _ t.m.keys_nodup
  intro x hx
  rw [← GoMap.get?_isSome_iff, Option.isSome_iff_exists] at hx
  obtain ⟨e, he⟩ := hx
  exact (h.2 _ _ he).2

theorem Inv.keys_length_lt {t : Table α} (h : Inv t) : t.m.keys.length < 2 ^ 64 :=
  Nat.lt_of_le_of_lt h.keys_length t.size.isLt

theorem enumerates_sortKeys_keys (t : Table α) :
    Enumerates (sortKeys t.m.keys) (fun i => absMap t i ≠ none) := by
  refine ⟨sortKeys_pairwise_lt _ t.m.keys_nodup, ?_⟩
  intro i
  rw [(sortKeys_perm _).mem_iff]
  show _ ↔ ¬ (absMap t i = none)
  rw [absMap_eq_none, GoMap.get?_eq_none_iff, Classical.not_not]

theorem enumerates_freeKeys (t : Table α) :
    Enumerates (freeKeys t) (Avail t.size (absMap t)) :=
  ⟨freeKeys_sorted t, fun i => (avail_iff t i).symm⟩

theorem Enumerates.unique {l₁ l₂ : List U64} {P : U64 → Prop} (h₁ : Enumerates l₁ P)
    (h₂ : Enumerates l₂ P) : l₁ = l₂ :=
  sorted_ext h₁.1 h₂.1 (fun x => (h₁.2 x).trans (h₂.2 x).symm)

theorem le_size_sub_one (t : Table α) (hs : t.size ≠ 0) (x : U64) :
    ¬ x > t.size - 1 ↔ x < t.size := by bv_omega

theorem rangeResult_iff (t : Table α) (hs : t.size ≠ 0) (start n : U64) (ids : List U64) :
    RangeResult t.size (absMap t) start n ids ↔ findFreeRange t start n = .ok ids := by
  rw [findFreeRange_ok_iff, le_size_sub_one t hs, le_size_sub_one t hs]
  unfold RangeResult FfrOk
  simp only [avail_iff]
  refine and_congr_right fun _ => and_congr_right fun _ => and_congr Iff.rfl ?_
  refine exists_congr fun z => and_congr_right fun _ => and_congr_right fun _ =>
    and_congr_right fun _ => and_congr_right fun _ => ?_
  have he : Enumerates ((freeKeys t).filter (fun x => decide (start ≤ x ∧ x ≤ z)))
      (fun x => x ∈ freeKeys t ∧ start ≤ x ∧ x ≤ z) := by
    refine ⟨(freeKeys_sorted t).filter _, ?_⟩
    intro i; simp
  constructor
  · intro h; exact h.unique he
  · rintro rfl; exact he

/-- a duplicate free prefix-closed selection of a sorted list is a prefix of it -/
theorem take_of_lower (ks ids : List U64) (hk : ks.Pairwise (· < ·)) (hi : ids.Pairwise (· < ·))
    (h1 : ∀ i ∈ ids, i ∈ ks) (h2 : ∀ i ∈ ids, ∀ j ∈ ks, j < i → j ∈ ids) :
    ids = ks.take ids.length := by
  induction ks generalizing ids with
  | nil =>
    cases ids with
    | nil => rfl
    | cons x xs => have := h1 x (by simp); cases this
  | cons k ks ih =>
    cases ids with
    | nil => rfl
    | cons x xs =>
      rw [List.pairwise_cons] at hk hi
      have hxk : x = k := by
        rcases List.mem_cons.1 (h1 x (by simp)) with h | h
        · exact h
        · have hlt := hk.1 x h
          have := h2 x (by simp) k (by simp) hlt
          rcases List.mem_cons.1 this with h' | h'
          · exact h'.symm
          · have := hi.1 k h'; bv_omega
      subst hxk
      simp only [List.length_cons, List.take_succ_cons, List.cons.injEq, true_and]
      apply ih xs hk.2 hi.2
      · intro i hmem
        rcases List.mem_cons.1 (h1 i (by simp [hmem])) with h | h
        · subst h; have := hi.1 i hmem; bv_omega
        · exact h
      · intro i hmem j hj hlt
        rcases List.mem_cons.1 (h2 i (by simp [hmem]) j (by simp [hj]) hlt) with h | h
        · subst h; have := hk.1 j hj; bv_omega
        · exact h

theorem sizeResult_iff (t : Table α) (n : U64) (ids : List U64) :
    SizeResult t.size (absMap t) n ids ↔ findFreeSize t n = .ok ids := by
  rw [findFreeSize_eq]
  constructor
  · rintro ⟨h1, h2, h3, h4, h5⟩
    have hsub : List.Subset ids (freeKeys t) := fun i hi => (avail_iff t i).1 (h4 i hi)
    have hnd : ids.Nodup := h3.imp (by intro a b h; bv_omega)
    have hlen := (List.subperm_of_subset hnd hsub).length_le
    have hle := freeKeys_length_le t
    rw [if_neg (by rw [gt_iff_lt, BitVec.lt_def]; omega), if_pos (by omega), ← h2]
    congr 1
    exact (take_of_lower (freeKeys t) ids (freeKeys_sorted t) h3 hsub
      (fun i hi j hj hlt => h5 i hi j ((avail_iff t j).2 hj) hlt)).symm
  · intro h
    split at h
    · cases h
    split at h
    · rename_i hc
      injection h with h
      subst h
      have hs := freeKeys_sorted t
      refine ⟨hc.1, ?_, ?_, ?_, ?_⟩
      · simp; omega
      · exact hs.sublist (List.take_sublist _ _)
      · intro i hi; exact (avail_iff t i).2 (List.mem_of_mem_take hi)
      · intro i hi j hj hlt
        rw [avail_iff] at hj
        rw [← List.take_append_drop n.toNat (freeKeys t), List.pairwise_append] at hs
        rw [← List.take_append_drop n.toNat (freeKeys t), List.mem_append] at hj
        rcases hj with hj | hj
        · exact hj
        · have := hs.2.2 i hi j hj; bv_omega
    · cases h

theorem findFree_eq (t : Table α) :
    findFree t = match freeKeys t with | [] => .error .noFree | x :: _ => .ok x := by
  unfold findFree
  rw [iterateFree_at]
  rcases first_spec (freeKeys t) with ⟨h, x, xs, hk, hid⟩ | ⟨h, hk⟩
  · simp only [dif_pos h, hid]
    rw [hk]
  · simp only [dif_neg h]
    rw [hk]

theorem leastAvail_iff (t : Table α) (i : U64) :
    LeastAvail t.size (absMap t) i ↔ ∃ xs, freeKeys t = i :: xs := by
  unfold LeastAvail
  simp only [avail_iff]
  have hs := freeKeys_sorted t
  cases hk : freeKeys t with
  | nil => simp
  | cons x xs =>
    rw [hk, List.pairwise_cons] at hs
    simp only [List.mem_cons, List.cons.injEq, exists_and_left, exists_eq', and_true]
    constructor
    · rintro ⟨h1 | h1, h2⟩
      · exact h1.symm
      · have := hs.1 i h1; have := h2 x (Or.inl rfl); bv_omega
    · rintro rfl
      refine ⟨Or.inl rfl, ?_⟩
      rintro j (rfl | hj)
      · bv_omega
      · have := hs.1 j hj; bv_omega

theorem claimDynamic_eq (t : Table α) (d : α) :
    claimDynamic t d = match freeKeys t with
      | [] => (t, .error .noFree)
      | x :: _ => ({ t with m := t.m.set x ⟨x, d⟩ }, .ok ⟨x, d⟩) := by
  unfold claimDynamic
  rw [iterateFree_at]
  rcases first_spec (freeKeys t) with ⟨h, x, xs, hk, hid⟩ | ⟨h, hk⟩
  · simp only [dif_pos h, hid]
    have hx : x ∈ freeKeys t := by rw [hk]; simp
    rw [mem_freeKeys] at hx
    rw [add_free t ⟨x, d⟩ hx.1 hx.2, hk]
  · simp only [dif_neg h]
    rw [hk]

/-! ### one step -/

theorem absMap_set (t : Table α) (id : U64) (d : α) :
    absMap { t with m := t.m.set id ⟨id, d⟩ } = (absMap t).put [id] d := by
  funext i
  simp only [absMap, GoMap.get?_set, PMap.put, List.mem_singleton]
  by_cases h : i = id <;> simp [h]

theorem absMap_setAll (t : Table α) (ids : List U64) (d : α) :
    absMap (setAll t d ids) = (absMap t).put ids d := by
  funext i
  simp only [absMap, setAll_get?, PMap.put]
  by_cases h : i ∈ ids <;> simp [h]

theorem Inv.set {t : Table α} (h : Inv t) (id : U64) (d : α) (hid : id < t.size) :
    Inv { t with m := t.m.set id ⟨id, d⟩ } := by
  refine ⟨h.1, ?_⟩
  intro i e he
  simp only [GoMap.get?_set] at he
  by_cases hi : i = id
  · subst hi; simp at he; subst he; exact ⟨rfl, hid⟩
  · simp [hi] at he; exact h.2 i e he

theorem Inv.setAll {t : Table α} (h : Inv t) (ids : List U64) (d : α)
    (hid : ∀ i ∈ ids, i < t.size) : Inv (setAll t d ids) := by
  refine ⟨by rw [setAll_size]; exact h.1, ?_⟩
  intro i e he
  rw [setAll_size]
  rw [setAll_get?] at he
  by_cases hi : i ∈ ids
  · simp [hi] at he; subst he; exact ⟨rfl, hid i hi⟩
  · simp [hi] at he; exact h.2 i e he

theorem rangeResult_avail {size : U64} {s : PMap α} {start n : U64} {ids : List U64}
    (h : RangeResult size s start n ids) : ids.Nodup ∧ ∀ i ∈ ids, i < size ∧ s i = none := by
  obtain ⟨_, _, _, z, _, _, _, _, he⟩ := h
  refine ⟨he.1.imp (by intro a b h; bv_omega), ?_⟩
  intro i hi
  exact ((he.2 i).1 hi).1

theorem sizeResult_avail {size : U64} {s : PMap α} {n : U64} {ids : List U64}
    (h : SizeResult size s n ids) : ids.Nodup ∧ ∀ i ∈ ids, i < size ∧ s i = none :=
  ⟨h.2.2.1.imp (by intro a b h; bv_omega), fun i hi => h.2.2.2.1 i hi⟩

theorem claimRange_eq (t : Table α) (hs : t.size ≠ 0) (start n : U64) (d : α) :
    (∃ ids, findFreeRange t start n = .ok ids ∧ RangeResult t.size (absMap t) start n ids ∧
      claimRange t start n d = (setAll t d ids, .ok ())) ∨
    (∃ e, findFreeRange t start n = .error e ∧ (∀ ids, ¬ RangeResult t.size (absMap t) start n ids) ∧
      claimRange t start n d = (t, .error e)) := by
  cases hf : findFreeRange t start n with
  | error e =>
    right
    refine ⟨e, rfl, ?_, by simp [claimRange, hf]⟩
    intro ids h
    rw [rangeResult_iff t hs, hf] at h; cases h
  | ok ids =>
    left
    have hr := (rangeResult_iff t hs start n ids).2 hf
    refine ⟨ids, rfl, hr, ?_⟩
    have := rangeResult_avail hr
    simp only [claimRange, hf]
    exact addAll_ok t d ids this.1 (fun i hi => ⟨(this.2 i hi).1, (absMap_eq_none t i).1 (this.2 i hi).2⟩)

theorem claimSize_eq (t : Table α) (n : U64) (d : α) :
    (∃ ids, findFreeSize t n = .ok ids ∧ SizeResult t.size (absMap t) n ids ∧
      claimSize t n d = (setAll t d ids, .ok (ids.map fun i => ⟨i, d⟩))) ∨
    (∃ e, findFreeSize t n = .error e ∧ (∀ ids, ¬ SizeResult t.size (absMap t) n ids) ∧
      claimSize t n d = (t, .error e)) := by
  cases hf : findFreeSize t n with
  | error e =>
    right
    refine ⟨e, rfl, ?_, by simp [claimSize, hf]⟩
    intro ids h
    rw [sizeResult_iff, hf] at h; cases h
  | ok ids =>
    left
    have hr := (sizeResult_iff t n ids).2 hf
    refine ⟨ids, rfl, hr, ?_⟩
    have := sizeResult_avail hr
    simp only [claimSize, hf]
    rw [addAllE_ok t d ids [] this.1
      (fun i hi => ⟨(this.2 i hi).1, (absMap_eq_none t i).1 (this.2 i hi).2⟩)]
    simp

theorem getAll_eq_of_len {t : Table α} (h : t.m.keys.length < 2 ^ 64) :
    getAll t = ((sortKeys t.m.keys).filterMap t.m.get?).map some := by
  rw [getAll, getAllOrd_eq t _ h]
  have : ∀ ks : List U64, (∀ k ∈ ks, k ∈ t.m.keys) →
      ks.map t.m.get? = (ks.filterMap t.m.get?).map some := by
    intro ks
    induction ks with
    | nil => simp
    | cons k ks ih =>
      intro hk
      have h1 := hk k (by simp)
      rw [← GoMap.get?_isSome_iff, Option.isSome_iff_exists] at h1
      obtain ⟨e, he⟩ := h1
      simp only [List.map_cons, List.filterMap_cons, he]
      rw [ih (fun k hk' => hk k (by simp [hk']))]
  apply this
  intro k hk
  rwa [(sortKeys_perm _).mem_iff] at hk

theorem getAll_eq {t : Table α} (h : Inv t) :
    getAll t = ((sortKeys t.m.keys).filterMap t.m.get?).map some := getAll_eq_of_len h.keys_length_lt

theorem filterMap_ids_of {t : Table α} (h : ∀ k e, t.m.get? k = some e → e.id = k) (ks : List U64)
    (hk : ∀ k ∈ ks, k ∈ t.m.keys) : (ks.filterMap t.m.get?).map Entry.id = ks := by
  induction ks with
  | nil => rfl
  | cons k ks ih =>
    have h1 := hk k (by simp)
    rw [← GoMap.get?_isSome_iff, Option.isSome_iff_exists] at h1
    obtain ⟨e, he⟩ := h1
    simp only [List.filterMap_cons, he, List.map_cons, h k e he]
    rw [ih (fun k hk' => hk k (by simp [hk']))]

theorem filterMap_ids {t : Table α} (h : Inv t) (ks : List U64) (hk : ∀ k ∈ ks, k ∈ t.m.keys) :
    (ks.filterMap t.m.get?).map Entry.id = ks := filterMap_ids_of (fun k e he => (h.2 k e he).1) ks hk

theorem step_refines (t : Table α) (h : Inv t) (c : Call α) :
    SpecStep t.size (absMap t) c (absMap (step t c).1) (step t c).2 ∧
    Inv (step t c).1 ∧ (step t c).1.size = t.size := by
  cases c with
  | get id =>
    refine ⟨⟨rfl, ?_, ?_⟩, h, rfl⟩
    · intro d hd
      rw [h.absMap_some] at hd
      have hlt := (h.2 _ _ hd).2
      simp [step, get, validate_of_lt t id hlt, hd, replyEntry]
    · intro hn
      rw [absMap_eq_none] at hn
      rcases validate_cases t id with hv | hv <;> simp [step, get, hv, hn, replyEntry]
  | claim id d =>
    simp only [step, claim]
    by_cases ha : Avail t.size (absMap t) id
    · have ha' := ha
      obtain ⟨h1, h2⟩ := ha'
      rw [absMap_eq_none] at h2
      rw [add_free t ⟨id, d⟩ h1 h2]
      exact ⟨Or.inl ⟨ha, absMap_set t id d, rfl⟩, h.set id d h1, rfl⟩
    · have : add t ⟨id, d⟩ = (t, .error .tooBig) ∨ add t ⟨id, d⟩ = (t, .error .alreadyExists) := by
        unfold add
        by_cases hl : id < t.size
        · rw [(validate_ok_iff t id h.1).2 hl]
          have : t.m.get? id ≠ none := fun hn => ha ⟨hl, (absMap_eq_none t id).2 hn⟩
          right; simp [isFreeB, this]
        · rw [(validate_err_iff t id h.1).2 hl]; left; rfl
      rcases this with h' | h' <;> rw [h'] <;> exact ⟨Or.inr ⟨ha, rfl, rfl⟩, h, rfl⟩
  | claimDynamic d =>
    simp only [step, claimDynamic_eq]
    cases hk : freeKeys t with
    | nil =>
      refine ⟨Or.inr ⟨?_, rfl, rfl⟩, h, rfl⟩
      intro i; rw [avail_iff, hk]; simp
    | cons x xs =>
      have hx : x ∈ freeKeys t := by rw [hk]; simp
      rw [mem_freeKeys] at hx
      refine ⟨Or.inl ⟨x, (leastAvail_iff t x).2 ⟨xs, hk⟩, absMap_set t x d, rfl⟩,
        h.set x d hx.1, rfl⟩
  | claimRange start n d =>
    simp only [step]
    rcases claimRange_eq t h.1 start n d with ⟨ids, _, hr, he⟩ | ⟨e, _, hr, he⟩
    · rw [he]
      exact ⟨Or.inl ⟨ids, hr, absMap_setAll t ids d, rfl⟩,
        h.setAll ids d (fun i hi => ((rangeResult_avail hr).2 i hi).1), setAll_size t d ids⟩
    · rw [he]
      exact ⟨Or.inr ⟨hr, rfl, rfl⟩, h, rfl⟩
  | claimSize n d =>
    simp only [step]
    rcases claimSize_eq t n d with ⟨ids, _, hr, he⟩ | ⟨e, _, hr, he⟩
    · rw [he]
      refine ⟨Or.inl ⟨ids, hr, absMap_setAll t ids d, ?_⟩,
        h.setAll ids d (fun i hi => ((sizeResult_avail hr).2 i hi).1), setAll_size t d ids⟩
      simp [replyEntries]
    · rw [he]
      exact ⟨Or.inr ⟨hr, rfl, rfl⟩, h, rfl⟩
  | release id =>
    simp only [step, release, delete]
    by_cases hl : id < t.size
    · rw [(validate_ok_iff t id h.1).2 hl]
      refine ⟨Or.inl ⟨hl, ?_, rfl⟩, ⟨h.1, ?_⟩, rfl⟩
      · funext i
        simp only [absMap, GoMap.get?_del, PMap.drop]
        by_cases hi : i = id <;> simp [hi]
      · intro i e he
        simp only [GoMap.get?_del] at he
        by_cases hi : i = id
        · simp [hi] at he
        · simp [hi] at he; exact h.2 i e he
    · rw [(validate_err_iff t id h.1).2 hl]
      exact ⟨Or.inr ⟨hl, rfl, rfl⟩, h, rfl⟩
  | update id d =>
    simp only [step, update, updateE]
    by_cases hn : t.m.get? id = none
    · have hn' := (absMap_eq_none t id).2 hn
      rcases validate_cases t id with hv | hv
      · simp only [hv, isFreeB, hn, Option.isNone_none, if_true]
        exact ⟨Or.inr ⟨hn', rfl, rfl⟩, h, trivial⟩
      · simp only [hv]
        exact ⟨Or.inr ⟨hn', rfl, rfl⟩, h, trivial⟩
    · have hn' : absMap t id ≠ none := fun hh => hn ((absMap_eq_none t id).1 hh)
      obtain ⟨e, he⟩ := Option.ne_none_iff_exists'.1 hn
      have hl := (h.2 _ _ he).2
      rw [(validate_ok_iff t id h.1).2 hl]
      simp only [isFreeB, he, Option.isNone_some, Bool.false_eq_true, if_false]
      exact ⟨Or.inl ⟨hn', absMap_set t id d, rfl⟩, h.set id d hl, trivial⟩
  | iterate =>
    refine ⟨⟨rfl, _, enumerates_sortKeys_keys t, ?_⟩, h, rfl⟩
    simp only [step, iterateT, iterate, Reply.ids.injEq]
    apply drain_at
    rw [(sortKeys_perm _).length_eq]; exact h.keys_length_lt
  | iterateFree =>
    refine ⟨⟨rfl, _, enumerates_freeKeys t, ?_⟩, h, rfl⟩
    simp only [step, drain_iterateFree]
  | size =>
    refine ⟨⟨rfl, _, enumerates_sortKeys_keys t, ?_⟩, h, rfl⟩
    simp only [step, sizeOf, GoMap.len_eq_keys_length, (sortKeys_perm _).length_eq]
  | has id =>
    refine ⟨⟨rfl, _, ?_, rfl⟩, h, rfl⟩
    rw [ne_eq, absMap_eq_none, has]
    cases t.m.get? id <;> simp
  | isFree id =>
    refine ⟨⟨rfl, _, ?_, rfl⟩, h, rfl⟩
    rw [absMap_eq_none, isFree, isFreeB]
    cases t.m.get? id <;> simp
  | findFree =>
    refine ⟨⟨rfl, ?_⟩, h, rfl⟩
    simp only [step, findFree_eq]
    cases hk : freeKeys t with
    | nil =>
      right
      refine ⟨?_, rfl⟩
      intro i; rw [avail_iff, hk]; simp
    | cons x xs => exact Or.inl ⟨x, (leastAvail_iff t x).2 ⟨xs, hk⟩, rfl⟩
  | findFreeRange start n =>
    refine ⟨⟨rfl, ?_⟩, h, rfl⟩
    simp only [step]
    cases hf : findFreeRange t start n with
    | error e =>
      right
      refine ⟨?_, rfl⟩
      intro ids hr
      rw [rangeResult_iff t h.1, hf] at hr; cases hr
    | ok ids => exact Or.inl ⟨ids, (rangeResult_iff t h.1 start n ids).2 hf, rfl⟩
  | findFreeSize n =>
    refine ⟨⟨rfl, ?_⟩, h, rfl⟩
    simp only [step]
    cases hf : findFreeSize t n with
    | error e =>
      right
      refine ⟨?_, rfl⟩
      intro ids hr
      rw [sizeResult_iff, hf] at hr; cases hr
    | ok ids => exact Or.inl ⟨ids, (sizeResult_iff t n ids).2 hf, rfl⟩
  | getAll =>
    have hk : ∀ k ∈ sortKeys t.m.keys, k ∈ t.m.keys := by
      intro k hk; rwa [(sortKeys_perm _).mem_iff] at hk
    refine ⟨⟨rfl, (sortKeys t.m.keys).filterMap t.m.get?, ?_, ?_, ?_⟩, h, rfl⟩
    · rw [filterMap_ids h _ hk]
      exact sortKeys_pairwise_lt _ t.m.keys_nodup
    · intro e
      simp only [List.mem_filterMap, h.absMap_some]
      constructor
      · rintro ⟨k, _, he⟩
        have := (h.2 k e he).1
        rw [this, he]
        obtain ⟨i, d⟩ := e
        simp at this; simp [this]
      · intro he
        refine ⟨e.id, ?_, he⟩
        rw [(sortKeys_perm _).mem_iff, ← GoMap.get?_isSome_iff, he]; rfl
    · simp only [step, getAll_eq h]

theorem newTable_inv (size : U64) (hs : size ≠ 0) : Inv (newTable size : Table α) := by
  refine ⟨hs, ?_⟩
  intro id e he
  simp [newTable] at he

theorem run_refines (t : Table α) (h : Inv t) (cs : List (Call α)) :
    SpecRun t.size (absMap t) cs (run t cs).2 (absMap (run t cs).1) ∧
    Inv (run t cs).1 ∧ (run t cs).1.size = t.size := by
  induction cs generalizing t with
  | nil => exact ⟨.nil _, h, rfl⟩
  | cons c cs ih =>
    obtain ⟨h1, h2, h3⟩ := step_refines t h c
    obtain ⟨i1, i2, i3⟩ := ih (step t c).1 h2
    simp only [run]
    refine ⟨.cons h1 ?_, i2, i3.trans h3⟩
    rw [h3] at i1
    exact i1

end Verif.IdxTable
