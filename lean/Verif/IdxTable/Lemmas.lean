import Verif.IdxTable.Model

/-! Helper lemmas about the index table model. -/

namespace Verif.IdxTable
variable {α : Type}

/-! ### sorting -/

theorem sortKeys_perm (ks : List U64) : (sortKeys ks).Perm ks := List.mergeSort_perm _ _

theorem sortKeys_pairwise_le (ks : List U64) : (sortKeys ks).Pairwise (· ≤ ·) := by
  have h := List.pairwise_mergeSort (le := fun a b : U64 => !(decide (b < a)))
    (by intro a b c; simp; bv_omega) (by intro a b; simp; bv_omega) ks
  refine h.imp ?_
  intro a b; simp

theorem sortKeys_pairwise_lt (ks : List U64) (hn : ks.Nodup) : (sortKeys ks).Pairwise (· < ·) := by
  have h1 := sortKeys_pairwise_le ks
  have h2 : (sortKeys ks).Nodup := (sortKeys_perm ks).nodup_iff.2 hn
  refine (h1.and h2).imp ?_
  rintro a b ⟨h1, h2⟩
  bv_omega

theorem sortKeys_of_sorted (ks : List U64) (h : ks.Pairwise (· < ·)) : sortKeys ks = ks := by
  apply List.mergeSort_of_pairwise
  refine h.imp ?_
  intro a b hab
  simp
  bv_omega

theorem sorted_ext {l₁ l₂ : List U64} (h₁ : l₁.Pairwise (· < ·)) (h₂ : l₂.Pairwise (· < ·))
    (h : ∀ x, x ∈ l₁ ↔ x ∈ l₂) : l₁ = l₂ := by
  refine List.Perm.eq_of_pairwise (le := (· < ·)) ?_ h₁ h₂ ?_
  · intro a b _ _ hab hba; bv_omega
  · refine (List.perm_ext_iff_of_nodup ?_ ?_).2 h
    · exact h₁.imp (by intro a b hab; bv_omega)
    · exact h₂.imp (by intro a b hab; bv_omega)

theorem sortKeys_perm_eq {l₁ l₂ : List U64} (h : l₁.Perm l₂) (hn : l₁.Nodup) :
    sortKeys l₁ = sortKeys l₂ := by
  apply sorted_ext (sortKeys_pairwise_lt _ hn) (sortKeys_pairwise_lt _ (h.nodup_iff.1 hn))
  intro x
  rw [(sortKeys_perm l₁).mem_iff, (sortKeys_perm l₂).mem_iff, h.mem_iff]

/-! ### free ids -/

theorem mem_freeKeys (t : Table α) (x : U64) :
    x ∈ freeKeys t ↔ x < t.size ∧ t.m.get? x = none := by
  simp only [freeKeys, List.mem_filter, List.mem_map, List.mem_range, isFreeB,
    Option.isNone_iff_eq_none]
  constructor
  · rintro ⟨⟨n, hn, rfl⟩, h⟩
    refine ⟨?_, h⟩
    have := t.size.isLt
    rw [BitVec.lt_def, BitVec.toNat_ofNat, Nat.mod_eq_of_lt (by omega)]
    exact hn
  · rintro ⟨h1, h2⟩
    exact ⟨⟨x.toNat, h1, by simp⟩, h2⟩

theorem freeKeys_sorted (t : Table α) : (freeKeys t).Pairwise (· < ·) := by
  unfold freeKeys
  apply List.Pairwise.filter
  rw [List.pairwise_map]
  have hs := t.size.isLt
  refine (List.pairwise_lt_range (n := t.size.toNat)).imp_of_mem ?_
  intro a b ha hb hab
  rw [List.mem_range] at ha hb
  rw [BitVec.lt_def, BitVec.toNat_ofNat, BitVec.toNat_ofNat, Nat.mod_eq_of_lt (by omega),
    Nat.mod_eq_of_lt (by omega)]
  exact hab

theorem iterateFree_keys (t : Table α) : (iterateFree t).keys = freeKeys t :=
  sortKeys_of_sorted _ (freeKeys_sorted t)

theorem freeKeys_length_le (t : Table α) : (freeKeys t).length ≤ t.size.toNat := by
  unfold freeKeys
  refine Nat.le_trans (List.length_filter_le _ _) ?_
  simp

theorem freeKeys_length_lt (t : Table α) : (freeKeys t).length < 2 ^ 64 :=
  Nat.lt_of_le_of_lt (freeKeys_length_le t) t.size.isLt

/-! ### the cursor -/

/-- the iterator that has delivered `i` elements -/
def Iter.at (ks : List U64) (i : Nat) : Iter := ⟨BitVec.ofNat 64 i - 1, ks⟩

theorem iterateFree_at (t : Table α) : iterateFree t = Iter.at (freeKeys t) 0 := by
  simp only [iterateFree, Iter.at, sortKeys_of_sorted _ (freeKeys_sorted t)]
  rfl

theorem Iter.advance_at (ks : List U64) (i : Nat) :
    (Iter.at ks i).advance = ⟨BitVec.ofNat 64 i, ks⟩ := by
  simp only [Iter.at, Iter.advance, Iter.mk.injEq, and_true]
  rw [BitVec.sub_add_cancel]

theorem Iter.advance_at' (ks : List U64) (i : Nat) :
    (Iter.at ks i).advance = Iter.at ks (i + 1) := by
  rw [Iter.advance_at]
  simp only [Iter.at, Iter.mk.injEq, and_true]
  apply BitVec.eq_of_toNat_eq
  simp [BitVec.toNat_sub]
  omega

theorem Iter.inBounds_at (ks : List U64) (i : Nat) (hi : i < 2 ^ 64) :
    (Iter.at ks i).advance.inBounds ↔ i < ks.length := by
  rw [Iter.advance_at]
  simp [Iter.inBounds, Nat.mod_eq_of_lt hi]

theorem Iter.id_at (ks : List U64) (i : Nat) (hi : i < 2 ^ 64) (h : i < ks.length)
    (hb : (Iter.at ks i).advance.inBounds) : (Iter.at ks i).advance.id hb = ks[i] := by
  have : ((Iter.at ks i).advance).current.toNat = i := by
    rw [Iter.advance_at]; simp [Nat.mod_eq_of_lt hi]
  unfold Iter.id
  simp only [this]
  rfl

theorem Iter.isConsecutive_at (ks : List U64) (i : Nat) (hi : i < 2 ^ 64) (h : i < ks.length)
    (hb : (Iter.at ks i).advance.inBounds) :
    (Iter.at ks i).advance.isConsecutive hb =
      decide (0 < i ∧ ks[i - 1]? = some (ks[i] - 1)) := by
  unfold Iter.isConsecutive
  rw [Iter.id_at ks i hi h]
  rw [Iter.advance_at]
  by_cases h0 : i = 0
  · subst h0; simp
  · have hlt : ¬ (BitVec.ofNat 64 i < 1) := by
      rw [BitVec.lt_def, BitVec.toNat_ofNat, Nat.mod_eq_of_lt hi]; simp; omega
    have hsub : (BitVec.ofNat 64 i - 1).toNat = i - 1 := by
      have : (1 : BitVec 64) ≤ BitVec.ofNat 64 i := by
        rw [BitVec.le_def, BitVec.toNat_ofNat, Nat.mod_eq_of_lt hi]; simp; omega
      rw [BitVec.toNat_sub_of_le this, BitVec.toNat_ofNat, Nat.mod_eq_of_lt hi]; rfl
    simp only [hlt, if_false, hsub]
    simp [Nat.pos_of_ne_zero h0]

/-- first call of `Next` -/
theorem first_spec (ks : List U64) :
    (∃ (h : (Iter.at ks 0).advance.inBounds) (x : U64) (xs : List U64),
        ks = x :: xs ∧ (Iter.at ks 0).advance.id h = x) ∨
    (¬ (Iter.at ks 0).advance.inBounds ∧ ks = []) := by
  cases ks with
  | nil => right; simp [Iter.inBounds_at]
  | cons x xs =>
    left
    have h : (Iter.at (x :: xs) 0).advance.inBounds := (Iter.inBounds_at _ 0 (by simp)).2 (by simp)
    exact ⟨h, x, xs, rfl, by rw [Iter.id_at _ 0 (by simp) (by simp)]; rfl⟩

/-! ### `add` -/

theorem validate_ok_iff (t : Table α) (id : U64) (hs : t.size ≠ 0) :
    validate t id = .ok () ↔ id < t.size := by
  unfold validate
  split
  · simp; bv_omega
  · simp; bv_omega

theorem validate_err_iff (t : Table α) (id : U64) (hs : t.size ≠ 0) :
    validate t id = .error .tooBig ↔ ¬ id < t.size := by
  unfold validate
  split
  · simp; bv_omega
  · simp; bv_omega

theorem validate_cases (t : Table α) (id : U64) :
    validate t id = .ok () ∨ validate t id = .error .tooBig := by
  unfold validate; split <;> simp

/-- a free id below the size validates, whatever the size is -/
theorem validate_of_lt (t : Table α) (id : U64) (h : id < t.size) : validate t id = .ok () := by
  unfold validate
  rw [if_neg]
  bv_omega

theorem add_free (t : Table α) (e : Entry α) (h : e.id < t.size) (hf : t.m.get? e.id = none) :
    add t e = ({ t with m := t.m.set e.id e }, .ok ()) := by
  simp [add, validate_of_lt t e.id h, isFreeB, hf]

/-- the table after claiming a list of ids -/
def setAll (t : Table α) (d : α) : List U64 → Table α
  | [] => t
  | id :: ids => setAll { t with m := t.m.set id ⟨id, d⟩ } d ids

theorem setAll_size (t : Table α) (d : α) (ids : List U64) : (setAll t d ids).size = t.size := by
  induction ids generalizing t with
  | nil => rfl
  | cons x xs ih => simp [setAll, ih]

theorem setAll_get? (t : Table α) (d : α) (ids : List U64) (x : U64) :
    (setAll t d ids).m.get? x = if x ∈ ids then some ⟨x, d⟩ else t.m.get? x := by
  induction ids generalizing t with
  | nil => simp [setAll]
  | cons y ys ih =>
    simp only [setAll, ih, GoMap.get?_set, List.mem_cons]
    by_cases h1 : x ∈ ys
    · simp [h1]
    · by_cases h2 : x = y
      · simp [h2]
      · simp [h1, h2]

theorem addAll_ok (t : Table α) (d : α) (ids : List U64) (hn : ids.Nodup)
    (h : ∀ x ∈ ids, x < t.size ∧ t.m.get? x = none) :
    addAll t d ids = (setAll t d ids, .ok ()) := by
  induction ids generalizing t with
  | nil => rfl
  | cons x xs ih =>
    rw [List.nodup_cons] at hn
    have hx := h x (by simp)
    simp only [addAll, add_free t ⟨x, d⟩ hx.1 hx.2, setAll]
    apply ih
    · exact hn.2
    · intro y hy
      have := h y (by simp [hy])
      refine ⟨this.1, ?_⟩
      simp only [GoMap.get?_set]
      rw [if_neg, this.2]
      rintro rfl
      exact hn.1 hy

theorem addAllE_ok (t : Table α) (d : α) (ids : List U64) (acc : List (Entry α)) (hn : ids.Nodup)
    (h : ∀ x ∈ ids, x < t.size ∧ t.m.get? x = none) :
    addAllE t d ids acc = (setAll t d ids, .ok (acc ++ ids.map (fun i => ⟨i, d⟩))) := by
  induction ids generalizing t acc with
  | nil => simp [addAllE, setAll]
  | cons x xs ih =>
    rw [List.nodup_cons] at hn
    have hx := h x (by simp)
    simp only [addAllE, add_free t ⟨x, d⟩ hx.1 hx.2, setAll]
    rw [ih]
    · simp
    · exact hn.2
    · intro y hy
      have := h y (by simp [hy])
      refine ⟨this.1, ?_⟩
      simp only [GoMap.get?_set]
      rw [if_neg, this.2]
      rintro rfl
      exact hn.1 hy

/-! ### `findFreeRange` -/

/-- list form of the loop of `findFreeRange`; `prev` is the free id delivered before -/
def ffrList (start stop : U64) : Option U64 → List U64 → List U64 → Except Err (List U64)
  | _, [], _ => .error .noRange
  | prev, x :: xs, acc =>
    if x < start then ffrList start stop (some x) xs acc
    else if x = start then ffrList start stop (some x) xs (acc ++ [x])
    else if x > start ∧ x < stop then
      if prev = some (x - 1) then ffrList start stop (some x) xs (acc ++ [x])
      else .error .inUse
    else .ok (acc ++ [x])

theorem ffr_loop_eq_list (start stop : U64) (ks : List U64) (hk : ks.length < 2 ^ 64) :
    ∀ (fuel i : Nat) (acc : List U64), i ≤ ks.length → ks.length - i < fuel →
      findFreeRangeLoop start stop fuel (Iter.at ks i) acc =
        ffrList start stop (if 0 < i then ks[i - 1]? else none) (ks.drop i) acc := by
  intro fuel
  induction fuel with
  | zero => intro i acc _ h; omega
  | succ fuel ih =>
    intro i acc hi hf
    unfold findFreeRangeLoop
    by_cases hlt : i < ks.length
    · have hb : (Iter.at ks i).advance.inBounds := (Iter.inBounds_at ks i (by omega)).2 hlt
      have hprev : (if 0 < i + 1 then ks[i + 1 - 1]? else none) = some ks[i] := by simp [hlt]
      have ih' := fun acc => ih (i + 1) acc (by omega) (by omega)
      simp only [hprev] at ih'
      rw [List.drop_eq_getElem_cons hlt]
      simp only [dif_pos hb, Iter.id_at ks i (by omega) hlt hb,
        Iter.isConsecutive_at ks i (by omega) hlt hb, ffrList]
      simp only [Iter.advance_at', ih']
      by_cases h0 : 0 < i
      · simp only [h0, true_and, if_true, Bool.not_eq_eq_eq_not, Bool.not_true,
          decide_eq_false_iff_not]
        by_cases h5 : ks[i - 1]? = some (ks[i] - 1) <;> simp [h5]
      · simp [h0]
    · have hb : ¬ (Iter.at ks i).advance.inBounds := by
        rw [Iter.inBounds_at ks i (by omega)]; exact hlt
      have hd : ks.drop i = [] := List.drop_eq_nil_of_le (by omega)
      simp only [dif_neg hb, hd, ffrList]

/-- the closed form of a successful search -/
def FfrOk (start stop : U64) (whole ids : List U64) : Prop :=
  (∀ x ∈ whole, start < x → x < stop → x - 1 ∈ whole) ∧
  ∃ z ∈ whole, start < z ∧ stop ≤ z ∧ (∀ y ∈ whole, start < y → stop ≤ y → z ≤ y) ∧
    ids = whole.filter (fun x => decide (start ≤ x ∧ x ≤ z))

theorem ffrList_spec (start stop : U64) (whole : List U64) (hs : whole.Pairwise (· < ·)) :
    ∀ (rest done : List U64), whole = done ++ rest →
      (∀ x ∈ done, start < x → x < stop → x - 1 ∈ whole) →
      (∀ x ∈ done, ¬ (start < x ∧ stop ≤ x)) →
      ∀ ids, ffrList start stop done.getLast? rest (done.filter (fun x => decide (start ≤ x))) =
        .ok ids ↔ FfrOk start stop whole ids := by
  intro rest
  induction rest with
  | nil =>
    intro done hw h1 h2 ids
    simp only [ffrList, reduceCtorEq, false_iff]
    rintro ⟨_, z, hz, hz1, hz2, _⟩
    rw [hw, List.append_nil] at hz
    exact h2 z hz ⟨hz1, hz2⟩
  | cons x xs ih =>
    intro done hw h1 h2 ids
    have hstep : whole = (done ++ [x]) ++ xs := by simp [hw]
    have hx : x ∈ whole := by simp [hw]
    have hlast : (done ++ [x]).getLast? = some x := by simp
    rw [hw, List.pairwise_append] at hs
    obtain ⟨hs1, hs2, hs3⟩ := hs
    rw [List.pairwise_cons] at hs2
    unfold ffrList
    by_cases c1 : x < start
    · rw [if_pos c1]
      have := ih (done ++ [x]) hstep
        (by intro y hy; rw [List.mem_append, List.mem_singleton] at hy
            rcases hy with hy | hy
            · exact h1 y hy
            · subst hy; intro h; bv_omega)
        (by intro y hy; rw [List.mem_append, List.mem_singleton] at hy
            rcases hy with hy | hy
            · exact h2 y hy
            · subst hy; rintro ⟨h, _⟩; bv_omega) ids
      rw [hlast, List.filter_append] at this
      have hf : ([x].filter (fun x => decide (start ≤ x))) = [] := by
        simp; bv_omega
      rw [hf, List.append_nil] at this
      exact this
    rw [if_neg c1]
    have hf : ([x].filter (fun x => decide (start ≤ x))) = [x] := by
      simp; bv_omega
    by_cases c2 : x = start
    · rw [if_pos c2]
      have := ih (done ++ [x]) hstep
        (by intro y hy; rw [List.mem_append, List.mem_singleton] at hy
            rcases hy with hy | hy
            · exact h1 y hy
            · subst hy; intro h; bv_omega)
        (by intro y hy; rw [List.mem_append, List.mem_singleton] at hy
            rcases hy with hy | hy
            · exact h2 y hy
            · subst hy; rintro ⟨h, _⟩; bv_omega) ids
      rw [hlast, List.filter_append, hf] at this
      exact this
    rw [if_neg c2]
    have hgt : start < x := by bv_omega
    by_cases c3 : x > start ∧ x < stop
    · rw [if_pos c3]
      by_cases c4 : done.getLast? = some (x - 1)
      · rw [if_pos c4]
        have hmem : x - 1 ∈ whole := by
          rw [hw]; exact List.mem_append_left _ (List.mem_of_getLast? c4)
        have := ih (done ++ [x]) hstep
          (by intro y hy; rw [List.mem_append, List.mem_singleton] at hy
              rcases hy with hy | hy
              · exact h1 y hy
              · subst hy; intro _ _; exact hmem)
          (by intro y hy; rw [List.mem_append, List.mem_singleton] at hy
              rcases hy with hy | hy
              · exact h2 y hy
              · subst hy; rintro ⟨_, h⟩; bv_omega) ids
        rw [hlast, List.filter_append, hf] at this
        exact this
      · rw [if_neg c4]
        simp only [reduceCtorEq, false_iff]
        rintro ⟨hc, _⟩
        have hm := hc x hx c3.1 c3.2
        apply c4
        -- `x - 1` lies in `whole`, below `x`, hence in `done`, and nothing fits in between
        have hlt : x - 1 < x := by bv_omega
        have hmd : x - 1 ∈ done := by
          rw [hw, List.mem_append, List.mem_cons] at hm
          rcases hm with h | h | h
          · exact h
          · bv_omega
          · have := hs2.1 _ h; bv_omega
        have hne : done ≠ [] := by rintro rfl; cases hmd
        rw [List.getLast?_eq_some_getLast hne]
        congr 1
        have hl := List.getLast_mem hne
        have hlx := hs3 _ hl x (by simp)
        have hle : x - 1 ≤ done.getLast hne := by
          rw [← List.dropLast_concat_getLast hne] at hmd hs1
          rw [List.mem_append, List.mem_singleton] at hmd
          rcases hmd with h | h
          · rw [List.pairwise_append] at hs1
            have := hs1.2.2 _ h _ (List.mem_singleton.2 rfl)
            bv_omega
          · bv_omega
        bv_omega
    · rw [if_neg c3]
      have hstop : stop ≤ x := by
        rw [Classical.not_and_iff_not_or_not] at c3
        rcases c3 with h | h <;> bv_omega
      have hfilt : (done ++ x :: xs).filter (fun y => decide (start ≤ y ∧ y ≤ x)) =
          done.filter (fun x => decide (start ≤ x)) ++ [x] := by
        rw [List.filter_append, List.filter_cons]
        rw [if_pos (by simp; bv_omega)]
        have e1 : done.filter (fun y => decide (start ≤ y ∧ y ≤ x)) =
            done.filter (fun x => decide (start ≤ x)) := by
          apply List.filter_congr
          intro y hy
          have := hs3 y hy x (by simp)
          simp only [decide_eq_decide, and_iff_left_iff_imp]
          intro _; bv_omega
        have e2 : xs.filter (fun y => decide (start ≤ y ∧ y ≤ x)) = [] := by
          rw [List.filter_eq_nil_iff]
          intro y hy
          have := hs2.1 y hy
          simp; intro _; bv_omega
        rw [e1, e2]
      constructor
      · intro h
        injection h with h
        refine ⟨?_, x, hx, hgt, hstop, ?_, ?_⟩
        · intro y hy hy1 hy2
          rw [hw, List.mem_append, List.mem_cons] at hy
          rcases hy with hy | hy | hy
          · exact h1 y hy hy1 hy2
          · subst hy; bv_omega
          · have := hs2.1 y hy; bv_omega
        · intro y hy hy1 hy2
          rw [hw, List.mem_append, List.mem_cons] at hy
          rcases hy with hy | hy | hy
          · exact absurd ⟨hy1, hy2⟩ (h2 y hy)
          · subst hy; bv_omega
          · have := hs2.1 y hy; bv_omega
        · rw [← h, hw, hfilt]
      · rintro ⟨_, z, hz, hz1, hz2, hz3, hz4⟩
        have hzx : z = x := by
          have h1' := hz3 x hx hgt hstop
          rw [hw, List.mem_append, List.mem_cons] at hz
          rcases hz with hz | hz | hz
          · exact absurd ⟨hz1, hz2⟩ (h2 z hz)
          · exact hz
          · have := hs2.1 z hz; bv_omega
        subst hzx
        rw [hz4, hw, hfilt]

theorem findFreeRange_ok_iff (t : Table α) (start size : U64) (ids : List U64) :
    findFreeRange t start size = .ok ids ↔
      ¬ start > t.size - 1 ∧ ¬ start + size - 1 > t.size - 1 ∧
      FfrOk start (start + size - 1) (freeKeys t) ids := by
  unfold findFreeRange
  simp only
  by_cases h1 : start > t.size - 1
  · rw [if_pos h1]; simp only [reduceCtorEq, h1, not_true_eq_false, false_and]
  by_cases h2 : start + size - 1 > t.size - 1
  · rw [if_neg h1, if_pos h2]
    simp only [reduceCtorEq, h2, not_true_eq_false, false_and, and_false]
  simp only [h1, h2, if_false, not_false_eq_true, true_and]
  rw [iterateFree_keys, iterateFree_at, ffr_loop_eq_list _ _ _ (freeKeys_length_lt t) _ _ _
    (by omega) (by omega)]
  have := ffrList_spec start (start + size - 1) (freeKeys t) (freeKeys_sorted t) (freeKeys t) []
    rfl (by simp) (by simp) ids
  simpa using this

/-! ### `findFreeSize` -/

theorem ffs_loop (size : U64) (ks : List U64) (hk : ks.length < 2 ^ 64) :
    ∀ (fuel i : Nat) (acc : List U64), i ≤ ks.length → ks.length - i < fuel →
      (0 < size.toNat → i < size.toNat) →
      findFreeSizeLoop size fuel (Iter.at ks i) (BitVec.ofNat 64 i) acc =
        if 0 < size.toNat ∧ size.toNat ≤ ks.length then
          .ok (acc ++ (ks.drop i).take (size.toNat - i))
        else .error .noSize := by
  intro fuel
  induction fuel with
  | zero => intro i acc _ h; omega
  | succ fuel ih =>
    intro i acc hi hf his
    unfold findFreeSizeLoop
    by_cases hlt : i < ks.length
    · have hb : (Iter.at ks i).advance.inBounds := (Iter.inBounds_at ks i (by omega)).2 hlt
      simp only [dif_pos hb, Iter.id_at ks i (by omega) hlt hb]
      simp only [Iter.advance_at']
      have hi1 : BitVec.ofNat 64 i + 1 = BitVec.ofNat 64 (i + 1) := by
        apply BitVec.eq_of_toNat_eq; simp
      rw [hi1]
      by_cases hz : size = 0
      · subst hz
        have : ¬ (BitVec.ofNat 64 (i + 1) > (0 : U64) - 1) := by bv_omega
        rw [if_neg this, ih (i + 1) _ (by omega) (by omega) (by simp)]
        simp
      · have hpos : 0 < size.toNat := by
          rcases Nat.eq_zero_or_pos size.toNat with h | h
          · exact absurd (BitVec.eq_of_toNat_eq (by simpa using h)) hz
          · exact h
        have his := his hpos
        have hcmp : (BitVec.ofNat 64 (i + 1) > size - 1) ↔ i + 1 = size.toNat := by
          have h1 : (1 : U64) ≤ size := by rw [BitVec.le_def]; simp; omega
          rw [gt_iff_lt, BitVec.lt_def, BitVec.toNat_sub_of_le h1, BitVec.toNat_ofNat,
            Nat.mod_eq_of_lt (by omega)]
          simp; omega
        by_cases hc : i + 1 = size.toNat
        · rw [if_pos (hcmp.2 hc), if_pos (by omega)]
          have : size.toNat - i = 1 := by omega
          rw [this, List.drop_eq_getElem_cons hlt, List.take_succ_cons, List.take_zero]
        · rw [if_neg (fun h => hc (hcmp.1 h)), ih (i + 1) _ (by omega) (by omega) (by omega)]
          by_cases hc2 : 0 < size.toNat ∧ size.toNat ≤ ks.length
          · rw [if_pos hc2, if_pos hc2, List.drop_eq_getElem_cons hlt]
            have : size.toNat - i = (size.toNat - (i + 1)) + 1 := by omega
            rw [this, List.take_succ_cons]
            simp
          · rw [if_neg hc2, if_neg hc2]
    · have hb : ¬ (Iter.at ks i).advance.inBounds := by
        rw [Iter.inBounds_at ks i (by omega)]; exact hlt
      rw [dif_neg hb, if_neg]
      rintro ⟨h1, h2⟩
      have := his h1
      omega

theorem findFreeSize_eq (t : Table α) (size : U64) :
    findFreeSize t size =
      if size > t.size then .error .sizeTooBig
      else if 0 < size.toNat ∧ size.toNat ≤ (freeKeys t).length then
        .ok ((freeKeys t).take size.toNat)
      else .error .noSize := by
  unfold findFreeSize
  split
  · rfl
  · simp only
    rw [iterateFree_keys, iterateFree_at]
    have := ffs_loop size (freeKeys t) (freeKeys_length_lt t) ((freeKeys t).length + 1) 0 []
      (by omega) (by omega) (by omega)
    simpa using this

/-! ### `GetAll` -/

theorem collect_loop (m : GoMap U64 (Entry α)) (ks : List U64) (hk : ks.length < 2 ^ 64) :
    ∀ (fuel i : Nat) (acc : List (Option (Entry α))), i ≤ ks.length → ks.length - i < fuel →
      collectLoop m fuel (Iter.at ks i) acc = acc ++ (ks.drop i).map m.get? := by
  intro fuel
  induction fuel with
  | zero => intro i acc _ h; omega
  | succ fuel ih =>
    intro i acc hi hf
    unfold collectLoop
    by_cases hlt : i < ks.length
    · have hb : (Iter.at ks i).advance.inBounds := (Iter.inBounds_at ks i (by omega)).2 hlt
      simp only [dif_pos hb, Iter.value, Iter.id_at ks i (by omega) hlt hb]
      simp only [Iter.advance_at']
      rw [ih (i + 1) _ (by omega) (by omega), List.drop_eq_getElem_cons hlt]
      simp only [List.map_cons, List.append_assoc, List.singleton_append]
    · have hb : ¬ (Iter.at ks i).advance.inBounds := by
        rw [Iter.inBounds_at ks i (by omega)]; exact hlt
      have hd : ks.drop i = [] := List.drop_eq_nil_of_le (by omega)
      simp only [dif_neg hb, hd, List.map_nil, List.append_nil]

theorem getAllOrd_eq (t : Table α) (order : List U64) (hl : order.length < 2 ^ 64) :
    getAllOrd t order = (sortKeys order).map t.m.get? := by
  have hlen : (sortKeys order).length = order.length := (sortKeys_perm order).length_eq
  have := collect_loop t.m (sortKeys order) (by omega) ((sortKeys order).length + 1) 0 []
    (by omega) (by omega)
  simpa [getAllOrd, iterate, Iter.at] using this

end Verif.IdxTable
