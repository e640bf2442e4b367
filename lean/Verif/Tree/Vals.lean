import Verif.Tree.DelSpec

/-! The values of a node: what the map operations do to the lists of values. -/

namespace Verif.Tree
variable {T : Type} [Inhabited T]

/-- the values with keys `key`, `key + 1`, ... -/
def valsAt (vals : GoMap (BitVec 64) T) (key : BitVec 64) (c : Nat) : List T :=
  (List.range c).map (fun j => getV vals (key + BitVec.ofNat 64 j))

@[simp] theorem length_valsAt (vals : GoMap (BitVec 64) T) (key : BitVec 64) (c : Nat) :
    (valsAt vals key c).length = c := by simp [valsAt]

theorem valsAt_congr {vals vals' : GoMap (BitVec 64) T} {key key' : BitVec 64} {c : Nat}
    (h : ∀ j < c, getV vals (key + BitVec.ofNat 64 j) = getV vals' (key' + BitVec.ofNat 64 j)) :
    valsAt vals key c = valsAt vals' key' c := by
  unfold valsAt
  apply List.map_congr_left
  intro j hj
  exact h j (List.mem_range.1 hj)

theorem getElem?_valsAt (vals : GoMap (BitVec 64) T) (key : BitVec 64) (c j : Nat) :
    (valsAt vals key c)[j]? = if j < c then some (getV vals (key + BitVec.ofNat 64 j)) else none := by
  unfold valsAt
  rw [List.getElem?_map]
  by_cases h : j < c
  · rw [List.getElem?_range h]; simp [h]
  · rw [List.getElem?_eq_none (by simpa using h)]; simp [h]

theorem valsAt_succ (vals : GoMap (BitVec 64) T) (key : BitVec 64) (c : Nat) :
    valsAt vals key (c + 1) = valsAt vals key c ++ [getV vals (key + BitVec.ofNat 64 c)] := by
  unfold valsAt
  rw [List.range_succ, List.map_append]
  rfl

theorem getV_set (vals : GoMap (BitVec 64) T) (k k' : BitVec 64) (v : T) :
    getV (vals.set k v) k' = if k' = k then v else getV vals k' := by
  unfold getV
  rw [GoMap.get?_set]
  split <;> rfl

theorem getV_del (vals : GoMap (BitVec 64) T) (k k' : BitVec 64) :
    getV (vals.del k) k' = if k' = k then default else getV vals k' := by
  unfold getV
  rw [GoMap.get?_del]
  split <;> rfl

theorem key_inj {key : BitVec 64} {j j' : Nat} (hj : j < 2 ^ 64) (hj' : j' < 2 ^ 64)
    (h : key + BitVec.ofNat 64 j = key + BitVec.ofNat 64 j') : j = j' := by
  have h1 : BitVec.ofNat 64 j = BitVec.ofNat 64 j' := by
    have := congrArg (fun x => x - key) h
    simpa [BitVec.add_comm key, BitVec.add_sub_cancel] using this
  have h2 := congrArg BitVec.toNat h1
  simp only [BitVec.toNat_ofNat] at h2
  rwa [Nat.mod_eq_of_lt hj, Nat.mod_eq_of_lt hj'] at h2

/-- what `addVal` does to the list of values -/
def addL (m : Option (T → T → Bool)) (u : Option (T → T)) (val : T) (l : List T) : List T :=
  match m with
  | none => l ++ [val]
  | some m =>
    match l.findIdx? (fun x => m x val), u with
    | none, _ => l ++ [val]
    | some _, none => l
    | some j, some u => l.modify j u

theorem findMatch_eq (vals : GoMap (BitVec 64) T) (key : BitVec 64) (m : T → T → Bool) (val : T) :
    ∀ (n i : Nat), findMatch vals key m val n i =
      (((List.range' i n).map (fun j => getV vals (key + BitVec.ofNat 64 j))).findIdx?
        (fun x => m x val)).map (· + i)
  | 0, i => by simp [findMatch]
  | n + 1, i => by
    rw [findMatch, List.range'_succ, List.map_cons, List.findIdx?_cons]
    by_cases h : m (getV vals (key + BitVec.ofNat 64 i)) val
    · simp [h]
    · simp only [h, Bool.false_eq_true, if_false]
      rw [findMatch_eq vals key m val n (i + 1), Option.map_map]
      congr 1
      funext x
      simp only [Function.comp]
      omega

theorem valStep_length (vals : GoMap (BitVec 64) T) (key : BitVec 64) (c : Nat) (val : T)
    (m : Option (T → T → Bool)) (u : Option (T → T)) :
    (addL m u val (valsAt vals key c)).length = c + (valStep vals key c val m u).1.toNat := by
  have hl : (valsAt vals key c).length = c := by simp [valsAt]
  cases m with
  | none => simp [addL, valStep, hl]
  | some m =>
    unfold valStep addL
    have he := findMatch_eq vals key m val c 0
    rw [← List.range_eq_range'] at he
    simp only [Nat.add_zero, Option.map_id'] at he
    change _ = (valsAt vals key c).findIdx? _ at he
    simp only [he]
    cases hf : (valsAt vals key c).findIdx? (fun x => m x val) with
    | none => simp [hl]
    | some j => cases u <;> simp [hl]

theorem valStep_self {vals : GoMap (BitVec 64) T} {key : BitVec 64} {c : Nat} (val : T)
    (m : Option (T → T → Bool)) (u : Option (T → T)) (hc : c + (valStep vals key c val m u).1.toNat ≤ 2 ^ 64) :
    valsAt (valStep vals key c val m u).2 key (c + (valStep vals key c val m u).1.toNat) =
      addL m u val (valsAt vals key c) := by
  have happ : c + 1 ≤ 2 ^ 64 → valsAt (vals.set (key + BitVec.ofNat 64 c) val) key (c + 1) = valsAt vals key c ++ [val] := by
    intro hc
    rw [valsAt_succ, getV_set, if_pos rfl]
    congr 1
    apply valsAt_congr
    intro j hj
    rw [getV_set, if_neg]
    intro h
    have := key_inj (by omega) (by omega) h
    omega
  cases m with
  | none => exact happ hc
  | some m =>
    unfold valStep addL
    unfold valStep at hc
    have he := findMatch_eq vals key m val c 0
    rw [← List.range_eq_range'] at he
    simp only [Nat.add_zero, Option.map_id'] at he
    simp only [he] at hc ⊢
    show _ = (match (valsAt vals key c).findIdx? (fun x => m x val), u with
      | none, _ => _ | some _, none => _ | some j, some u => _)
    unfold valsAt
    cases hf : ((List.range c).map (fun j => getV vals (key + BitVec.ofNat 64 j))).findIdx? (fun x => m x val) with
    | none => rw [hf] at hc; exact happ hc
    | some j =>
      rw [hf] at hc
      cases u with
      | none => simp
      | some u =>
        have hj : j < c := by
          have := List.findIdx?_eq_some_iff_getElem.1 hf
          obtain ⟨h, _⟩ := this
          simpa using h
        simp only [Bool.toNat_false, Nat.add_zero] at hc ⊢
        apply List.ext_getElem?
        intro x
        rw [List.getElem?_modify]
        have h1 := getElem?_valsAt vals key c x
        have h2 := getElem?_valsAt (vals.set (key + BitVec.ofNat 64 j) (u (getV vals (key + BitVec.ofNat 64 j)))) key c x
        unfold valsAt at h1 h2
        rw [h1, h2]
        by_cases hx : x < c
        · rw [if_pos hx, if_pos hx, getV_set]
          by_cases hxj : j = x
          · subst hxj; simp
          · rw [if_neg]
            · simp [hxj]
            · intro h
              have := key_inj (by omega) (by omega) h
              omega
        · rw [if_neg hx, if_neg hx]; rfl

theorem valStep_other {vals : GoMap (BitVec 64) T} {key k' : BitVec 64} {c : Nat} (val : T)
    (m : Option (T → T → Bool)) (u : Option (T → T)) (h : ∀ j < c + (valStep vals key c val m u).1.toNat, k' ≠ key + BitVec.ofNat 64 j) :
    getV (valStep vals key c val m u).2 k' = getV vals k' := by
  unfold valStep at h ⊢
  have happ : k' ≠ key + BitVec.ofNat 64 c → getV (vals.set (key + BitVec.ofNat 64 c) val) k' = getV vals k' := by
    intro h
    rw [getV_set, if_neg h]
  cases m with
  | none => exact happ (h c (by simp))
  | some m =>
    simp only at h ⊢
    have he := findMatch_eq vals key m val c 0
    rw [← List.range_eq_range'] at he
    simp only [Nat.add_zero, Option.map_id'] at he
    cases hf : findMatch vals key m val c 0 with
    | none => rw [hf] at h; exact happ (h c (by simp))
    | some j =>
      rw [hf] at h
      cases u with
      | none => rfl
      | some u =>
        rw [hf] at he
        have hj : j < c := by
          have := List.findIdx?_eq_some_iff_getElem.1 he.symm
          obtain ⟨h, _⟩ := this
          simpa using h
        simp only
        rw [getV_set, if_neg (h j (by omega))]

/-! ### Deleting -/

theorem getV_delLoop_other {key k' : BitVec 64} : ∀ {n i : Nat} {vals : GoMap (BitVec 64) T},
    (∀ j, i ≤ j → j < i + n → k' ≠ key + BitVec.ofNat 64 j) → getV (delLoop key n i vals) k' = getV vals k' := by
  intro n
  induction n with
  | zero => intro i vals _; rfl
  | succ n ih =>
    intro i vals h
    rw [delLoop, ih (fun j h1 h2 => h j (by omega) (by omega)), getV_del,
      if_neg (h i (Nat.le_refl _) (by omega))]

/-- putting values back one by one -/
def keepL (m : T → T → Bool) (l : List T) : List T := l.foldl (fun acc x => addL (some m) none x acc) []

theorem putBackV_spec {key : BitVec 64} {m : T → T → Bool} {v : T} : ∀ {buf : List T}
    {vals : GoMap (BitVec 64) T} {c d k : Nat}, c + buf.length ≤ 2 ^ 64 →
    valsAt (putBackV key m v buf vals c d k).1 key (putBackV key m v buf vals c d k).2.1 =
      (buf.filter (fun x => !m x v)).foldl (fun acc x => addL (some m) none x acc) (valsAt vals key c) ∧
    (putBackV key m v buf vals c d k).2.1 ≤ c + buf.length ∧
    (putBackV key m v buf vals c d k).2.2.1 = d + (buf.filter (fun x => m x v)).length ∧
    (putBackV key m v buf vals c d k).2.2.2 = k + (buf.filter (fun x => !m x v)).length ∧
    ∀ k', (∀ j < c + buf.length, k' ≠ key + BitVec.ofNat 64 j) →
      getV (putBackV key m v buf vals c d k).1 k' = getV vals k' := by
  intro buf
  induction buf with
  | nil => intro vals c d k _; simp [putBackV]
  | cons tag buf ih =>
    intro vals c d k h
    rw [List.length_cons] at h
    unfold putBackV
    by_cases hm : m tag v
    · simp only [hm, if_true]
      obtain ⟨h1, h2, h3, h4, h5⟩ := ih (vals := vals) (c := c) (d := d + 1) (k := k) (by omega)
      refine ⟨?_, ?_, ?_, ?_, ?_⟩
      · rw [h1]; simp [hm]
      · simp only [List.length_cons]; omega
      · rw [h3]; simp [hm]; omega
      · rw [h4]; simp [hm]
      · intro k' hk'
        exact h5 k' (fun j hj => hk' j (by simp only [List.length_cons]; omega))
    · simp only [hm, Bool.false_eq_true, if_false]
      have hb : (valStep vals key c tag (some m) none).1.toNat ≤ 1 := by
        cases (valStep vals key c tag (some m) none).1 <;> simp
      obtain ⟨h1, h2, h3, h4, h5⟩ := ih (vals := (valStep vals key c tag (some m) none).2)
        (c := c + (valStep vals key c tag (some m) none).1.toNat) (d := d) (k := k + 1) (by omega)
      refine ⟨?_, ?_, ?_, ?_, ?_⟩
      · rw [h1, valStep_self _ _ _ (by omega)]; simp [hm]
      · simp only [List.length_cons]; omega
      · rw [h3]; simp [hm]
      · rw [h4]; simp [hm]; omega
      · intro k' hk'
        rw [h5 k' (fun j hj => hk' j (by simp only [List.length_cons]; omega)),
          valStep_other tag (some m) none (fun j hj => hk' j (by simp only [List.length_cons]; omega))]

theorem delVals_spec {vals : GoMap (BitVec 64) T} {key : BitVec 64} {c : Nat} {v : T} {m : T → T → Bool}
    (hc : c ≤ 2 ^ 64) :
    valsAt (delVals vals key c v m).1 key (delVals vals key c v m).2.1 =
      keepL m ((valsAt vals key c).filter (fun x => !m x v)) ∧
    (delVals vals key c v m).2.1 ≤ c ∧
    (delVals vals key c v m).2.2.1 = ((valsAt vals key c).filter (fun x => m x v)).length ∧
    (delVals vals key c v m).2.2.2 = ((valsAt vals key c).filter (fun x => !m x v)).length ∧
    ∀ k', (∀ j < c, k' ≠ key + BitVec.ofNat 64 j) →
      getV (delVals vals key c v m).1 k' = getV vals k' := by
  obtain ⟨h1, h2, h3, h4, h5⟩ := putBackV_spec (key := key) (m := m) (v := v) (buf := valsAt vals key c)
    (vals := delLoop key c 0 vals) (c := 0) (d := 0) (k := 0) (by simp; exact hc)
  simp only [length_valsAt, Nat.zero_add] at h2 h3 h4 h5
  refine ⟨h1, h2, h3, h4, ?_⟩
  intro k' hk'
  exact (h5 k' hk').trans (getV_delLoop_other (fun j _ hj => hk' j (by omega)))

/-! ### Moving -/

theorem moveLoop_spec {fk tk : BitVec 64} : ∀ {n i : Nat} {vals : GoMap (BitVec 64) T}, i + n ≤ 2 ^ 64 →
    (∀ j j', j < i + n → j' < i + n → tk + BitVec.ofNat 64 j ≠ fk + BitVec.ofNat 64 j') →
    (∀ j, i ≤ j → j < i + n →
      getV (moveLoop fk tk n i vals) (tk + BitVec.ofNat 64 j) = getV vals (fk + BitVec.ofNat 64 j)) ∧
    (∀ k', (∀ j, i ≤ j → j < i + n → k' ≠ tk + BitVec.ofNat 64 j ∧ k' ≠ fk + BitVec.ofNat 64 j) →
      getV (moveLoop fk tk n i vals) k' = getV vals k') := by
  intro n
  induction n with
  | zero => intro i vals _ _; exact ⟨fun j h1 h2 => by omega, fun k' _ => rfl⟩
  | succ n ih =>
    intro i vals hle hdis
    obtain ⟨h1, h2⟩ := ih (i := i + 1)
      (vals := (vals.set (tk + BitVec.ofNat 64 i) (getV vals (fk + BitVec.ofNat 64 i))).del (fk + BitVec.ofNat 64 i))
      (by omega) (fun j j' h h' => hdis j j' (by omega) (by omega))
    rw [moveLoop]
    constructor
    · intro j hj1 hj2
      by_cases hj : j = i
      · subst hj
        rw [h2, getV_del, if_neg (hdis j j (by omega) (by omega)), getV_set, if_pos rfl]
        intro j' hj' hj''
        refine ⟨?_, hdis j j' (by omega) (by omega)⟩
        intro h
        have := key_inj (by omega) (by omega) h
        omega
      · rw [h1 j (by omega) (by omega), getV_del, if_neg, getV_set, if_neg]
        · exact (hdis i j (by omega) (by omega)).symm
        · intro h
          have := key_inj (by omega) (by omega) h
          omega
    · intro k' hk'
      rw [h2 k' (fun j h h' => hk' j (by omega) (by omega)), getV_del, if_neg (hk' i (by omega) (by omega)).2,
        getV_set, if_neg (hk' i (by omega) (by omega)).1]

end Verif.Tree
