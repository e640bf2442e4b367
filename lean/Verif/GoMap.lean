/-
A Go `map[K]V`.  The Go runtime guarantees that a map holds at most one value per key; the
representation is an association list without duplicate keys.  The order of the list is *not*
observable by the modelled code: every loop `for k := range m` takes an explicit permutation.
-/

namespace Verif

/-- A Go map: key/value pairs, at most one per key. -/
structure GoMap (K V : Type) where
  entries : List (K × V)
  nodup : (entries.map Prod.fst).Nodup

namespace GoMap
set_option linter.unusedSectionVars false
variable {K V : Type} [DecidableEq K]

/-- `map[K]V{}` -/
def empty : GoMap K V := ⟨[], by simp⟩

/-- `v, ok := m[k]` -/
def get? (m : GoMap K V) (k : K) : Option V :=
  (m.entries.find? (fun p => p.1 = k)).map Prod.snd

/-- the keys, in representation order -/
def keys (m : GoMap K V) : List K := m.entries.map Prod.fst

/-- `len(m)` -/
def len (m : GoMap K V) : Nat := m.entries.length

private theorem map_fst_setEntries (l : List (K × V)) (k : K) (v : V) :
    (l.map (fun p => if p.1 = k then (k, v) else p)).map Prod.fst = l.map Prod.fst := by
  induction l with
  | nil => rfl
  | cons p l ih =>
    simp only [List.map_cons, ih]
    split <;> simp_all

/-- `m[k] = v` -/
def set (m : GoMap K V) (k : K) (v : V) : GoMap K V :=
  if h : k ∈ m.keys then
    ⟨m.entries.map (fun p => if p.1 = k then (k, v) else p), by
      rw [map_fst_setEntries]; exact m.nodup⟩
  else
    ⟨m.entries ++ [(k, v)], by
      rw [List.map_append, List.nodup_append]
      refine ⟨m.nodup, by simp, ?_⟩
      intro a ha b hb hab
      simp only [List.map_cons, List.map_nil, List.mem_singleton] at hb
      subst hb; subst hab
      exact h ha⟩

/-- `delete(m, k)` -/
def del (m : GoMap K V) (k : K) : GoMap K V :=
  ⟨m.entries.filter (fun p => p.1 ≠ k), by
    have hs : List.Sublist ((m.entries.filter (fun p => decide (p.1 ≠ k))).map Prod.fst)
        (m.entries.map Prod.fst) := (List.filter_sublist).map _
    exact hs.nodup m.nodup⟩

theorem keys_nodup (m : GoMap K V) : m.keys.Nodup := m.nodup

@[simp] theorem get?_empty (k : K) : (empty : GoMap K V).get? k = none := rfl
@[simp] theorem keys_empty : (empty : GoMap K V).keys = [] := rfl
@[simp] theorem len_empty : (empty : GoMap K V).len = 0 := rfl

theorem len_eq_keys_length (m : GoMap K V) : m.len = m.keys.length := by simp [len, keys]

theorem get?_eq_none_iff (m : GoMap K V) (k : K) : m.get? k = none ↔ k ∉ m.keys := by
  simp only [get?, Option.map_eq_none_iff, List.find?_eq_none, keys, List.mem_map, not_exists,
    not_and, decide_eq_true_eq]

theorem get?_isSome_iff (m : GoMap K V) (k : K) : (m.get? k).isSome ↔ k ∈ m.keys := by
  have h := get?_eq_none_iff m k
  cases hg : m.get? k with
  | none => simp [h.1 hg]
  | some v =>
    simp only [Option.isSome_some, true_iff]
    by_cases hm : k ∈ m.keys
    · exact hm
    · rw [h.2 hm] at hg; cases hg

theorem get?_eq_some_iff (m : GoMap K V) (k : K) (v : V) :
    m.get? k = some v ↔ (k, v) ∈ m.entries := by
  obtain ⟨l, hl⟩ := m
  simp only [get?]
  induction l with
  | nil => simp
  | cons p l ih =>
    simp only [List.map_cons, List.nodup_cons] at hl
    by_cases hp : p.1 = k
    · simp only [List.find?_cons, hp, decide_true, Option.map_some, Option.some.injEq,
        List.mem_cons]
      constructor
      · intro h; left; rw [← hp, ← h]
      · rintro (h | h)
        · rw [← h]
        · exfalso
          apply hl.1
          rw [hp]
          exact List.mem_map.2 ⟨(k, v), h, rfl⟩
    · simp only [List.find?_cons, hp, decide_false, List.mem_cons]
      rw [ih hl.2]
      constructor
      · intro h; exact Or.inr h
      · rintro (h | h)
        · exfalso; apply hp; rw [← h]
        · exact h

theorem get?_set (m : GoMap K V) (k k' : K) (v : V) :
    (m.set k v).get? k' = if k' = k then some v else m.get? k' := by
  apply Option.ext
  intro w
  rw [get?_eq_some_iff]
  by_cases hk : k' = k
  · subst hk
    simp only [if_true, Option.some.injEq]
    unfold set
    split
    · rename_i h
      simp only [List.mem_map]
      constructor
      · rintro ⟨p, _, hp⟩
        split at hp
        · cases hp; rfl
        · rename_i hne; exfalso; apply hne; rw [hp]
      · intro hw
        subst hw
        obtain ⟨p, hp, hpk⟩ := List.mem_map.1 h
        exact ⟨p, hp, by simp [hpk]⟩
    · rename_i h
      simp only [List.mem_append, List.mem_singleton, Prod.mk.injEq, true_and]
      constructor
      · rintro (h' | h')
        · exact absurd (List.mem_map.2 ⟨_, h', rfl⟩) h
        · exact h'.symm
      · intro h'; exact Or.inr h'.symm
  · simp only [hk, if_false]
    rw [get?_eq_some_iff]
    unfold set
    split
    · simp only [List.mem_map]
      constructor
      · rintro ⟨p, hpm, hp⟩
        split at hp
        · cases hp; exact absurd rfl hk
        · rw [← hp]; exact hpm
      · intro h
        exact ⟨_, h, by simp [hk]⟩
    · simp [hk]

theorem get?_del (m : GoMap K V) (k k' : K) :
    (m.del k).get? k' = if k' = k then none else m.get? k' := by
  apply Option.ext
  intro w
  rw [get?_eq_some_iff]
  unfold del
  by_cases hk : k' = k
  · simp [hk]
  · simp only [hk, if_false, get?_eq_some_iff]
    simp [hk]

theorem del_of_not_mem (m : GoMap K V) (k : K) (h : m.get? k = none) : m.del k = m := by
  rw [get?_eq_none_iff] at h
  obtain ⟨l, hl⟩ := m
  simp only [del, GoMap.mk.injEq]
  rw [List.filter_eq_self]
  intro p hp
  simp only [ne_eq, decide_eq_true_eq]
  intro hpk
  exact h (List.mem_map.2 ⟨p, hp, hpk⟩)

theorem mem_keys_set (m : GoMap K V) (k k' : K) (v : V) :
    k' ∈ (m.set k v).keys ↔ k' = k ∨ k' ∈ m.keys := by
  rw [← get?_isSome_iff, get?_set, ← get?_isSome_iff]
  by_cases h : k' = k <;> simp [h]

theorem mem_keys_del (m : GoMap K V) (k k' : K) :
    k' ∈ (m.del k).keys ↔ k' ≠ k ∧ k' ∈ m.keys := by
  rw [← get?_isSome_iff, get?_del, ← get?_isSome_iff]
  by_cases h : k' = k <;> simp [h]

theorem len_set (m : GoMap K V) (k : K) (v : V) :
    (m.set k v).len = if (m.get? k).isSome then m.len else m.len + 1 := by
  unfold set len
  by_cases h : k ∈ m.keys
  · rw [dif_pos h, if_pos ((get?_isSome_iff m k).2 h)]; simp
  · rw [dif_neg h, if_neg (fun h' => h ((get?_isSome_iff m k).1 h'))]; simp

end GoMap
end Verif
