import Verif.GTree.Model
import Verif.GoMap
import Mathlib.Data.List.Sort

/-!
C98: `Equal` on entries, with the label sets of k8s.io/apimachinery/pkg/labels and their `String` (v0.31.0, not part of
/repo, modelled from its documentation: the pairs `key=value`, sorted, joined by commas; strings are bytes).
-/

namespace Verif.GTree
open Verif.Id

/-- a Go string -/
abbrev Text := List UInt8

/-- `labels.Set`, a `map[string]string` -/
abbrev LabelSet := GoMap Text Text

/-- the order of Go strings -/
def textLe (a b : Text) : Bool := decide (a ≤ b)

/-- the pair `key=value` -/
def pair (p : Text × Text) : Text := p.1 ++ 61 :: p.2

/-- `strings.Join(ss, ",")` -/
def join : List Text → Text
  | [] => []
  | [s] => s
  | s :: ss => s ++ 44 :: join ss

/-- `labels.Set.String` if the range over the map goes through `ps` -/
def stringOf (ps : List (Text × Text)) : Text := join ((ps.map pair).mergeSort textLe)

/-- `labels.Set.String` -/
def setString (s : LabelSet) : Text := stringOf s.entries

/-- bytes as a string of the model -/
def toStr (t : Text) : String := String.ofList (t.map fun b => Char.ofNat b.toNat)

instance : Labels LabelSet := ⟨fun s => toStr (setString s)⟩

/-! ### Lemmas -/

theorem toStr_inj {a b : Text} (h : toStr a = toStr b) : a = b := by
  have h1 := congrArg String.toList h
  simp only [toStr, String.toList_ofList] at h1
  refine List.map_injective_iff.2 ?_ h1
  intro x y hxy
  have key : ∀ z : UInt8, (Char.ofNat z.toNat).toNat = z.toNat := by
    intro z
    have hz : z.toNat < 256 := z.toNat_lt
    have hv : z.toNat.isValidChar := Or.inl (by omega)
    rw [Char.ofNat, dif_pos hv]
    rfl
  have := congrArg Char.toNat hxy
  rw [key, key] at this
  exact UInt8.toNat_inj.1 this

theorem textLe_trans (a b c : Text) (h1 : textLe a b = true) (h2 : textLe b c = true) : textLe a c = true := by
  unfold textLe at *; rw [decide_eq_true_iff] at *; exact List.le_trans h1 h2

theorem textLe_total (a b : Text) : (textLe a b || textLe b a) = true := by
  unfold textLe; rw [Bool.or_eq_true, decide_eq_true_iff, decide_eq_true_iff]; exact List.le_total a b

/-- the order of the range over the map does not matter -/
theorem stringOf_perm {ps qs : List (Text × Text)} (h : ps.Perm qs) : stringOf ps = stringOf qs := by
  unfold stringOf
  congr 1
  have hp : ((ps.map pair).mergeSort textLe).Perm ((qs.map pair).mergeSort textLe) :=
    (List.mergeSort_perm _ _).trans ((h.map pair).trans (List.mergeSort_perm _ _).symm)
  refine hp.eq_of_pairwise (le := fun a b => a ≤ b) (fun a b _ _ h1 h2 => List.le_antisymm h1 h2) ?_ ?_
  · exact (List.pairwise_mergeSort textLe_trans textLe_total _).imp fun h => by simpa [textLe] using h
  · exact (List.pairwise_mergeSort textLe_trans textLe_total _).imp fun h => by simpa [textLe] using h

/-- cut at the first occurrence -/
theorem cut {c : UInt8} : ∀ {a b x y : Text}, c ∉ a → c ∉ b → a ++ c :: x = b ++ c :: y → a = b ∧ x = y
  | [], [], _, _, _, _, h => by simpa using h
  | [], b :: bs, _, _, _, hb, h => by
    simp only [List.nil_append, List.cons_append, List.cons.injEq] at h
    exact absurd (by simp [h.1]) hb
  | a :: as, [], _, _, ha, _, h => by
    simp only [List.nil_append, List.cons_append, List.cons.injEq] at h
    exact absurd (by simp [h.1]) ha
  | a :: as, b :: bs, x, y, ha, hb, h => by
    simp only [List.cons_append, List.cons.injEq] at h
    obtain ⟨h1, h2⟩ := cut (fun hc => ha (by simp [hc])) (fun hc => hb (by simp [hc])) h.2
    exact ⟨by rw [h.1, h1], h2⟩

theorem join_inj : ∀ {ss tt : List Text}, (∀ s ∈ ss, s ≠ [] ∧ (44 : UInt8) ∉ s) → (∀ s ∈ tt, s ≠ [] ∧ (44 : UInt8) ∉ s) →
    join ss = join tt → ss = tt
  | [], [], _, _, _ => rfl
  | [], [t], _, ht, h => absurd (show t = [] from h.symm) (ht t (by simp)).1
  | [], t :: t' :: tt, _, _, h => by simp [join] at h
  | [s], [], hs, _, h => absurd (show s = [] from h) (hs s (by simp)).1
  | s :: s' :: ss, [], _, _, h => by simp [join] at h
  | [s], [t], _, _, h => by simpa [join] using h
  | [s], t :: t' :: tt, hs, _, h => by
    have h' : s = t ++ 44 :: join (t' :: tt) := h
    exact absurd (by rw [h']; simp) (hs s (by simp)).2
  | s :: s' :: ss, [t], _, ht, h => by
    have h' : s ++ 44 :: join (s' :: ss) = t := h
    exact absurd (by rw [← h']; simp) (ht t (by simp)).2
  | s :: s' :: ss, t :: t' :: tt, hs, ht, h => by
    have h' : s ++ 44 :: join (s' :: ss) = t ++ 44 :: join (t' :: tt) := h
    obtain ⟨h1, h2⟩ := cut (hs s (by simp)).2 (ht t (by simp)).2 h'
    have := join_inj (fun x hx => hs x (by simp at hx ⊢; simp [hx])) (fun x hx => ht x (by simp at hx ⊢; simp [hx])) h2
    rw [h1, this]

theorem get_of_mem {s : LabelSet} {k v : Text} (h : (k, v) ∈ s.entries) : s.get? k = some v := by
  unfold GoMap.get?
  have hs : (s.entries.find? (fun p => p.1 = k)).isSome := List.find?_isSome.2 ⟨(k, v), h, by simp⟩
  obtain ⟨⟨k', v'⟩, hp⟩ := Option.isSome_iff_exists.1 hs
  rw [hp]
  have hk : k' = k := by simpa using List.find?_some hp
  subst hk
  have hm := List.mem_of_find?_eq_some hp
  have := List.inj_on_of_nodup_map s.nodup hm h rfl
  cases this
  rfl

theorem mem_of_get {s : LabelSet} {k v : Text} (h : s.get? k = some v) : (k, v) ∈ s.entries := by
  unfold GoMap.get? at h
  rw [Option.map_eq_some_iff] at h
  obtain ⟨⟨k', v'⟩, hp, rfl⟩ := h
  have hk : k' = k := by simpa using List.find?_some hp
  subst hk
  exact List.mem_of_find?_eq_some hp

/-! ### C98 -/

/-- no key and no value has a comma, no key has an equals sign -/
def Plain (s : LabelSet) : Prop := ∀ k v, s.get? k = some v → (44 : UInt8) ∉ k ∧ (61 : UInt8) ∉ k ∧ (44 : UInt8) ∉ v

theorem pair_ok {s : LabelSet} (hs : Plain s) : ∀ t ∈ (s.entries.map pair).mergeSort textLe, t ≠ [] ∧ (44 : UInt8) ∉ t := by
  intro t ht
  rw [List.mem_mergeSort, List.mem_map] at ht
  obtain ⟨⟨k, v⟩, hm, rfl⟩ := ht
  have := hs k v (get_of_mem hm)
  refine ⟨by simp [pair], ?_⟩
  simp only [pair, List.mem_append, List.mem_cons, not_or]
  exact ⟨this.1, by decide, this.2.2⟩

theorem half {s t : LabelSet} (hs : Plain s) (ht : Plain t) (h : (s.entries.map pair).Perm (t.entries.map pair)) (k v : Text)
    (hk : s.get? k = some v) : t.get? k = some v := by
  have h1 : pair (k, v) ∈ t.entries.map pair := h.subset (List.mem_map.2 ⟨(k, v), mem_of_get hk, rfl⟩)
  rw [List.mem_map] at h1
  obtain ⟨⟨k', v'⟩, hm, he⟩ := h1
  have hk' := get_of_mem hm
  obtain ⟨rfl, rfl⟩ := cut (ht k' v' hk').2.1 (hs k v hk).2.1 he
  exact hk'

/-- plain label sets with the same `String` have the same labels -/
theorem setString_inj {s t : LabelSet} (hs : Plain s) (ht : Plain t) (h : setString s = setString t) (k : Text) :
    s.get? k = t.get? k := by
  have h1 := join_inj (pair_ok hs) (pair_ok ht) h
  have h2 : (s.entries.map pair).Perm (t.entries.map pair) :=
    (List.mergeSort_perm _ textLe).symm.trans (h1 ▸ List.mergeSort_perm _ textLe)
  exact Option.ext fun v => ⟨half hs ht h2 k v, half ht hs h2.symm k v⟩

theorem setString_congr {s t : LabelSet} (h : ∀ k, s.get? k = t.get? k) : setString s = setString t := by
  apply stringOf_perm
  rw [List.perm_ext_iff_of_nodup s.nodup.of_map t.nodup.of_map]
  rintro ⟨k, v⟩
  constructor
  · intro hm; exact mem_of_get ((h k) ▸ get_of_mem hm)
  · intro hm; exact mem_of_get ((h k).symm ▸ get_of_mem hm)

/-- **C98, partial** `Equal` of two entries holds exactly if they have the same id, the same length and the same labels, if
no key and no value of the labels has a comma and no key an equals sign. Missing: other labels (violated below). -/
theorem C98_equal_partial {P : Pkg} (e₁ e₂ : Entry P LabelSet) (h₁ : Plain e₁.labels) (h₂ : Plain e₂.labels) :
    e₁.equal e₂ = true ↔
      e₁.id.id = e₂.id.id ∧ e₁.id.len = e₂.id.len ∧ ∀ k, e₁.labels.get? k = e₂.labels.get? k := by
  unfold Entry.equal
  simp only [Bool.and_eq_true, beq_iff_eq, and_assoc]
  refine and_congr_right fun _ => and_congr_right fun _ => ⟨fun h => setString_inj h₁ h₂ (toStr_inj h), fun h => ?_⟩
  exact congrArg toStr (setString_congr h)

/-- the labels `ks` -/
def mk : List (Text × Text) → LabelSet := fun ps => ps.foldl (fun s p => s.set p.1 p.2) GoMap.empty

/-- **C98, violated** Two entries of the same id with the labels `a: "b,c=d"`, and `a: "b", c: "d"`, are `Equal`. -/
theorem C98_equal_violated {P : Pkg} (id : MyId P) :
    (⟨id, mk [([97], [98, 44, 99, 61, 100])]⟩ : Entry P LabelSet).equal ⟨id, mk [([97], [98]), ([99], [100])]⟩ = true ∧
    (mk [([97], [98, 44, 99, 61, 100])]).get? [97] ≠ (mk [([97], [98]), ([99], [100])]).get? [97] := by
  have h : setString (mk [([97], [98, 44, 99, 61, 100])]) = setString (mk [([97], [98]), ([99], [100])]) := by
    show join (([[97, 61, 98, 44, 99, 61, 100]] : List Text).mergeSort textLe) = join (([[97, 61, 98], [99, 61, 100]] : List Text).mergeSort textLe)
    rw [List.mergeSort_of_pairwise (by decide), List.mergeSort_of_pairwise (by decide)]
    rfl
  refine ⟨?_, by decide⟩
  unfold Entry.equal
  simp only [beq_self_eq_true, Bool.true_and]
  exact beq_iff_eq.2 (congrArg toStr h)

example : Plain (mk [([97], [98]), ([99], [100])]) := by
  intro k v h
  have := mem_of_get h
  have e : (mk [([97], [98]), ([99], [100])]).entries = [([97], [98]), ([99], [100])] := rfl
  rw [e] at this
  simp only [List.mem_cons, Prod.mk.injEq, List.not_mem_nil, or_false] at this
  rcases this with ⟨rfl, rfl⟩ | ⟨rfl, rfl⟩ <;> decide

end Verif.GTree
