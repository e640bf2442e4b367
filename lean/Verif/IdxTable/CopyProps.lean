import Verif.IdxTable.HistProps

/-! C128, C129, C130 for the index table: what it lists is enough to build it again.
Emptying it makes it as good as new, and an update is a release and a claim. -/

namespace Verif.IdxTable
variable {α : Type}

/-! ### Lemmas -/

theorem get_ok_iff {t : Table α} (h : Inv t) {i : U64} {e : Entry α} : get t i = .ok e ↔ t.m.get? i = some e := by
  constructor
  · intro hg
    unfold get at hg
    split at hg
    · cases hg
    · cases hm : t.m.get? i with
      | none => rw [hm] at hg; cases hg
      | some e' => rw [hm] at hg; cases hg; rfl
  · intro hm; exact get_some (h.2 i e hm).2 hm

theorem getAllOrd_lists {size : U64} {t : Table α} (h : Reachable size t) {order : List U64} (ho : order.Perm t.m.keys) :
    ∃ es : List (Entry α), getAllOrd t order = es.map some ∧ (es.map Entry.id).Nodup ∧ ∀ e, e ∈ es ↔ get t e.id = .ok e := by
  obtain ⟨hi, rfl⟩ := h.inv
  have hn : order.Nodup := ho.nodup_iff.2 t.m.keys_nodup
  have hlen : order.length < 2 ^ 64 := by rw [ho.length_eq]; exact hi.keys_length_lt
  have key : ∀ ks : List U64, ks.Nodup → (∀ k ∈ ks, ∃ e, t.m.get? k = some e) →
      ∃ es : List (Entry α), ks.map t.m.get? = es.map some ∧ es.map Entry.id = ks ∧ ∀ e ∈ es, t.m.get? e.id = some e := by
    intro ks
    induction ks with
    | nil => intro _ _; exact ⟨[], rfl, rfl, by simp⟩
    | cons k ks ih =>
      intro hnd hk
      obtain ⟨es, h1, h2, h3⟩ := ih (List.nodup_cons.1 hnd).2 (fun k hk' => hk k (by simp [hk']))
      obtain ⟨e, he⟩ := hk k (by simp)
      have hid : e.id = k := (hi.2 k e he).1
      refine ⟨e :: es, by rw [List.map_cons, List.map_cons, h1, he], by rw [List.map_cons, h2, hid], ?_⟩
      intro x hx
      rcases List.mem_cons.1 hx with rfl | hx
      · rw [hid]; exact he
      · exact h3 x hx
  have hmem : ∀ k, k ∈ sortKeys t.m.keys ↔ ∃ e, t.m.get? k = some e := by
    intro k
    rw [(sortKeys_perm _).mem_iff, ← GoMap.get?_isSome_iff, Option.isSome_iff_exists]
  obtain ⟨es, h1, h2, h3⟩ := key (sortKeys t.m.keys) ((sortKeys_perm _).nodup_iff.2 t.m.keys_nodup) (fun k hk => (hmem k).1 hk)
  refine ⟨es, ?_, ?_, fun e => ?_⟩
  · rw [getAllOrd_eq t order hlen, sortKeys_perm_eq ho hn]; exact h1
  · rw [h2]; exact (sortKeys_perm _).nodup_iff.2 t.m.keys_nodup
  · rw [get_ok_iff hi]
    refine ⟨h3 e, fun he => ?_⟩
    have : e.id ∈ es.map Entry.id := by rw [h2, hmem]; exact ⟨e, he⟩
    obtain ⟨x, hx, hxe⟩ := List.mem_map.1 this
    have := h3 x hx
    rw [hxe, he] at this
    rw [Option.some.inj this]; exact hx

/-- claims of free ids, each once -/
theorem claims_run {size : U64} : ∀ (l : List (Entry α)) {t : Table α}, Reachable size t →
    (∀ e ∈ l, e.id < size ∧ has t e.id = false) → (l.map Entry.id).Nodup →
    (run t (l.map fun e => .claim e.id e.data)).2 = l.map (fun _ => .ok) ∧
    Reachable size (run t (l.map fun e => .claim e.id e.data)).1 ∧
    (∀ e ∈ l, get (run t (l.map fun e => .claim e.id e.data)).1 e.id = .ok e) ∧
    ∀ i, (∀ e ∈ l, e.id ≠ i) → get (run t (l.map fun e => .claim e.id e.data)).1 i = get t i := by
  intro l
  induction l with
  | nil => intro t h _ _; exact ⟨rfl, h, by simp, fun _ _ => rfl⟩
  | cons e l ih =>
    intro t h hl hn
    obtain ⟨c1, c2, _⟩ := C01_claim_exclusive h e.id e.data
    have hok := c1.2 (hl e (by simp))
    obtain ⟨c3, c4, c5⟩ := c2 hok
    have hn' := List.nodup_cons.1 (by simpa only [List.map_cons] using hn)
    have hne : ∀ x ∈ l, x.id ≠ e.id := fun x hx he => hn'.1 (he ▸ List.mem_map.2 ⟨x, hx, rfl⟩)
    obtain ⟨i1, i2, i3, i4⟩ := ih (h.step (.claim e.id e.data))
      (fun x hx => ⟨(hl x (by simp [hx])).1, (c5 x.id (hne x hx)).2.trans (hl x (by simp [hx])).2⟩) hn'.2
    have hrun : run t ((e :: l).map fun e => .claim e.id e.data) =
        ((run (step t (.claim e.id e.data)).1 (l.map fun e => .claim e.id e.data)).1,
         (step t (.claim e.id e.data)).2 :: (run (step t (.claim e.id e.data)).1 (l.map fun e => .claim e.id e.data)).2) := rfl
    rw [hrun]
    refine ⟨?_, i2, ?_, ?_⟩
    · rw [i1, List.map_cons]
      show replyUnit (claim t e.id e.data).2 :: _ = _
      rw [hok]; rfl
    · intro x hx
      rcases List.mem_cons.1 hx with rfl | hx
      · rw [i4 x.id hne]; exact c3
      · exact i3 x hx
    · intro i hi
      rw [i4 i (fun x hx => hi x (by simp [hx]))]
      exact (c5 i (fun he => hi e (by simp) he.symm)).1

/-! ### C128 -/

/-- **C128** (index table) Claiming, in a new table of the same capacity, what `GetAll` lists, in any order, succeeds
every time, and no sequence of calls tells the new table from the old one. -/
theorem C128_index {size : U64} {t : Table α} (h : Reachable size t) {order : List U64} (ho : order.Perm t.m.keys) :
    ∃ es : List (Entry α), getAllOrd t order = es.map some ∧ ∀ l, List.Perm l es →
      (run (newTable size) (l.map fun e => .claim e.id e.data)).2 = l.map (fun _ => .ok) ∧
      Alike t (run (newTable size) (l.map fun e => .claim e.id e.data)).1 := by
  obtain ⟨es, h1, h2, h3⟩ := getAllOrd_lists h ho
  refine ⟨es, h1, fun l hl => ?_⟩
  have hi := h.inv
  have hnew : Reachable size (newTable size : Table α) := ⟨h.1, [], rfl⟩
  obtain ⟨r1, _, r3, r4⟩ := claims_run l hnew (fun e he => ⟨by
      have := (h3 e).1 (hl.mem_iff.1 he)
      rw [get_ok_iff hi.1] at this
      rw [← hi.2]; exact (hi.1.2 _ _ this).2, rfl⟩) ((hl.map _).nodup_iff.2 h2)
  refine ⟨r1, ?_⟩
  obtain ⟨_, cs, rfl⟩ := h
  refine C96_index size cs _ fun i => ?_
  have hg : get (run (newTable size) cs).1 i = get (run (newTable size) (l.map fun e => .claim e.id e.data)).1 i := by
    by_cases he : ∃ e ∈ l, e.id = i
    · obtain ⟨e, he, rfl⟩ := he
      rw [r3 e he]
      exact (h3 e).1 (hl.mem_iff.1 he)
    · have hno : ∀ e ∈ l, e.id ≠ i := fun e h1 h2 => he ⟨e, h1, h2⟩
      rw [r4 i hno]
      have hnone : (run (newTable size) cs).1.m.get? i = none := by
        cases hm : (run (newTable size) cs).1.m.get? i with
        | none => rfl
        | some e =>
          have hid : e.id = i := (hi.1.2 _ _ hm).1
          exact absurd hid (hno e (hl.mem_iff.2 ((h3 e).2 (by rw [get_ok_iff hi.1, hid]; exact hm))))
      exact (get_congr (hi.2.trans rfl) (hnone.trans rfl)).1
  show replyEntry _ = replyEntry _
  rw [hg]

example : Reachable 8 exTable ∧ ([5, 1] : List U64).Perm exTable.m.keys := ⟨exTable_reachable, by decide⟩

/-! ### C129 -/

theorem releases_run {size : U64} : ∀ (l : List U64) {t : Table α}, Reachable size t →
    Reachable size (run t (l.map .release)).1 ∧ (∀ i ∈ l, has (run t (l.map .release)).1 i = false) ∧
    ∀ i, has t i = false → has (run t (l.map .release)).1 i = false := by
  intro l
  induction l with
  | nil => intro t h; exact ⟨h, by simp, fun _ h => h⟩
  | cons k l ih =>
    intro t h
    obtain ⟨c1, c2⟩ := C03_release h k
    obtain ⟨i1, i2, i3⟩ := ih (h.step (.release k))
    have hk : has (step t (.release k)).1 k = false := by
      by_cases hlt : k < size
      · exact (c1 hlt).2.1
      · have e : (step t (.release k)).1 = t := (c2 hlt).2
        rw [e, has_eq_false]
        cases hm : t.m.get? k with
        | none => rfl
        | some e => exact absurd (h.inv.2 ▸ (h.inv.1.2 k e hm).2) hlt
    refine ⟨i1, ?_, fun i hi => i3 i ?_⟩
    · intro i hi
      rcases List.mem_cons.1 hi with rfl | hi
      · exact i3 i hk
      · exact i2 i hi
    · by_cases hik : i = k
      · rw [hik]; exact hk
      · by_cases hlt : k < size
        · exact ((c1 hlt).2.2.2.1 i hik).2.trans hi
        · have e : (step t (.release k)).1 = t := (c2 hlt).2
          rw [e]; exact hi

/-- **C129** (index table) Once all ids claimed are released, in any order and whatever else is released, no sequence of
calls tells the table from a new one. -/
theorem C129_index {size : U64} {t : Table α} (h : Reachable size t) {l : List U64} (hl : ∀ i, has t i = true → i ∈ l) :
    Alike (newTable size) (run t (l.map .release)).1 := by
  obtain ⟨r1, r2, r3⟩ := releases_run l h
  have hno : ∀ i, (run t (l.map .release)).1.m.get? i = none := by
    intro i
    rw [← has_eq_false]
    cases ht : has t i with
    | true => exact r2 i (hl i ht)
    | false => exact r3 i ht
  exact Same.alike ⟨r1.inv.2.symm, fun i => (hno i).symm⟩

example : ∀ i, has exTable i = true → i ∈ ([5, 3, 1] : List U64) := by
  intro i hi
  rw [has_eq_true] at hi
  obtain ⟨e, he⟩ := hi
  have : i ∈ exTable.m.keys := by rw [← GoMap.get?_isSome_iff, he]; rfl
  have hk : exTable.m.keys = [1, 5] := by decide
  rw [hk] at this
  simp only [List.mem_cons, List.not_mem_nil, or_false] at this
  rcases this with rfl | rfl <;> simp

/-! ### C130 -/

theorem step_update {t : Table α} (h : Inv t) {i : U64} (hi : has t i = true) (d : α) :
    step t (.update i d) = ({ t with m := t.m.set i ⟨i, d⟩ }, .ok) := by
  rw [has_eq_true] at hi
  obtain ⟨e, he⟩ := hi
  simp [step, update, updateE, validate_of_lt t i (h.2 i e he).2, isFreeB, he, replyUnit]

theorem step_release_claim {t : Table α} (h : Inv t) {i : U64} (hi : has t i = true) (d : α) :
    run t [.release i, .claim i d] = ({ t with m := (t.m.del i).set i ⟨i, d⟩ }, [.ok, .ok]) := by
  rw [has_eq_true] at hi
  obtain ⟨e, he⟩ := hi
  have hlt := (h.2 i e he).2
  have h1 : validate t i = .ok () := validate_of_lt t i hlt
  have h2 : validate (⟨t.size, t.m.del i⟩ : Table α) i = .ok () := validate_of_lt _ i hlt
  simp [run, step, release, delete, claim, add, h1, h2, isFreeB, GoMap.get?_del, replyUnit]

/-- **C130** (index table) `Update` of a claimed id does what `Release` and `Claim` do, and undoes what earlier updates did:
the calls succeed, and no later calls tell the tables apart. -/
theorem C130_index {size : U64} {t : Table α} (h : Reachable size t) {i : U64} (hi : has t i = true) (d d' : α) :
    (run t [.update i d]).2 = [.ok] ∧ (run t [.release i, .claim i d]).2 = [.ok, .ok] ∧
    (run t [.update i d', .update i d]).2 = [.ok, .ok] ∧
    Alike (run t [.update i d]).1 (run t [.release i, .claim i d]).1 ∧
    Alike (run t [.update i d]).1 (run t [.update i d', .update i d]).1 := by
  have u := step_update h.inv.1 hi d
  have u' := step_update h.inv.1 hi d'
  have hi' : has (step t (.update i d')).1 i = true := by rw [u', has_eq_true]; exact ⟨_, by rw [GoMap.get?_set, if_pos rfl]⟩
  have u2 := step_update (h.step (.update i d')).inv.1 hi' d
  have e1 : run t [.update i d] = ({ t with m := t.m.set i ⟨i, d⟩ }, [.ok]) := by simp only [run, u]
  have e2 := step_release_claim h.inv.1 hi d
  have e3 : run t [.update i d', .update i d] = ({ t with m := (t.m.set i ⟨i, d'⟩).set i ⟨i, d⟩ }, [.ok, .ok]) := by
    simp only [u'] at u2
    simp only [run, u', u2]
  rw [e1, e2, e3]
  refine ⟨rfl, rfl, rfl, Same.alike ⟨rfl, fun k => ?_⟩, Same.alike ⟨rfl, fun k => ?_⟩⟩
  · simp only [GoMap.get?_set, GoMap.get?_del]; split <;> rfl
  · simp only [GoMap.get?_set]; split <;> rfl

example : has exTable 5 = true := by decide

end Verif.IdxTable
