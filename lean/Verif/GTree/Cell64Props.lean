import Verif.GTree.FreeProps
import Verif.Tree.Cell64

/-!
Property C92: tree64. All entries of a tree64 share one cell, and this describes exactly what its calls do.
-/

namespace Verif.GTree
open Verif.Id
open Verif.Tree (Tree Out newTree Cell Sh bitsId)
variable {L : Type} [Labels L]

/-! ### Specification -/

/-- what a tree64 really is: the prefixes that are claimed, in order, and one entry for all of them (`none`: nil) -/
structure Shared (L : Type) where
  keys : List (List Bool)
  cell : Option (Entry id64 L)

/-- the keys `ks'` are those for which `p` holds, in order -/
def Are (ks' : List (List Bool)) (p : List Bool → Prop) : Prop := ks'.Pairwise (· < ·) ∧ ∀ q, q ∈ ks' ↔ p q

/-- `Get`: it looks at the entry once for each key -/
def Shared.get (st : Shared L) (id : MyId id64) : Out (Option (Entry id64 L)) :=
  match st.keys, st.cell with
  | [], _ => .ok none
  | _ :: _, none => .panic "nil dereference"
  | _ :: _, some e => .ok (if e.id = id then some e else none)

/-- `GetByLabel`: likewise -/
def Shared.byLabel (st : Shared L) (sel : L → Bool) : Out (List (Entry id64 L)) :=
  match st.keys, st.cell with
  | [], _ => .ok []
  | _ :: _, none => .panic "nil dereference"
  | k :: ks, some e => .ok (if sel e.labels then List.replicate (k :: ks).length e else [])

/-- `Children` and `Parents`: the entry, once for each key, if `p` holds for it -/
def Shared.over (st : Shared L) (p : Entry id64 L → Prop) [DecidablePred p] : Out (List (Entry id64 L)) :=
  match st.keys, st.cell with
  | [], _ => .ok []
  | _ :: _, none => .panic "nil dereference"
  | k :: ks, some e => .ok (if p e then List.replicate (k :: ks).length e else [])

/-- what a call does: the result (`none`: a panic) and the state after it -/
def Shared.Does (length : Nat) (st : Shared L) : Op id64 L → Option (Result id64 L) → Shared L → Prop
  | .claim id l, r, st' | .update id l, r, st' =>
    if id.id.toNat < 2 ^ length then
      r = some .done ∧ Are st'.keys (fun q => q = pre id ∨ q ∈ st.keys) ∧ st'.cell = some ⟨id, l⟩
    else r = some .err ∧ st' = st
  | .claimRange s l, r, st' =>
    ((¬ ∃ x : Rng id64, parseRange s = some x) ∧ r = some .err ∧ st' = st) ∨
    ∃ (x : Rng id64) (ids : List (MyId id64)) (last : MyId id64), parseRange s = some x ∧ x.ids = some (ids ++ [last]) ∧
      r = some .done ∧ Are st'.keys (fun q => (∃ i ∈ ids ++ [last], q = pre i) ∨ q ∈ st.keys) ∧ st'.cell = some ⟨last, l⟩
  | .release id, r, st' =>
    if id.id.toNat < 2 ^ length then
      match st.get id with
      | .ok none => r = some .done ∧ st' = st
      | .ok (some _) => r = some .done ∧ Are st'.keys (fun q => q ≠ pre id ∧ q ∈ st.keys) ∧ st'.cell = none
      | _ => r = none ∧ st' = st
    else r = some .err ∧ st' = st
  | .releaseByLabel sel, r, st' =>
    match st.keys, st.cell with
    | [], _ => r = some .done ∧ st' = st
    | _ :: _, none => r = none ∧ st' = st
    | _ :: _, some e =>
      if sel e.labels then r = some .done ∧ Are st'.keys (fun q => q ≠ pre e.id ∧ q ∈ st.keys) ∧ st'.cell = none
      else r = some .done ∧ st' = st
  | .claimFree _, r, st' => (r = some .err ∨ r = none) ∧ st' = st

/-- the tree64 `g` of the given length was reached by a history of calls, and is really `st` -/
inductive Reach64 (length : Nat) : GTree tree64 L → Shared L → Prop
  | new {g} : new tree64 L length = some g → Reach64 length g ⟨[], none⟩
  | step {g st o r g' st'} : Reach64 length g st → o.Fits → g.exec o = .ok (r, g') → st.Does length o (some r) st' →
      Reach64 length g' st'

/-! ### Proof -/

/-- the invariant -/
structure CInv (length : Nat) (g : GTree tree64 L) (st : Shared L) : Prop where
  tree : ∃ s, Cell g.tree s st.keys st.cell
  size : g.size = ((1 : BitVec tree64.P.W) <<< length) - 1
  le : length ≤ 64
  wf : ∀ e, st.cell = some e → pre e.id ∈ st.keys ∧ e.id.len ≤ 64

theorem pre_bits (id : MyId id64) (h : id.len ≤ 64) : pre id = bitsId id := Verif.Tree.pfx_id id h

theorem are_unique {ks ks' : List (List Bool)} {p : List Bool → Prop} (h : Are ks p) (h' : Are ks' p) : ks = ks' := by
  obtain ⟨h1, h2⟩ := h
  obtain ⟨h3, h4⟩ := h'
  have hm : ∀ q, q ∈ ks ↔ q ∈ ks' := fun q => (h2 q).trans (h4 q).symm
  clear h2 h4
  induction ks generalizing ks' with
  | nil =>
    cases ks' with
    | nil => rfl
    | cons b ks' => exact absurd ((hm b).2 (by simp)) (by simp)
  | cons a ks ih =>
    cases ks' with
    | nil => exact absurd ((hm a).1 (by simp)) (by simp)
    | cons b ks' =>
      rw [List.pairwise_cons] at h1 h3
      have hab : a = b := by
        rcases List.mem_cons.1 ((hm a).1 (by simp)) with h | h
        · exact h
        · rcases List.mem_cons.1 ((hm b).2 (by simp)) with h' | h'
          · exact h'.symm
          · have h5 := h3.1 a h
            have h6 := h1.1 b h'
            exact absurd (List.lt_trans h5 h6) (List.lt_irrefl _)
      subst hab
      congr 1
      apply ih h1.2 h3.2
      intro q
      have := hm q
      simp only [List.mem_cons] at this
      constructor
      · intro hq
        rcases this.1 (.inr hq) with h | h
        · subst h; exact absurd (h1.1 q hq) (List.lt_irrefl _)
        · exact h
      · intro hq
        rcases this.2 (.inr hq) with h | h
        · subst h; exact absurd (h3.1 q hq) (List.lt_irrefl _)
        · exact h

theorem set64 {length : Nat} {g : GTree tree64 L} {st : Shared L} (h : CInv length g st) (id : MyId id64)
    (hid : id.len ≤ 64) (l : L) :
    ∃ g' st', g.set id ⟨id, l⟩ = .ok g' ∧ CInv length g' st' ∧ Are st'.keys (fun q => q = pre id ∨ q ∈ st.keys) ∧
      st'.cell = some ⟨id, l⟩ := by
  obtain ⟨s, hs⟩ := h.tree
  obtain ⟨bb, n, t', s', ks', h1, h2, h3⟩ := Verif.Tree.cell_set hs id hid (some (⟨id, l⟩ : Entry id64 L))
  rw [← pre_bits id hid] at h3
  refine ⟨{ g with tree := t' }, ⟨ks', some ⟨id, l⟩⟩, ?_, ⟨⟨s', h2⟩, h.size, h.le, ?_⟩, ⟨h2.sorted, h3⟩, rfl⟩
  · unfold GTree.set
    erw [h1]; rfl
  · intro e he
    cases he
    exact ⟨(h3 _).2 (.inl rfl), hid⟩

omit [Labels L] in
theorem entries64 {length : Nat} {g : GTree tree64 L} {st : Shared L} (h : CInv length g st) :
    g.entries = .ok (List.replicate st.keys.length st.cell) := by
  obtain ⟨s, hs⟩ := h.tree
  obtain ⟨xs, h1, h2⟩ := Verif.Tree.cell_visit hs
  unfold GTree.entries
  rw [h2, ← h1]
  show firsts _ = _
  clear h1 h2
  induction xs with
  | nil => rfl
  | cons x xs ih =>
    show (firsts (xs.map _) >>= _) = _
    rw [ih]
    rfl

omit [Labels L] in
theorem getLoop_none (id : MyId id64) (n : Nat) :
    getLoop id (List.replicate (n + 1) (none : Option (Entry id64 L))) = .panic "nil dereference" := rfl

omit [Labels L] in
theorem getLoop_some (id : MyId id64) (e : Entry id64 L) : ∀ n,
    getLoop id (List.replicate (n + 1) (some e)) = .ok (if e.id = id then some e else none)
  | 0 => by
    show (if e.id = id then _ else _) = _
    split <;> rfl
  | n + 1 => by
    have ih := getLoop_some id e n
    show (if e.id = id then (pure (some e) : Out _) else getLoop id (List.replicate (n + 1) (some e))) = _
    rw [ih]
    split <;> rfl

omit [Labels L] in
theorem get64 {length : Nat} {g : GTree tree64 L} {st : Shared L} (h : CInv length g st) (id : MyId id64) :
    g.get id = st.get id := by
  unfold GTree.get
  rw [entries64 h]
  show getLoop id _ = _
  unfold Shared.get
  cases hk : st.keys with
  | nil => rfl
  | cons k ks =>
    rw [List.length_cons]
    cases hc : st.cell with
    | none => exact getLoop_none id _
    | some e => exact getLoop_some id e _

omit [Labels L] in
theorem labelLoop_some {P : Pkg} (sel : L → Bool) (e : Entry P L) : ∀ n,
    labelLoop sel (List.replicate n (some e)) = .ok (if sel e.labels then List.replicate n e else [])
  | 0 => by simp [labelLoop]
  | n + 1 => by
    have ih := labelLoop_some sel e n
    show (labelLoop sel (List.replicate n (some e)) >>= _) = _
    rw [ih]
    show Out.ok _ = _
    split <;> rfl

omit [Labels L] in
theorem label64 {length : Nat} {g : GTree tree64 L} {st : Shared L} (h : CInv length g st) (sel : L → Bool) :
    g.getByLabel sel = st.byLabel sel := by
  unfold GTree.getByLabel
  rw [entries64 h]
  show labelLoop sel _ = _
  unfold Shared.byLabel
  cases hk : st.keys with
  | nil => rfl
  | cons k ks =>
    cases hc : st.cell with
    | none => rfl
    | some e => exact labelLoop_some sel e _

theorem equal_self (e : Entry id64 L) : e.equal e = true := by
  simp [Entry.equal]

/-- the comparison in `del` -/
def same {P : Pkg} (e1 e2 : Option (Entry P L)) : Bool := match e1, e2 with
  | some e1, some e2 => e1.equal e2
  | _, _ => false

theorem del_eq {I : Impl} (g : GTree I L) (id : MyId I.P) (e : Entry I.P L) :
    g.del id e = g.tree.delete id same (some e) >>= fun x => (pure { g with tree := x.2 } : Out _) := by
  unfold GTree.del
  congr 1
  congr 1
  funext e1 e2
  cases e1 <;> cases e2 <;> rfl

/-- release of the entry in the cell -/
theorem del64 {length : Nat} {g : GTree tree64 L} {st : Shared L} (h : CInv length g st) {e : Entry id64 L}
    (he : st.cell = some e) :
    ∃ g' st', g.del e.id e = .ok g' ∧ CInv length g' st' ∧ Are st'.keys (fun q => q ≠ pre e.id ∧ q ∈ st.keys) ∧
      st'.cell = none := by
  obtain ⟨s, hs⟩ := h.tree
  obtain ⟨w1, w2⟩ := h.wf e he
  rw [he] at hs
  obtain ⟨t', s', ks', h1, h2, h3⟩ := Verif.Tree.cell_delete_some hs e.id w2 same (some e) (by rw [← pre_bits _ w2]; exact w1) (equal_self e)
  rw [← pre_bits _ w2] at h3
  refine ⟨{ g with tree := t' }, ⟨ks', none⟩, ?_, ⟨⟨s', h2⟩, h.size, h.le, ?_⟩, ⟨h2.sorted, h3⟩, rfl⟩
  · refine (del_eq g e.id e).trans ?_
    erw [h1]; rfl
  · intro e he; cases he

/-- and of a prefix that is not claimed -/
theorem del64_none {length : Nat} {g : GTree tree64 L} {st : Shared L} (h : CInv length g st) {e : Entry id64 L}
    (hl : e.id.len ≤ 64) (he : pre e.id ∉ st.keys) : g.del e.id e = .ok g := by
  obtain ⟨s, hs⟩ := h.tree
  have := Verif.Tree.cell_delete_none hs e.id hl same (some e) (by rw [← pre_bits _ hl]; exact he)
  refine (del_eq g e.id e).trans ?_
  erw [this]; rfl

theorem delAll64_none {length : Nat} {g : GTree tree64 L} {st : Shared L} (h : CInv length g st) {e : Entry id64 L}
    (hl : e.id.len ≤ 64) (he : pre e.id ∉ st.keys) : ∀ n, g.delAll (List.replicate n e) = .ok g
  | 0 => rfl
  | n + 1 => by
    show (g.del e.id e >>= fun g => g.delAll (List.replicate n e)) = _
    rw [del64_none h hl he]
    exact delAll64_none h hl he n

theorem ids64 (r : Rng id64) : ∃ ids, r.ids = some ids ∧ ∀ i ∈ ids, i.len ≤ 64 := by
  have hs : ∀ l, l ≤ 64 → ∃ m, id64.mask6[l]? = some m := by
    intro l hl
    rcases Nat.eq_zero_or_pos l with rfl | h
    · exact ⟨_, rfl⟩
    · exact ⟨_, mask64_at h hl⟩
  obtain ⟨ids, h1, h2⟩ := appendRangeIDs_total (P := id64) hs (fun l => mask64_at) (64 + 1) [] r.lo.id r.hi.id (by
    show 64 < _
    omega)
  exact ⟨ids, h1, h2⟩

theorem setAll64 {length : Nat} (l : L) : ∀ (ids : List (MyId id64)) {g : GTree tree64 L} {st : Shared L},
    CInv length g st → (∀ i ∈ ids, i.len ≤ 64) →
    ∃ g' st', g.setAll l ids = .ok g' ∧ CInv length g' st' ∧ Are st'.keys (fun q => (∃ i ∈ ids, q = pre i) ∨ q ∈ st.keys) ∧
      (∀ is last, ids = is ++ [last] → st'.cell = some ⟨last, l⟩) ∧ (ids = [] → st'.cell = st.cell)
  | [], g, st, h, _ => by
    obtain ⟨s, hs⟩ := h.tree
    exact ⟨g, st, rfl, h, ⟨hs.sorted, by simp⟩, by simp, fun _ => rfl⟩
  | i :: ids, g, st, h, hl => by
    obtain ⟨g1, st1, a1, a2, a3, a4⟩ := set64 h i (hl i (by simp)) l
    obtain ⟨g2, st2, b1, b2, b3, b4⟩ := setAll64 l ids a2 (fun j hj => hl j (by simp [hj]))
    refine ⟨g2, st2, ?_, b2, ⟨b3.1, fun q => ?_⟩, ?_, by simp⟩
    · show (g.set i ⟨i, l⟩ >>= _) = _
      rw [a1]
      exact b1
    · refine (b3.2 q).trans ?_
      show (_ ∨ q ∈ st1.keys) ↔ (_ ∨ q ∈ st.keys)
      rw [show q ∈ st1.keys ↔ _ from a3.2 q]
      simp only [List.mem_cons]
      constructor
      · rintro (⟨j, hj, rfl⟩ | rfl | hq)
        · exact .inl ⟨j, .inr hj, rfl⟩
        · exact .inl ⟨i, .inl rfl, rfl⟩
        · exact .inr hq
      · rintro (⟨j, rfl | hj, rfl⟩ | hq)
        · exact .inr (.inl rfl)
        · exact .inl ⟨j, hj, rfl⟩
        · exact .inr (.inr hq)
    · intro is last he
      cases is with
      | nil =>
        cases he
        rw [b4.2 rfl]
        exact a4
      | cons j is =>
        cases he
        exact b4.1 is last rfl

/-- `RemoveFreePrefix` of a tree64 never returns a prefix -/
theorem removeFreePrefix64 (s : IDSet id64) : ∀ x, s.removeFreePrefix 64 ≠ .ok (some x) := by
  intro x
  unfold IDSet.removeFreePrefix
  split
  · simp
  · simp
  · split
    · rename_i best _ _ b _
      have : b.removeId (⟨best.id, 64⟩ : MyId id64) = .panicNil := by
        unfold Builder.removeId
        rw [rangeOfID64_long (show 32 < 64 by decide)]
      simp only [this]
      simp
    · simp
    · simp
    · simp

theorem appendRangeIDs_ne {P : Pkg} : ∀ (fuel : Nat) (dst : List (MyId P)) (a b : BitVec P.W) (l : List (MyId P)),
    appendRangeIDs fuel dst a b = some l → l ≠ []
  | 0, _, _, _, _, h => by simp [appendRangeIDs] at h
  | fuel + 1, dst, a, b, l, h => by
    rw [appendRangeIDs] at h
    split at h
    · cases h
    · cases h; simp
    · split at h
      · split at h
        · cases h
        · exact appendRangeIDs_ne fuel _ _ _ _ h
      · cases h

theorem list_last {α : Type} {l : List α} (h : l ≠ []) : ∃ is last, l = is ++ [last] :=
  ⟨l.dropLast, l.getLast h, (List.dropLast_concat_getLast h).symm⟩

/-- every call other than `ClaimFree` -/
theorem exec64 {length : Nat} {g : GTree tree64 L} {st : Shared L} (h : CInv length g st) {o : Op id64 L} (hf : o.Fits)
    (ho : ∀ l, o ≠ .claimFree l) :
    (∃ r g' st', g.exec o = .ok (r, g') ∧ st.Does length o (some r) st' ∧ CInv length g' st') ∨
    (g.exec o = .panic "nil dereference" ∧ st.Does length o none st) := by
  have hclaim : ∀ (id : MyId id64) (l : L), id.len ≤ 64 → ∃ r g' st', g.claimID id l = .ok (r, g') ∧ CInv length g' st' ∧
      if id.id.toNat < 2 ^ length then
        r = .ok () ∧ Are st'.keys (fun q => q = pre id ∨ q ∈ st.keys) ∧ st'.cell = some ⟨id, l⟩
      else r = .err ∧ st' = st := by
    intro id l hid
    unfold GTree.claimID
    have hv := valid_size h.size h.le (by decide) id
    by_cases hlt : id.id.toNat < 2 ^ length
    · obtain ⟨g', st', a1, a2, a3, a4⟩ := set64 h id hid l
      rw [hv.2 hlt]
      refine ⟨.ok (), g', st', ?_, a2, ?_⟩
      · show (g.set id ⟨id, l⟩ >>= _) = _
        rw [a1]; rfl
      · rw [if_pos hlt]
        exact ⟨rfl, a3, a4⟩
    · have hv : g.valid id = false := by
        cases hx : g.valid id with
        | false => rfl
        | true => exact absurd (hv.1 hx) hlt
      rw [hv]
      exact ⟨.err, g, st, rfl, h, by rw [if_neg hlt]; exact ⟨rfl, rfl⟩⟩
  cases o with
  | claimFree l => exact absurd rfl (ho l)
  | claim id l =>
    obtain ⟨r, g', st', a1, a2, a3⟩ := hclaim id l hf
    refine .inl ⟨r.result, g', st', ?_, ?_, a2⟩
    · show (g.claimID id l >>= _) = _
      rw [a1]; rfl
    · show if _ then _ else _
      split
      · rename_i hlt
        rw [if_pos hlt] at a3
        exact ⟨by rw [a3.1]; rfl, a3.2⟩
      · rename_i hlt
        rw [if_neg hlt] at a3
        exact ⟨by rw [a3.1]; rfl, a3.2⟩
  | update id l =>
    obtain ⟨r, g', st', a1, a2, a3⟩ := hclaim id l hf
    refine .inl ⟨r.result, g', st', ?_, ?_, a2⟩
    · show (g.claimID id l >>= _) = _
      rw [a1]; rfl
    · show if _ then _ else _
      split
      · rename_i hlt
        rw [if_pos hlt] at a3
        exact ⟨by rw [a3.1]; rfl, a3.2⟩
      · rename_i hlt
        rw [if_neg hlt] at a3
        exact ⟨by rw [a3.1]; rfl, a3.2⟩
  | claimRange s l =>
    left
    cases hp : (parseRange s : Option (Rng id64)) with
    | none =>
      have h1 : g.claimRange s l = .ok (.err, g) := by
        unfold GTree.claimRange
        have hp' : (parseRange s : Option (Rng tree64.P)) = none := hp
        rw [hp']
      refine ⟨.err, g, st, ?_, .inl ⟨by simp [hp], rfl, rfl⟩, h⟩
      show (g.claimRange s l >>= _) = _
      rw [h1]; rfl
    | some x =>
      obtain ⟨ids, hi, hl⟩ := ids64 x
      obtain ⟨is, last, rfl⟩ := list_last (appendRangeIDs_ne _ _ _ _ _ hi)
      obtain ⟨g', st', a1, a2, a3, a4, _⟩ := setAll64 l _ h hl
      have h1 : g.claimRange s l = .ok (.ok (), g') := by
        unfold GTree.claimRange
        have hp' : (parseRange s : Option (Rng tree64.P)) = some x := hp
        have hi' : Rng.ids (P := tree64.P) x = some (is ++ [last]) := hi
        rw [hp']
        simp only [hi']
        rw [a1]; rfl
      refine ⟨.done, g', st', ?_, .inr ⟨x, is, last, hp, hi, rfl, a3, a4 _ _ rfl⟩, a2⟩
      show (g.claimRange s l >>= _) = _
      rw [h1]; rfl
  | release id =>
    show (∃ r g' st', (g.releaseID id >>= fun x => (pure (x.1.result, x.2) : Out _)) = _ ∧ _) ∨
      ((g.releaseID id >>= fun x => (pure (x.1.result, x.2) : Out _)) = _ ∧ _)
    unfold GTree.releaseID
    have hv := valid_size h.size h.le (by decide) id
    by_cases hlt : id.id.toNat < 2 ^ length
    · rw [hv.2 hlt]
      have hg := get64 h id
      simp only [Shared.Does, if_pos hlt]
      cases hs : st.get id with
      | ok e =>
        rw [hs] at hg
        left
        cases e with
        | none =>
          refine ⟨.done, g, st, ?_, ⟨rfl, rfl⟩, h⟩
          show ((g.get id >>= _) >>= _) = _
          rw [hg]; rfl
        | some e =>
          have hc : st.cell = some e ∧ e.id = id := by
            unfold Shared.get at hs
            split at hs
            · cases hs
            · cases hs
            · rename_i e' hk hc
              have hs := Out.ok.inj hs
              split at hs
              · rename_i he
                cases hs
                exact ⟨hc, he⟩
              · cases hs
          obtain ⟨g', st', a1, a2, a3, a4⟩ := del64 h hc.1
          rw [hc.2] at a1 a3
          refine ⟨.done, g', st', ?_, ⟨rfl, a3, a4⟩, a2⟩
          show ((g.get id >>= _) >>= _) = _
          rw [hg]
          show ((g.del id e >>= _) >>= _) = _
          rw [a1]; rfl
      | panic m =>
        have hm : m = "nil dereference" := by
          unfold Shared.get at hs
          split at hs
          · cases hs
          · cases hs; rfl
          · cases hs
        subst hm
        rw [hs] at hg
        right
        refine ⟨?_, by simp⟩
        show ((g.get id >>= _) >>= _) = _
        rw [hg]; rfl
      | realloc =>
        unfold Shared.get at hs
        split at hs <;> cases hs
      | diverge =>
        unfold Shared.get at hs
        split at hs <;> cases hs
    · have hv : g.valid id = false := by
        cases hx : g.valid id with
        | false => rfl
        | true => exact absurd (hv.1 hx) hlt
      rw [hv]
      left
      refine ⟨.err, g, st, rfl, ?_, h⟩
      show if _ then _ else _
      rw [if_neg hlt]
      exact ⟨rfl, rfl⟩
  | releaseByLabel sel =>
    show (∃ r g' st', (g.releaseByLabel sel >>= fun x => (pure (Result.done, x) : Out (Result tree64.P L × GTree tree64 L))) = _ ∧ _) ∨
      ((g.releaseByLabel sel >>= fun x => (pure (Result.done, x) : Out (Result tree64.P L × GTree tree64 L))) = _ ∧ _)
    unfold GTree.releaseByLabel
    rw [label64 h]
    simp only [Shared.Does, Shared.byLabel]
    cases hk : st.keys with
    | nil => exact .inl ⟨.done, g, st, rfl, ⟨rfl, rfl⟩, h⟩
    | cons k ks =>
      cases hc : st.cell with
      | none => exact .inr ⟨rfl, by simp⟩
      | some e =>
        left
        by_cases hse : sel e.labels = true
        · obtain ⟨g', st', a1, a2, a3, a4⟩ := del64 h hc
          rw [hk] at a3
          have hl := (h.wf e hc).2
          have hn : pre e.id ∉ st'.keys := fun hx => ((a3.2 _).1 hx).1 rfl
          refine ⟨.done, g', st', ?_, ?_, a2⟩
          · simp only [if_pos hse]
            show ((g.del e.id e >>= fun g => g.delAll (List.replicate ks.length e)) >>= _) = _
            rw [a1]
            show (g'.delAll (List.replicate ks.length e) >>= _) = _
            rw [delAll64_none a2 hl hn]
            rfl
          · show if _ then _ else _
            rw [if_pos hse]
            exact ⟨rfl, a3, a4⟩
        · refine ⟨.done, g, st, ?_, ?_, h⟩
          · simp only [if_neg hse]
            rfl
          · show if _ then _ else _
            rw [if_neg hse]
            exact ⟨rfl, rfl⟩

theorem findFree64 (g : GTree tree64 L) : ∀ x, g.findFree ≠ .ok (.ok x) := by
    intro x hx
    unfold GTree.findFree at hx
    simp only at hx
    cases h1 : (Builder.empty : Builder tree64.P).addId ⟨0, tree64.rootLen g.length⟩ with
    | ok b =>
      rw [h1] at hx
      simp only [ofRes, Verif.Tree.Out.bind_ok] at hx
      cases h2 : g.children ⟨0, tree64.rootLen g.length⟩ with
      | ok ch =>
        rw [h2] at hx
        simp only [Verif.Tree.Out.bind_ok] at hx
        cases h3 : removeAll ch b with
        | ok b' =>
          rw [h3] at hx
          simp only [Verif.Tree.Out.bind_ok] at hx
          cases h4 : b'.ipSet with
          | ok y =>
            obtain ⟨y1, y2, y3⟩ := y
            rw [h4] at hx
            simp only [Verif.Tree.Out.bind_ok] at hx
            cases y3 with
            | true => cases hx
            | false =>
              have h6 := removeFreePrefix64 y2
              cases h5 : IDSet.removeFreePrefix (P := tree64.P) y2 tree64.P.W with
              | ok z =>
                rw [h5] at hx
                cases z with
                | none => cases hx
                | some z => exact h6 z h5
              | _ => rw [h5] at hx; cases hx
          | _ => rw [h4] at hx; cases hx
        | _ => rw [h3] at hx; cases hx
      | _ => rw [h2] at hx; cases hx
    | _ => rw [h1] at hx; cases hx

theorem claimFree64 (g : GTree tree64 L) (l : L) : ∀ r g', g.exec (.claimFree l) = .ok (r, g') → r = .err ∧ g' = g := by
  intro r g' h
  unfold GTree.exec GTree.claimFree at h
  simp only at h
  cases hf : g.findFree with
  | ok z =>
    rw [hf] at h
    cases z with
    | ok x => exact absurd hf (findFree64 g x)
    | err => cases h; exact ⟨rfl, rfl⟩
  | _ => rw [hf] at h; cases h

/-- the call returns or panics -/
def Ends {α : Type} (o : Out α) : Prop := (∃ a, o = .ok a) ∨ ∃ m, o = .panic m

theorem Ends.bind {α β : Type} {o : Out α} {f : α → Out β} (h : Ends o) (hf : ∀ a, Ends (f a)) : Ends (o >>= f) := by
  rcases h with ⟨a, rfl⟩ | ⟨m, rfl⟩
  · exact hf a
  · exact .inr ⟨m, rfl⟩

theorem Ends.ok {α : Type} (a : α) : Ends (.ok a : Out α) := .inl ⟨a, rfl⟩

theorem ends_ofRes {α : Type} (r : Res α) : Ends (ofRes r) := by
  cases r <;> first | exact .inl ⟨_, rfl⟩ | exact .inr ⟨_, rfl⟩

omit [Labels L] in
theorem ends_overlapLoop {P : Pkg} (id : MyId P) (c : Nat → Bool) : ∀ es : List (Option (Entry P L)), Ends (overlapLoop id c es)
  | [] => .ok _
  | none :: es => .inr ⟨_, rfl⟩
  | some e :: es => by
    show Ends (match e.id.overlaps id with
      | none => .panic "index out of range"
      | some o => do
        let rest ← overlapLoop id c es
        return if o && c e.id.len then e :: rest else rest)
    split
    · exact .inr ⟨_, rfl⟩
    · exact (ends_overlapLoop id c es).bind (fun _ => .ok _)

omit [Labels L] in
theorem ends_removeAll {P : Pkg} : ∀ (es : List (Entry P L)) (b : Builder P), Ends (removeAll es b)
  | [], _ => .ok _
  | _ :: es, _ => (ends_ofRes _).bind (fun b => ends_removeAll es b)

theorem claimFree64_ends {length : Nat} {g : GTree tree64 L} {st : Shared L} (h : CInv length g st) (l : L) :
    Ends (g.exec (.claimFree l)) := by
  have hch : ∀ id, Ends (g.children id) := by
    intro id
    unfold GTree.children
    rw [entries64 h]
    exact ends_overlapLoop _ _ _
  have hff : Ends g.findFree := by
    unfold GTree.findFree
    refine (ends_ofRes _).bind fun b => (hch _).bind fun ch => (ends_removeAll ch b).bind fun b => (ends_ofRes _).bind ?_
    rintro ⟨_, set, err⟩
    show Ends (if err then _ else _)
    split
    · exact .ok _
    · refine (ends_ofRes _).bind fun x => ?_
      cases x with
      | none => exact .ok _
      | some x => exact .ok _
  rcases hff with ⟨x, hx⟩ | ⟨m, hm⟩
  · cases x with
    | err =>
      refine .inl ⟨(.err, g), ?_⟩
      unfold GTree.exec GTree.claimFree
      simp only [hx]
      rfl
    | ok x => exact absurd hx (findFree64 g x)
  · refine .inr ⟨m, ?_⟩
    unfold GTree.exec GTree.claimFree
    simp only [hm]
    rfl

/-! ### The state is determined by the calls -/

theorem does_unique {length : Nat} {st st1 st2 : Shared L} {o : Op id64 L} {r : Option (Result id64 L)}
    (h1 : st.Does length o r st1) (h2 : st.Does length o r st2) : st1 = st2 := by
  have eq : ∀ {a b : Shared L} {p : List Bool → Prop} {c : Option (Entry id64 L)}, Are a.keys p → a.cell = c → Are b.keys p →
      b.cell = c → a = b := by
    rintro ⟨ka, ca⟩ ⟨kb, cb⟩ p c h1 h2 h3 h4
    have h5 : ka = kb := are_unique h1 h3
    have h2 : ca = c := h2
    have h4 : cb = c := h4
    rw [h5, h2, h4]
  cases o with
  | claimFree l => rw [h1.2, h2.2]
  | claim id l =>
    have h1 : if _ then _ else _ := h1
    have h2 : if _ then _ else _ := h2
    split at h1
    · rename_i hlt
      rw [if_pos hlt] at h2
      exact eq h1.2.1 h1.2.2 h2.2.1 h2.2.2
    · rename_i hlt
      rw [if_neg hlt] at h2
      rw [h1.2, h2.2]
  | update id l =>
    have h1 : if _ then _ else _ := h1
    have h2 : if _ then _ else _ := h2
    split at h1
    · rename_i hlt
      rw [if_pos hlt] at h2
      exact eq h1.2.1 h1.2.2 h2.2.1 h2.2.2
    · rename_i hlt
      rw [if_neg hlt] at h2
      rw [h1.2, h2.2]
  | claimRange s l =>
    rcases h1 with ⟨a1, a2, a3⟩ | ⟨x, ids, last, a1, a2, a3, a4, a5⟩ <;>
      rcases h2 with ⟨b1, b2, b3⟩ | ⟨x', ids', last', b1, b2, b3, b4, b5⟩
    · rw [a3, b3]
    · exact absurd ⟨x', b1⟩ a1
    · exact absurd ⟨x, a1⟩ b1
    · have hx : x = x' := Option.some.inj (a1.symm.trans b1)
      subst hx
      have hi := Option.some.inj (a2.symm.trans b2)
      obtain ⟨hi1, hi2⟩ := List.append_inj' hi rfl
      cases hi2
      subst hi1
      exact eq a4 a5 b4 b5
  | release id =>
    simp only [Shared.Does] at h1 h2
    split at h1
    · rename_i hlt
      rw [if_pos hlt] at h2
      cases hs : st.get id with
      | ok e =>
        rw [hs] at h1 h2
        cases e with
        | none => rw [h1.2, h2.2]
        | some e => exact eq h1.2.1 h1.2.2 h2.2.1 h2.2.2
      | _ => rw [hs] at h1 h2; rw [h1.2, h2.2]
    · rename_i hlt
      rw [if_neg hlt] at h2
      rw [h1.2, h2.2]
  | releaseByLabel sel =>
    simp only [Shared.Does] at h1 h2
    cases hk : st.keys with
    | nil => simp only [hk] at h1 h2; rw [h1.2, h2.2]
    | cons k ks =>
      cases hc : st.cell with
      | none => simp only [hk, hc] at h1 h2; rw [h1.2, h2.2]
      | some e =>
        simp only [hk, hc] at h1 h2
        split at h1
        · rename_i hse
          rw [if_pos hse] at h2
          exact eq h1.2.1 h1.2.2 h2.2.1 h2.2.2
        · rename_i hse
          rw [if_neg hse] at h2
          rw [h1.2, h2.2]

theorem does_fun {length : Nat} {st st1 st2 : Shared L} {o : Op id64 L} {r r' : Option (Result id64 L)}
    (ho : ∀ l, o ≠ .claimFree l) (h1 : st.Does length o r st1) (h2 : st.Does length o r' st2) : r = r' := by
  cases o with
  | claimFree l => exact absurd rfl (ho l)
  | claim id l =>
    have h1 : if _ then _ else _ := h1
    have h2 : if _ then _ else _ := h2
    split at h1
    · rename_i hlt
      rw [if_pos hlt] at h2
      rw [h1.1, h2.1]
    · rename_i hlt
      rw [if_neg hlt] at h2
      rw [h1.1, h2.1]
  | update id l =>
    have h1 : if _ then _ else _ := h1
    have h2 : if _ then _ else _ := h2
    split at h1
    · rename_i hlt
      rw [if_pos hlt] at h2
      rw [h1.1, h2.1]
    · rename_i hlt
      rw [if_neg hlt] at h2
      rw [h1.1, h2.1]
  | claimRange s l =>
    rcases h1 with ⟨a1, a2, a3⟩ | ⟨x, ids, last, a1, a2, a3, a4, a5⟩ <;>
      rcases h2 with ⟨b1, b2, b3⟩ | ⟨x', ids', last', b1, b2, b3, b4, b5⟩
    · rw [a2, b2]
    · exact absurd ⟨x', b1⟩ a1
    · exact absurd ⟨x, a1⟩ b1
    · rw [a3, b3]
  | release id =>
    simp only [Shared.Does] at h1 h2
    split at h1
    · rename_i hlt
      rw [if_pos hlt] at h2
      cases hs : st.get id with
      | ok e =>
        rw [hs] at h1 h2
        cases e with
        | none => rw [h1.1, h2.1]
        | some e => rw [h1.1, h2.1]
      | _ => rw [hs] at h1 h2; rw [h1.1, h2.1]
    · rename_i hlt
      rw [if_neg hlt] at h2
      rw [h1.1, h2.1]
  | releaseByLabel sel =>
    simp only [Shared.Does] at h1 h2
    cases hk : st.keys with
    | nil => simp only [hk] at h1 h2; rw [h1.1, h2.1]
    | cons k ks =>
      cases hc : st.cell with
      | none => simp only [hk, hc] at h1 h2; rw [h1.1, h2.1]
      | some e =>
        simp only [hk, hc] at h1 h2
        split at h1
        · rename_i hse
          rw [if_pos hse] at h2
          rw [h1.1, h2.1]
        · rename_i hse
          rw [if_neg hse] at h2
          rw [h1.1, h2.1]

theorem Reach64.inv {length : Nat} {g : GTree tree64 L} {st : Shared L} (h : Reach64 length g st) : CInv length g st := by
  induction h with
  | new h =>
    rw [show @Verif.GTree.new tree64 L length = _ from rfl, Verif.GTree.new] at h
    split at h
    · cases h
    · rename_i hle
      cases h
      exact ⟨⟨_, Verif.Tree.cell_new⟩, rfl, Nat.le_of_not_lt hle, by simp⟩
  | @step g st o r g' st' _ hf he hd ih =>
    by_cases ho : ∃ l, o = .claimFree l
    · obtain ⟨l, rfl⟩ := ho
      rw [hd.2, (claimFree64 g l r g' he).2]
      exact ih
    · rcases exec64 ih hf (fun l hl => ho ⟨l, hl⟩) with ⟨r2, g2, st2, a1, a2, a3⟩ | ⟨a1, _⟩
      · have heq : (.ok (r, g') : Out _) = .ok (r2, g2) := he.symm.trans a1
        cases heq
        rw [does_unique hd a2]
        exact a3
      · have heq : (.ok (r, g') : Out _) = .panic _ := he.symm.trans a1
        cases heq

/-! ### C92 -/

/-- C92 (partial): exactly what a tree64 does, after every history of calls: it is a set of prefixes with one entry that all of
them share. Missing: this is not what the entries of a tree should be; the next theorems show what is lost. -/
theorem C92_exact_partial {length : Nat} {g : GTree tree64 L} {st : Shared L} (h : Reach64 length g st) :
    (∀ o : Op id64 L, o.Fits →
      (∃ r g' st', g.exec o = .ok (r, g') ∧ st.Does length o (some r) st' ∧ Reach64 length g' st') ∨
      (∃ m, g.exec o = .panic m) ∧ st.Does length o none st) ∧
    (∀ id, g.get id = st.get id) ∧
    (∀ sel, g.getByLabel sel = st.byLabel sel) ∧
    g.getAll = .ok (List.replicate st.keys.length st.cell) ∧
    g.count = .ok st.keys.length ∧
    st.keys.Pairwise (· < ·) := by
  have hI := h.inv
  refine ⟨fun o ho => ?_, get64 hI, label64 hI, entries64 hI, ?_, ?_⟩
  · by_cases hc : ∃ l, o = .claimFree l
    · obtain ⟨l, rfl⟩ := hc
      rcases claimFree64_ends hI l with ⟨⟨r, g'⟩, he⟩ | ⟨m, he⟩
      · obtain ⟨rfl, rfl⟩ := claimFree64 g l r g' he
        exact .inl ⟨_, _, st, he, ⟨.inl rfl, rfl⟩, .step h ho he ⟨.inl rfl, rfl⟩⟩
      · exact .inr ⟨⟨m, he⟩, .inr rfl, rfl⟩
    · rcases exec64 hI ho (fun l hl => hc ⟨l, hl⟩) with ⟨r, g', st', a1, a2, a3⟩ | ⟨a1, a2⟩
      · exact .inl ⟨r, g', st', a1, a2, .step h ho a1 a2⟩
      · exact .inr ⟨⟨_, a1⟩, a2⟩
  · obtain ⟨s, hs⟩ := hI.tree
    obtain ⟨xs, h1, h2⟩ := Verif.Tree.cell_visit hs
    unfold GTree.count
    rw [h2, ← h1]
    show Out.ok _ = _
    simp
  · obtain ⟨s, hs⟩ := hI.tree
    exact hs.sorted

theorem over64 {length : Nat} {g : GTree tree64 L} {st : Shared L} (h : CInv length g st) (id : MyId id64) (hid : id.len ≤ 64) :
    g.children id = st.over (fun e => pre id <+: pre e.id ∧ pre id ≠ pre e.id) ∧
    g.parents id = st.over (fun e => (pre e.id <+: pre id ∨ pre id <+: pre e.id) ∧ e.id.len < 64) := by
  have key : ∀ (c : Nat → Bool) (p : Entry id64 L → Prop) [DecidablePred p],
      (∀ e, e.id.len ≤ 64 → ((pre e.id <+: pre id ∨ pre id <+: pre e.id) ∧ c e.id.len = true ↔ p e)) →
      overlapLoop id c (List.replicate st.keys.length st.cell) = st.over p := by
    intro c p _ hp
    unfold Shared.over
    cases hk : st.keys with
    | nil => rfl
    | cons k ks =>
      cases hc : st.cell with
      | none => rfl
      | some e =>
        have hl := (h.wf e hc).2
        obtain ⟨z, hz, hz'⟩ := overlaps_pfx (P := id64) (.inr (.inr rfl)) (a := e.id) (b := id) hl hid
        have := overlapLoop_spec id c (List.replicate (k :: ks).length e) (fun e' he' => by
          rw [List.eq_of_mem_replicate he']
          exact ⟨z, hz⟩)
        rw [List.map_replicate] at this
        refine this.trans ?_
        simp only
        congr 1
        have hb : (e.id.overlaps id == some true && c e.id.len) = true ↔ p e := by
          rw [← hp e hl, ← hz', hz]
          cases z <;> simp
        by_cases hpe : p e
        · rw [if_pos hpe]
          exact List.filter_replicate_of_pos (p := fun e : Entry id64 L => e.id.overlaps id == some true && c e.id.len) (hb.2 hpe)
        · rw [if_neg hpe]
          exact List.filter_replicate_of_neg (p := fun e : Entry id64 L => e.id.overlaps id == some true && c e.id.len)
            (fun h => hpe (hb.1 h))
  constructor
  · unfold GTree.children
    rw [entries64 h]
    refine key _ _ ?_
    intro e _
    rw [decide_eq_true_iff]
    constructor
    · rintro ⟨h1, h2⟩
      have hne : pre id ≠ pre e.id := by
        intro h
        have := congrArg List.length h
        rw [pre_length, pre_length] at this
        omega
      refine ⟨?_, hne⟩
      rcases h1 with h1 | h1
      · have := h1.length_le
        rw [pre_length, pre_length] at this
        omega
      · exact h1
    · rintro ⟨h1, h2⟩
      refine ⟨.inr h1, ?_⟩
      have h3 := h1.length_le
      have h4 : (pre id).length ≠ (pre e.id).length := fun h => h2 (h1.eq_of_length h)
      rw [pre_length, pre_length] at h3 h4
      show id.len < e.id.len
      omega
  · unfold GTree.parents
    rw [entries64 h]
    refine key _ _ ?_
    intro e _
    rw [decide_eq_true_iff]
    exact Iff.rfl

/-- C92 (partial): exactly what `Children` and `Parents` of a tree64 return: the entry that all prefixes share, once for each
prefix, or nothing. Missing: these are not the entries below and above the prefix. -/
theorem C92_overlaps_partial {length : Nat} {g : GTree tree64 L} {st : Shared L} (h : Reach64 length g st) (id : MyId id64)
    (hid : id.len ≤ 64) :
    g.children id = st.over (fun e => pre id <+: pre e.id ∧ pre id ≠ pre e.id) ∧
    g.parents id = st.over (fun e => (pre e.id <+: pre id ∨ pre id <+: pre e.id) ∧ e.id.len < 64) := over64 h.inv id hid

theorem claim64 {length : Nat} {g : GTree tree64 L} {st : Shared L} (h : Reach64 length g st) (id : MyId id64)
    (l : L) (hf : id.len ≤ 64) (hlt : id.id.toNat < 2 ^ length) :
    ∃ g' st', g.exec (.claim id l) = .ok (.done, g') ∧ Reach64 length g' st' ∧
      Are st'.keys (fun q => q = pre id ∨ q ∈ st.keys) ∧ st'.cell = some ⟨id, l⟩ := by
  have key : ∀ r st', st.Does length (.claim id l) r st' → r = some .done ∧
      Are st'.keys (fun q => q = pre id ∨ q ∈ st.keys) ∧ st'.cell = some ⟨id, l⟩ := by
    intro r st' hd
    simp only [Shared.Does, if_pos hlt] at hd
    exact hd
  rcases (C92_exact_partial h).1 (.claim id l) hf with ⟨r, g', st', a1, a2, a3⟩ | ⟨_, a2⟩
  · obtain ⟨b1, b2⟩ := key _ _ a2
    cases b1
    exact ⟨g', st', a1, a3, b2⟩
  · exact absurd (key _ _ a2).1 (by simp)

/-- C92 (violated): in every tree64, a claim of one id makes `Get` of every other id fail -/
theorem C92_claim_violated {length : Nat} {g : GTree tree64 L} {st : Shared L} (h : Reach64 length g st) (id : MyId id64)
    (l : L) (hf : id.len ≤ 64) (hlt : id.id.toNat < 2 ^ length) :
    ∃ g' st', g.exec (.claim id l) = .ok (.done, g') ∧ Reach64 length g' st' ∧ g'.get id = .ok (some ⟨id, l⟩) ∧
      ∀ id', id' ≠ id → g'.get id' = .ok none := by
  obtain ⟨g', st', a1, a3, a4, a5⟩ := claim64 h id l hf hlt
  have hk : pre id ∈ st'.keys := (a4.2 _).2 (.inl rfl)
  have hg : ∀ id' : MyId id64, g'.get id' = .ok (if id = id' then some ⟨id, l⟩ else none) := by
    intro id'
    refine (get64 a3.inv id').trans ?_
    unfold Shared.get
    cases hks : st'.keys with
    | nil => rw [hks] at hk; cases hk
    | cons k ks => simp only [a5]; rfl
  refine ⟨g', st', a1, a3, ?_, ?_⟩
  · refine (hg id).trans ?_
    rw [if_pos rfl]
  · intro id' hne
    refine (hg id').trans ?_
    rw [if_neg (fun h => hne h.symm)]

/-- C92 (violated): a release makes every `Get`, `ReleaseID`, `GetByLabel` and `ReleaseByLabel` panic, if anything else is
claimed -/
theorem C92_release_violated {length : Nat} {g : GTree tree64 L} {st : Shared L} (h : Reach64 length g st) (id : MyId id64)
    (hf : id.len ≤ 64) (hlt : id.id.toNat < 2 ^ length) {e : Entry id64 L} (hget : g.get id = .ok (some e))
    {q : List Bool} (hq : q ∈ st.keys) (hne : q ≠ pre id) :
    ∃ g' st', g.exec (.release id) = .ok (.done, g') ∧ Reach64 length g' st' ∧
      (∀ id' : MyId id64, g'.get id' = .panic "nil dereference") ∧
      (∀ sel, g'.getByLabel sel = .panic "nil dereference") ∧
      (∀ id' : MyId id64, id'.len ≤ 64 → id'.id.toNat < 2 ^ length → ∃ m, g'.exec (.release id') = .panic m) ∧
      (∀ sel, ∃ m, g'.exec (.releaseByLabel sel) = .panic m) := by
  have hs : st.get id = .ok (some e) := (get64 h.inv id).symm.trans hget
  have key : ∀ r st', st.Does length (.release id) r st' → r = some .done ∧
      Are st'.keys (fun q => q ≠ pre id ∧ q ∈ st.keys) ∧ st'.cell = none := by
    intro r st' hd
    simp only [Shared.Does] at hd
    rw [if_pos hlt, hs] at hd
    exact hd
  rcases (C92_exact_partial h).1 (.release id) hf with ⟨r, g', st', a1, a2, a3⟩ | ⟨_, a2⟩
  · obtain ⟨b1, b2, b3⟩ := key _ _ a2
    cases b1
    have hk : q ∈ st'.keys := (b2.2 _).2 ⟨hne, hq⟩
    obtain ⟨k, ks, hks⟩ : ∃ k ks, st'.keys = k :: ks := by
      cases hks : st'.keys with
      | nil => rw [hks] at hk; cases hk
      | cons k ks => exact ⟨k, ks, rfl⟩
    have hg : ∀ id', st'.get id' = .panic "nil dereference" := by
      intro id'
      unfold Shared.get
      simp only [hks, b3]
    refine ⟨g', st', a1, a3, fun id' => (get64 a3.inv id').trans (hg id'), ?_, ?_, ?_⟩
    · intro sel
      refine (label64 a3.inv sel).trans ?_
      unfold Shared.byLabel
      simp only [hks, b3]
      rfl
    · intro id' hf' hlt'
      rcases (C92_exact_partial a3).1 (.release id') hf' with ⟨r, g2, st2, c1, c2, _⟩ | ⟨c1, _⟩
      · simp only [Shared.Does] at c2
        rw [if_pos hlt', hg] at c2
        cases c2.1
      · exact c1
    · intro sel
      rcases (C92_exact_partial a3).1 (.releaseByLabel sel) trivial with ⟨r, g2, st2, c1, c2, _⟩ | ⟨c1, _⟩
      · simp only [Shared.Does, hks, b3] at c2
        cases c2.1
      · exact c1
  · exact absurd (key _ _ a2).1 (by simp)

/-- C92 (violated): `ClaimFree` never returns an id, in any tree64 -/
theorem C92_claimFree_violated {length : Nat} {g : GTree tree64 L} {st : Shared L} (h : Reach64 length g st) (l : L) :
    g.exec (.claimFree l) = .ok (.err, g) ∨ ∃ m, g.exec (.claimFree l) = .panic m := by
  rcases claimFree64_ends h.inv l with ⟨⟨r, g'⟩, he⟩ | hm
  · obtain ⟨rfl, rfl⟩ := claimFree64 g l r g' he
    exact .inl he
  · exact .inr hm

/-- a tree64 of length 8 with 1 and 2 claimed: `Get` of 1 fails, and after the release of 2 every `Get` panics -/
example : ∃ (g g' : GTree tree64 Bool) (st : Shared Bool), Reach64 8 g st ∧ st.keys.length = 2 ∧ g.get ⟨1, 64⟩ = .ok none ∧
    g.get ⟨2, 64⟩ = .ok (some ⟨⟨2, 64⟩, false⟩) ∧
    g.exec (.release ⟨2, 64⟩) = .ok (.done, g') ∧ g'.get ⟨1, 64⟩ = .panic "nil dereference" := by
  obtain ⟨g0, h0⟩ : ∃ g0, new tree64 Bool 8 = some g0 := ⟨_, rfl⟩
  obtain ⟨g1, st1, a1, a2, a3, a4⟩ := claim64 (.new h0) ⟨1, 64⟩ true (by decide) (by decide)
  obtain ⟨g2, st2, b1, b2, b3, b4⟩ := claim64 a2 ⟨2, 64⟩ false (by decide) (by decide)
  have k : st2.keys = [pre (⟨1, 64⟩ : MyId id64), pre (⟨2, 64⟩ : MyId id64)] := by
    refine are_unique b3 ⟨by decide, fun q => ?_⟩
    show _ ↔ (q = _ ∨ q ∈ st1.keys)
    rw [show q ∈ st1.keys ↔ _ from a3.2 q]
    simp only [List.mem_cons, List.not_mem_nil, or_false]
    exact or_comm
  obtain ⟨g3, st3, c1, c2, c3, _⟩ := C92_release_violated b2 ⟨2, 64⟩ (by decide) (by decide)
    (e := ⟨⟨2, 64⟩, false⟩) ((get64 b2.inv _).trans (by
      unfold Shared.get
      simp only [k, b4]
      rfl)) (q := pre (⟨1, 64⟩ : MyId id64)) (by rw [k]; simp) (by decide)
  refine ⟨g2, g3, st2, b2, by rw [k]; rfl, (get64 b2.inv _).trans (by
      unfold Shared.get
      simp only [k, b4]
      rfl), (get64 b2.inv _).trans (by
      unfold Shared.get
      simp only [k, b4]
      rfl), c1, c3 _⟩

end Verif.GTree
