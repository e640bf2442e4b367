import Verif.Tree.Props

/-! The value map holds the stored values and nothing else (C69), and ids that are too long (C68). -/

namespace Verif.Tree
open Verif.Id
variable {T : Type} [Inhabited T] {P : Pkg}

theorem keys_delLoop {key k' : BitVec 64} : ∀ {n i : Nat} {vals : GoMap (BitVec 64) T},
    k' ∈ (delLoop key n i vals).keys ↔ k' ∈ vals.keys ∧ ∀ j, i ≤ j → j < i + n → k' ≠ key + BitVec.ofNat 64 j := by
  intro n
  induction n with
  | zero => intro i vals; simp only [delLoop]; exact ⟨fun h => ⟨h, fun j h1 h2 => by omega⟩, fun h => h.1⟩
  | succ n ih =>
    intro i vals
    rw [delLoop, ih, GoMap.mem_keys_del]
    constructor
    · rintro ⟨⟨h1, h2⟩, h3⟩
      refine ⟨h2, ?_⟩
      intro j hj1 hj2
      by_cases hj : j = i
      · rw [hj]; exact h1
      · exact h3 j (by omega) (by omega)
    · rintro ⟨h1, h2⟩
      exact ⟨⟨h2 i (by omega) (by omega), h1⟩, fun j hj1 hj2 => h2 j (by omega) (by omega)⟩

theorem keys_valStep {vals : GoMap (BitVec 64) T} {key k' : BitVec 64} {c : Nat} (val : T)
    (m : Option (T → T → Bool)) (u : Option (T → T)) (h : ∀ j < c, key + BitVec.ofNat 64 j ∈ vals.keys) :
    k' ∈ (valStep vals key c val m u).2.keys ↔
      k' ∈ vals.keys ∨ ∃ j, c ≤ j ∧ j < c + (valStep vals key c val m u).1.toNat ∧ k' = key + BitVec.ofNat 64 j := by
  have happ : k' ∈ (vals.set (key + BitVec.ofNat 64 c) val).keys ↔
      k' ∈ vals.keys ∨ ∃ j, c ≤ j ∧ j < c + true.toNat ∧ k' = key + BitVec.ofNat 64 j := by
    rw [GoMap.mem_keys_set]
    constructor
    · rintro (h | h)
      · exact .inr ⟨c, Nat.le_refl _, by simp, h⟩
      · exact .inl h
    · rintro (h | ⟨j, h1, h2, h3⟩)
      · exact .inr h
      · simp at h2
        have : j = c := by omega
        subst this
        exact .inl h3
  have hno : k' ∈ vals.keys ↔ k' ∈ vals.keys ∨ ∃ j, c ≤ j ∧ j < c + false.toNat ∧ k' = key + BitVec.ofNat 64 j := by
    constructor
    · exact .inl
    · rintro (h | ⟨j, h1, h2, _⟩)
      · exact h
      · simp at h2; omega
  cases m with
  | none => exact happ
  | some m =>
    unfold valStep
    have hfm := findMatch_eq vals key m val c 0
    simp only
    cases hf : findMatch vals key m val c 0 with
    | none => exact happ
    | some y =>
      cases u with
      | none => exact hno
      | some u =>
        have hy : y < c := by
          rw [hf] at hfm
          cases hfi : ((List.range' 0 c).map (fun j => getV vals (key + BitVec.ofNat 64 j))).findIdx? (fun x => m x val) with
          | none => rw [hfi] at hfm; cases hfm
          | some z =>
            rw [hfi] at hfm
            cases hfm
            obtain ⟨hz, _⟩ := List.findIdx?_eq_some_iff_getElem.1 hfi
            simpa using hz
        refine Iff.trans ?_ hno
        simp only
        rw [GoMap.mem_keys_set]
        constructor
        · rintro (h' | h')
          · rw [h']; exact h y hy
          · exact h'
        · exact .inr

theorem keys_putBackV {key k' : BitVec 64} {m : T → T → Bool} {v : T} : ∀ {buf : List T}
    {vals : GoMap (BitVec 64) T} {c d k : Nat}, (∀ j < c, key + BitVec.ofNat 64 j ∈ vals.keys) →
    c ≤ (putBackV key m v buf vals c d k).2.1 ∧
    (k' ∈ (putBackV key m v buf vals c d k).1.keys ↔
      k' ∈ vals.keys ∨ ∃ j, c ≤ j ∧ j < (putBackV key m v buf vals c d k).2.1 ∧ k' = key + BitVec.ofNat 64 j) := by
  intro buf
  induction buf with
  | nil =>
    intro vals c d k _
    simp only [putBackV]
    refine ⟨Nat.le_refl _, .inl, ?_⟩
    rintro (h | ⟨j, h1, h2, _⟩)
    · exact h
    · omega
  | cons tag buf ih =>
    intro vals c d k h
    unfold putBackV
    by_cases hm : m tag v
    · simp only [hm, if_true]
      exact ih h
    · simp only [hm, Bool.false_eq_true, if_false]
      have hk := fun k' => keys_valStep (k' := k') tag (some m) none h
      generalize valStep vals key c tag (some m) none = r at *
      have h' : ∀ j < c + r.1.toNat, key + BitVec.ofNat 64 j ∈ r.2.keys := by
        intro j hj
        rw [hk]
        by_cases hj' : j < c
        · exact .inl (h j hj')
        · exact .inr ⟨j, by omega, hj, rfl⟩
      obtain ⟨i1, i2⟩ := ih (d := d) (k := k + 1) h'
      refine ⟨by omega, ?_⟩
      rw [i2, hk]
      constructor
      · rintro ((h | ⟨j, h1, h2, h3⟩) | ⟨j, h1, h2, h3⟩)
        · exact .inl h
        · exact .inr ⟨j, h1, by omega, h3⟩
        · exact .inr ⟨j, by omega, h2, h3⟩
      · rintro (h | ⟨j, h1, h2, h3⟩)
        · exact .inl (.inl h)
        · by_cases hj : j < c + r.1.toNat
          · exact .inl (.inr ⟨j, h1, hj, h3⟩)
          · exact .inr ⟨j, by omega, h2, h3⟩

theorem keys_delVals {vals : GoMap (BitVec 64) T} {key k' : BitVec 64} {c : Nat} {v : T} {m : T → T → Bool} :
    k' ∈ (delVals vals key c v m).1.keys ↔
      (k' ∈ vals.keys ∧ ∀ j < c, k' ≠ key + BitVec.ofNat 64 j) ∨
      ∃ j, j < (delVals vals key c v m).2.1 ∧ k' = key + BitVec.ofNat 64 j := by
  obtain ⟨_, h⟩ := keys_putBackV (key := key) (k' := k') (m := m) (v := v) (buf := valsAt vals key c)
    (vals := delLoop key c 0 vals) (c := 0) (d := 0) (k := 0) (fun j hj => by omega)
  have e : putBackV key m v (valsAt vals key c) (delLoop key c 0 vals) 0 0 0 = delVals vals key c v m := rfl
  rw [e] at h
  rw [h, keys_delLoop]
  constructor
  · rintro (⟨h1, h2⟩ | ⟨j, _, h2, h3⟩)
    · exact .inl ⟨h1, fun j hj => h2 j (by omega) (by omega)⟩
    · exact .inr ⟨j, h2, h3⟩
  · rintro (⟨h1, h2⟩ | ⟨j, h2, h3⟩)
    · exact .inl ⟨h1, fun j _ hj => h2 j (by omega)⟩
    · exact .inr ⟨j, by omega, h2, h3⟩

theorem keys_moveLoop {fk tk k' : BitVec 64} : ∀ {n i : Nat} {vals : GoMap (BitVec 64) T},
    (∀ j j', j < i + n → j' < i + n → tk + BitVec.ofNat 64 j ≠ fk + BitVec.ofNat 64 j') →
    (k' ∈ (moveLoop fk tk n i vals).keys ↔
      (k' ∈ vals.keys ∧ ∀ j, i ≤ j → j < i + n → k' ≠ fk + BitVec.ofNat 64 j) ∨
      ∃ j, i ≤ j ∧ j < i + n ∧ k' = tk + BitVec.ofNat 64 j) := by
  intro n
  induction n with
  | zero =>
    intro i vals _
    simp only [moveLoop]
    constructor
    · intro h; exact .inl ⟨h, fun j h1 h2 => by omega⟩
    · rintro (h | ⟨j, h1, h2, _⟩)
      · exact h.1
      · omega
  | succ n ih =>
    intro i vals hd
    rw [moveLoop, ih (fun j j' h h' => hd j j' (by omega) (by omega)), GoMap.mem_keys_del, GoMap.mem_keys_set]
    constructor
    · rintro (⟨⟨h1, h2⟩, h3⟩ | ⟨j, h1, h2, h3⟩)
      · rcases h2 with h2 | h2
        · exact .inr ⟨i, by omega, by omega, h2⟩
        · refine .inl ⟨h2, ?_⟩
          intro j hj1 hj2
          by_cases hj : j = i
          · rw [hj]; exact h1
          · exact h3 j (by omega) (by omega)
      · exact .inr ⟨j, by omega, by omega, h3⟩
    · rintro (⟨h1, h2⟩ | ⟨j, h1, h2, h3⟩)
      · exact .inl ⟨⟨h2 i (by omega) (by omega), .inr h1⟩, fun j hj1 hj2 => h2 j (by omega) (by omega)⟩
      · by_cases hj : j = i
        · subst hj
          refine .inl ⟨⟨?_, .inl h3⟩, ?_⟩
          · rw [h3]; exact hd j j (by omega) (by omega)
          · intro j' _ _
            rw [h3]; exact hd j j' (by omega) (by omega)
        · exact .inr ⟨j, by omega, by omega, h3⟩

/-- the keys of the value map are those of the stored values -/
def Exact (t : Tree T) (s : Sh) : Prop :=
  ∀ k, k ∈ t.vals.keys ↔ ∃ q x c j, (q, x, c) ∈ s.entries [] ∧ j < c ∧ k = t.key x + BitVec.ofNat 64 j

theorem add_exact (hP : WidthOk P.W) {t : Tree T} {s : Sh} (h : Inv P.W t s) (he : Exact t s) (id : MyId P)
    (hid : id.len ≤ P.W) (val : T) (m : Option (T → T → Bool)) (u : Option (T → T)) :
    ∃ bb c' t' s', t.add id val m u = .ok (bb, c', t') ∧ Inv P.W t' s' ∧ Exact t' s' := by
  obtain ⟨bb, c', t', s', k, c0, used, h1, h2, h3, h4, h5, h6, h7, h8⟩ := add_spec hP h id hid val m u
  have hent := h3.entries h2 (d := P.W) (pre := []) (.inr h.wf)
  simp only [List.nil_append] at hent
  obtain ⟨e1, e2⟩ := hent
  have hv1 : bb = (valStep t.vals (t.key k) c0 val m u).1 := congrArg Prod.fst h5
  have hv2 : t'.vals = (valStep t.vals (t.key k) c0 val m u).2 := congrArg Prod.snd h5
  refine ⟨bb, c', t', s', h1, h4, ?_⟩
  intro key
  have hk := keys_valStep (vals := t.vals) (key := t.key k) (k' := key) (c := c0) val m u (by
    intro j hj
    exact (he _).2 ⟨bitsId id, k, c0, j, (e2 k c0).2 ⟨rfl, rfl, by omega⟩, hj, rfl⟩)
  rw [hv2, hk, ← hv1, he key]
  have hkey : ∀ x, t'.key x = t.key x := fun x => by rw [h4.key, h.key]
  constructor
  · rintro (⟨q, x, c, j, g1, g2, g3⟩ | ⟨j, g1, g2, g3⟩)
    · by_cases hq : q = bitsId id
      · subst hq
        obtain ⟨rfl, rfl, _⟩ := (e2 x c).1 g1
        exact ⟨_, _, c', j, (e1 _ _ _).2 (.inl ⟨rfl, rfl, rfl⟩), by omega, by rw [hkey]; exact g3⟩
      · exact ⟨q, x, c, j, (e1 _ _ _).2 (.inr ⟨hq, g1⟩), g2, by rw [hkey]; exact g3⟩
    · exact ⟨_, _, c', j, (e1 _ _ _).2 (.inl ⟨rfl, rfl, rfl⟩), by omega, by rw [hkey]; exact g3⟩
  · rintro ⟨q, x, c, j, g1, g2, g3⟩
    rw [hkey] at g3
    rcases (e1 q x c).1 g1 with ⟨rfl, rfl, rfl⟩ | ⟨_, g⟩
    · by_cases hj : j < c0
      · exact .inl ⟨_, _, c0, j, (e2 x c0).2 ⟨rfl, rfl, by omega⟩, hj, g3⟩
      · exact .inr ⟨j, by omega, by omega, g3⟩
    · exact .inl ⟨q, x, c, j, g, g2, g3⟩

theorem delete_exact (hP : WidthOk P.W) {t : Tree T} {s : Sh} (h : Inv P.W t s) (he : Exact t s) (id : MyId P)
    (hid : id.len ≤ P.W) (v : T) (m : T → T → Bool) (hs : Small P.W t) :
    ∃ n t' s', t.delete id m v = .ok (n, t') ∧ Inv P.W t' s' ∧ Exact t' s' := by
  have hW := hP.le
  rcases delete_spec hP h id hid v m with ⟨h1, h2⟩ | ⟨k, c0, d, t', s', hk, h1, h2⟩
  · exact ⟨0, t, s, h1, h, he⟩
  · obtain ⟨hinv, hlen, hd, hout⟩ := h2
    refine ⟨d, t', s', h1, hinv, ?_⟩
    have hbound : ∀ q x c, (q, x, c) ∈ s.nodes [] → c ≤ 2 ^ P.W := by
      intro q x c hx
      obtain ⟨n, hn, hc⟩ := h.rep.cnt hx
      rw [← hc]; exact hs.counts q x n (h.at_iff.2 ⟨c, hx⟩) hn
    have hlt : ∀ x ∈ s.idxs, 1 ≤ x ∧ x ≤ 2 ^ (64 - P.W) := fun x hx => h.entry_ok hs.nodes hx
    have hkey : ∀ x, t'.key x = t.key x := fun x => by rw [hinv.key, h.key]
    have hD := fun k' => keys_delVals (vals := t.vals) (key := t.key k) (k' := k') (c := c0) (v := v) (m := m)
    have hsep : ∀ q x c j q' x' c' j', (q, x, c) ∈ s.nodes [] → (q', x', c') ∈ s.nodes [] → x ≠ x' → j < c → j' < c' →
        t.key x + BitVec.ofNat 64 j ≠ t.key x' + BitVec.ofNat 64 j' := by
      intro q x c j q' x' c' j' a1 a2 hne hj hj'
      have b1 := hbound _ _ _ a1
      have b2 := hbound _ _ _ a2
      rw [h.key, h.key]
      exact key_sep hW.2 (hlt x (Sh.mem_nodes_idx a1)) (hlt x' (Sh.mem_nodes_idx a2)) (by omega) (by omega) hne
    have hk1 := (Sh.mem_entries.1 hk).1
    generalize hDe : delVals t.vals (t.key k) c0 v m = D at *
    -- keys before moving
    have hbase : ∀ key, (key ∈ t.vals.keys ∧ ∀ j < c0, key ≠ t.key k + BitVec.ofNat 64 j) ↔
        ∃ q x c j, x ≠ k ∧ (q, x, c) ∈ s.entries [] ∧ j < c ∧ key = t.key x + BitVec.ofNat 64 j := by
      intro key
      constructor
      · rintro ⟨g1, g2⟩
        obtain ⟨q, x, c, j, e1, e2, e3⟩ := (he key).1 g1
        refine ⟨q, x, c, j, ?_, e1, e2, e3⟩
        rintro rfl
        have := (Sh.node_unique h.idxs_nodup (Sh.mem_entries.1 e1).1 hk1).2
        exact g2 j (by omega) e3
      · rintro ⟨q, x, c, j, e0, e1, e2, e3⟩
        refine ⟨(he key).2 ⟨q, x, c, j, e1, e2, e3⟩, ?_⟩
        intro j' hj'
        rw [e3]
        exact hsep _ _ _ _ _ _ _ _ (Sh.mem_entries.1 e1).1 hk1 e0 e2 hj'
    intro key
    rcases hout with ⟨o1, o2, o3, rfl⟩ | ⟨o1, mv, cj, o2, o3, o4⟩
    · rw [o3, hD, hbase]
      constructor
      · rintro (⟨q, x, c, j, e0, e1, e2, e3⟩ | ⟨j, e1, e2⟩)
        · exact ⟨q, x, c, j, Sh.mem_entries.2 ⟨Sh.mem_setCnt.2 (.inl ⟨e0, (Sh.mem_entries.1 e1).1⟩),
            (Sh.mem_entries.1 e1).2⟩, e2, by rw [hkey]; exact e3⟩
        · exact ⟨bitsId id, k, D.2.1, j, Sh.mem_entries.2 ⟨Sh.mem_setCnt.2 (.inr ⟨rfl, rfl, c0, hk1⟩), o2⟩, e1,
            by rw [hkey]; exact e2⟩
      · rintro ⟨q, x, c, j, e1, e2, e3⟩
        rw [hkey] at e3
        obtain ⟨g1, g2⟩ := Sh.mem_entries.1 e1
        rcases Sh.mem_setCnt.1 g1 with ⟨a, b⟩ | ⟨rfl, rfl, _⟩
        · exact .inl ⟨q, x, c, j, a, Sh.mem_entries.2 ⟨b, g2⟩, e2, e3⟩
        · exact .inr ⟨j, e2, e3⟩
    · have hC : D.2.1 = 0 := by
        rw [← hDe] at o1 ⊢
        exact ((putBackV_none (key := t.key k) (m := m) (v := v)
          (buf := (List.range c0).map (fun j => getV t.vals (t.key k + BitVec.ofNat 64 j)))
          (vals := delLoop (t.key k) c0 0 t.vals) (c := 0) (d := 0) (k := 0)).2.2.1 o1).1
      have hD' : ∀ key, key ∈ D.1.keys ↔
          ∃ q x c j, x ≠ k ∧ (q, x, c) ∈ s.entries [] ∧ j < c ∧ key = t.key x + BitVec.ofNat 64 j := by
        intro key
        rw [hD, hbase, hC]
        constructor
        · rintro (h | ⟨j, h, _⟩)
          · exact h
          · omega
        · exact .inl
      have goal_iff : (∃ q x c j, (q, x, c) ∈ s'.entries [] ∧ j < c ∧ key = t'.key x + BitVec.ofNat 64 j) ↔
          ∃ q x0 c j, x0 ≠ k ∧ (q, x0, c) ∈ s.entries [] ∧ j < c ∧ key = t.key (Sh.moved mv x0) + BitVec.ofNat 64 j := by
        constructor
        · rintro ⟨q, x, c, j, e1, e2, e3⟩
          obtain ⟨x0, g1, g2, rfl⟩ := (o4 q x c).1 e1
          exact ⟨q, x0, c, j, g1, g2, e2, by rw [hkey] at e3; exact e3⟩
        · rintro ⟨q, x0, c, j, g1, g2, e2, e3⟩
          exact ⟨q, _, c, j, (o4 q _ c).2 ⟨x0, g1, g2, rfl⟩, e2, by rw [hkey]; exact e3⟩
      rw [goal_iff, o2]
      cases mv with
      | none => exact hD' key
      | some ji =>
        obtain ⟨j, i⟩ := ji
        obtain ⟨p1, p2, p3, p4, ⟨qj, p5⟩, p6⟩ := o3 j i rfl
        have hcj := hbound _ _ _ p5
        have hsepm : ∀ a b, a < 0 + cj → b < 0 + cj → t.key i + BitVec.ofNat 64 a ≠ t.key j + BitVec.ofNat 64 b := by
          intro a b ha hb
          rw [h.key, h.key]
          exact key_sep hW.2 (hlt i p4) (hlt j p3) (by omega) (by omega) (Ne.symm p1)
        show key ∈ (moveLoop (t.key j) (t.key i) cj 0 D.1).keys ↔ _
        rw [keys_moveLoop hsepm, hD']
        unfold Sh.moved
        simp only
        constructor
        · rintro (⟨⟨q, x, c, a, e0, e1, e2, e3⟩, g⟩ | ⟨a, _, e2, e3⟩)
          · refine ⟨q, x, c, a, e0, e1, e2, ?_⟩
            rw [if_neg]
            · exact e3
            · rintro rfl
              have := (Sh.node_unique h.idxs_nodup (Sh.mem_entries.1 e1).1 p5).2
              exact g a (by omega) (by omega) e3
          · exact ⟨qj, j, cj, a, p2, Sh.mem_entries.2 ⟨p5, by omega⟩, by omega, by rw [if_pos rfl]; exact e3⟩
        · rintro ⟨q, x, c, a, e0, e1, e2, e3⟩
          by_cases hxj : x = j
          · subst hxj
            have := (Sh.node_unique h.idxs_nodup (Sh.mem_entries.1 e1).1 p5).2
            rw [if_pos rfl] at e3
            exact .inr ⟨a, by omega, by omega, e3⟩
          · rw [if_neg hxj] at e3
            refine .inl ⟨⟨q, x, c, a, e0, e1, e2, e3⟩, ?_⟩
            intro b _ hb
            rw [e3]
            exact hsep _ _ _ _ _ _ _ _ (Sh.mem_entries.1 e1).1 p5 hxj e2 (by omega)

theorem small_new (hP : P = id16 ∨ P = id32) : Small P.W (newTree P : Tree T) := by
  refine ⟨?_, ?_⟩
  · rcases hP with rfl | rfl <;> exact Nat.le_trans (Nat.le_refl 2) (by decide)
  · intro q i n _ hn
    have : i < 2 := (List.getElem?_eq_some_iff.1 hn).1
    match i, this with
    | 0, _ => cases hn; exact Nat.zero_le _
    | 1, _ => cases hn; exact Nat.zero_le _

theorem ReachSmall.inv (hP : P = id16 ∨ P = id32) {t : Tree T} (h : ReachSmall P t) :
    Small P.W t ∧ ∃ s, Inv P.W t s ∧ Exact t s := by
  have hw : WidthOk P.W := widthOk_of (by rcases hP with h | h <;> simp [h])
  induction h with
  | new =>
    refine ⟨small_new hP, _, Inv.new (T := T) P, ?_⟩
    intro k
    simp [newTree, Sh.entries, Sh.nodes]
  | @step t t' o r hr ho he hs ih =>
    obtain ⟨ih1, s, ih2, ih3⟩ := ih
    refine ⟨hs, ?_⟩
    cases o with
    | set id v =>
      obtain ⟨bb, c', t1, s1, h1, h2, h3⟩ := add_exact hw ih2 ih3 id ho v (some (fun _ _ => true)) (some (fun _ => v))
      rw [exec_set h1] at he
      cases he
      exact ⟨s1, h2, h3⟩
    | add id v m =>
      obtain ⟨bb, c', t1, s1, h1, h2, h3⟩ := add_exact hw ih2 ih3 id ho v m none
      rw [exec_add h1] at he
      cases he
      exact ⟨s1, h2, h3⟩
    | delete id m v =>
      obtain ⟨n, t1, s1, h1, h2, h3⟩ := delete_exact hw ih2 ih3 id ho v m ih1
      rw [exec_delete h1] at he
      cases he
      exact ⟨s1, h2, h3⟩

/-- **C69** The value map has as many entries as there are values stored; in particular it is empty
when no values are left. For widths 16 and 32, as long as keys did not overlap. -/
theorem C69_vals_no_leak_partial (hP : P = id16 ∨ P = id32) {t : Tree T} (h : ReachSmall P t) :
    ∃ vis, t.visit = .ok vis ∧ t.vals.len = (vis.map (fun e => e.2.length)).sum := by
  obtain ⟨hs, s, hi, he⟩ := h.inv hP
  have hw : WidthOk P.W := widthOk_of (by rcases hP with h | h <;> simp [h])
  have hW := hw.le
  refine ⟨_, visit_spec hi, ?_⟩
  -- the list of all keys
  let ks : List (BitVec 64) := (s.entries []).flatMap (fun e => (List.range e.2.2).map (fun j => t.key e.2.1 + BitVec.ofNat 64 j))
  have hmem : ∀ k, k ∈ ks ↔ k ∈ t.vals.keys := by
    intro k
    rw [he k]
    simp only [ks, List.mem_flatMap, List.mem_map, List.mem_range]
    constructor
    · rintro ⟨⟨q, x, c⟩, h1, j, h2, h3⟩
      exact ⟨q, x, c, j, h1, h2, h3.symm⟩
    · rintro ⟨q, x, c, j, h1, h2, h3⟩
      exact ⟨(q, x, c), h1, j, h2, h3.symm⟩
  have hb : ∀ e ∈ s.entries [], e.2.2 ≤ 2 ^ P.W ∧ (1 ≤ e.2.1 ∧ e.2.1 ≤ 2 ^ (64 - P.W)) := by
    rintro ⟨q, x, c⟩ hx
    obtain ⟨n, hn, hc⟩ := hi.rep.cnt (Sh.mem_entries.1 hx).1
    exact ⟨by have := hs.counts q x n (hi.at_iff.2 ⟨c, (Sh.mem_entries.1 hx).1⟩) hn; simp only; omega,
      hi.entry_ok hs.nodes (Sh.mem_entries_idx hx)⟩
  have hnd : ks.Nodup := by
    have hsorted := Sh.entries_sorted [] (.inr hi.wf)
    have irr : ∀ a : List Bool, ¬ a < a := by
      intro a
      induction a with
      | nil => intro h; cases h
      | cons b a ih =>
        intro h
        cases h with
        | rel h => cases b <;> cases h
        | cons h => exact ih h
    have : ∀ l : List (List Bool × Nat × Nat), (∀ e ∈ l, e ∈ s.entries []) → l.Pairwise (fun a b => a.1 < b.1) →
        (l.flatMap (fun e => (List.range e.2.2).map (fun j => t.key e.2.1 + BitVec.ofNat 64 j))).Nodup := by
      intro l
      induction l with
      | nil => intro _ _; simp
      | cons e l ih =>
        intro hl hp
        rw [List.flatMap_cons, List.nodup_append]
        obtain ⟨hp1, hp2⟩ := List.pairwise_cons.1 hp
        refine ⟨?_, ih (fun e' h' => hl e' (by simp [h'])) hp2, ?_⟩
        · unfold List.Nodup
          rw [List.pairwise_map]
          have hb' := (hb e (hl e (by simp))).1
          have h64 := two_pow_le hW.2 hb'
          have : (List.range e.2.2).Pairwise (fun a b => a ≠ b ∧ a < e.2.2 ∧ b < e.2.2) := by
            have h1 : (List.range e.2.2).Pairwise (· ≠ ·) := List.nodup_range
            refine (List.Pairwise.and_mem.1 h1).imp ?_
            rintro a b ⟨ha, hb, hne⟩
            exact ⟨hne, List.mem_range.1 ha, List.mem_range.1 hb⟩
          refine this.imp ?_
          rintro a b ⟨hne, ha, hb⟩ heq
          exact hne (key_inj (by omega) (by omega) heq)
        · intro k hk k' hk' hkk
          subst hkk
          obtain ⟨j, hj, rfl⟩ := List.mem_map.1 hk
          obtain ⟨e', he', hk2⟩ := List.mem_flatMap.1 hk'
          obtain ⟨j', hj', h2⟩ := List.mem_map.1 hk2
          have b1 := hb e (hl e (by simp))
          have b2 := hb e' (hl e' (by simp [he']))
          have hne : e'.2.1 ≠ e.2.1 := by
            intro h
            obtain ⟨q, x, c⟩ := e
            obtain ⟨q', x', c'⟩ := e'
            simp only at h
            subst h
            have h1 := (Sh.mem_entries.1 (hl _ (List.mem_cons_self))).1
            have h2 := (Sh.mem_entries.1 (hl _ (List.mem_cons_of_mem _ he'))).1
            have := (Sh.node_unique hi.idxs_nodup h1 h2).1
            have hlt := hp1 _ he'
            simp only at hlt
            rw [this] at hlt
            exact irr _ hlt
          rw [List.mem_range] at hj hj'
          rw [hi.key, hi.key] at h2
          exact key_sep hW.2 b2.2 b1.2 (by omega) (by omega) hne h2
    exact this _ (fun _ h => h) hsorted
  have hlen : ks.length = t.vals.len := by
    rw [GoMap.len_eq_keys_length]
    apply Nat.le_antisymm
    · exact hnd.length_le_of_subset (fun k hk => (hmem k).1 hk)
    · exact t.vals.keys_nodup.length_le_of_subset (fun k hk => (hmem k).2 hk)
  rw [← hlen, List.length_flatMap, List.map_map]
  congr 1
  apply List.map_congr_left
  intro e _
  simp

/-- a history of `Set` and `Delete` on a width 16 tree never has overlapping keys -/
theorem ReachSet.small16 {t : Tree T} (h : ReachSet id16 t) : ReachSmall id16 t := by
  obtain ⟨os, rs, h1, h2⟩ := h
  have key : ∀ (os : List (Op id16 T)) (t : Tree T) rs t', ReachSet id16 t → ReachSmall id16 t →
      (∀ o ∈ os, o.id.len ≤ 16 ∧ o.NoAdd) → run t os = .ok (rs, t') → ReachSmall id16 t' := by
    intro os
    induction os with
    | nil => intro t rs t' _ hl _ hr; cases hr; exact hl
    | cons o os ih =>
      intro t rs t' hr0 hl ho hr
      rw [run] at hr
      cases he : o.exec t with
      | ok p =>
        obtain ⟨r, t1⟩ := p
        rw [he] at hr
        simp only [Out.bind_ok] at hr
        have hr1 : ReachSet id16 t1 := by
          obtain ⟨os0, rs0, a1, a2⟩ := hr0
          refine ⟨os0 ++ [o], rs0 ++ [r], ?_, ?_⟩
          · intro o' h'
            rcases List.mem_append.1 h' with h' | h'
            · exact a1 o' h'
            · simp only [List.mem_singleton] at h'; subst h'; exact ho o' (by simp)
          · exact run_append a2 he
        have hs1 : Small 16 t1 := by
          refine Verif.Tree.small16 hr1.reach ?_
          obtain ⟨os1, rs1, b1, b2⟩ := hr1
          obtain ⟨s, g1, g2⟩ := runSet_counts (P := id16) (.inl rfl) (Inv.new (T := T) id16)
            (by simp [Sh.entries, Sh.nodes]) b1 b2
          intro q i n hq hn
          obtain ⟨c, hc⟩ := g1.at_iff.1 hq
          obtain ⟨n', hn', hcc⟩ := g1.rep.cnt hc
          rw [hn] at hn'
          cases hn'
          rw [hcc]
          by_cases h0 : c = 0
          · rw [h0]; exact Nat.zero_le _
          · rw [g2 q i c (Sh.mem_entries.2 ⟨hc, h0⟩)]; exact Nat.le_of_lt (by decide)
        cases hrr : run t1 os with
        | ok p2 =>
          obtain ⟨rs2, t2⟩ := p2
          rw [hrr] at hr
          cases hr
          exact ih t1 rs2 _ hr1 (.step hl (ho o (by simp)).1 he hs1) (fun o' h' => ho o' (by simp [h'])) hrr
        | _ => rw [hrr] at hr; cases hr
      | _ => rw [he] at hr; cases hr
  exact key os _ rs t ⟨[], [], by simp, rfl⟩ .new h1 h2

/-- **C69** (width 16, histories of `Set` and `Delete`) The value map has as many entries as there are
values stored. -/
theorem C69_vals_no_leak {t : Tree T} (h : ReachSet id16 t) :
    ∃ vis, t.visit = .ok vis ∧ t.vals.len = (vis.map (fun e => e.2.length)).sum :=
  C69_vals_no_leak_partial (.inl rfl) h.small16

/-- nothing stored, nothing kept: after deleting everything the value map is empty -/
theorem C69_empty {t : Tree T} (h : ReachSet id16 t) (hv : t.visit = .ok []) : t.vals.len = 0 := by
  obtain ⟨vis, h1, h2⟩ := C69_vals_no_leak h
  rw [hv] at h1
  cases h1
  exact h2

/-- a tree with two values left after a deletion that moved a node -/
example : ∃ t : Tree Nat, ReachSet id16 t ∧ t.vals.len = 2 := by
  refine ⟨_, ⟨[.set ⟨0x8000, 16⟩ 1, .set ⟨0x8001, 16⟩ 2, .set ⟨0, 16⟩ 3, .delete ⟨0x8000, 16⟩ (fun _ _ => true) 0], _, ?_, rfl⟩,
    by decide⟩
  intro o ho
  simp only [List.mem_cons, List.not_mem_nil, or_false] at ho
  rcases ho with rfl | rfl | rfl | rfl <;> exact ⟨by decide, trivial⟩

/-- a tree of width 32 with two values under one prefix -/
example : ∃ t : Tree Nat, ReachSmall id32 t ∧ t.vals.len = 2 := by
  refine ⟨_, .step (o := .add ⟨7, 32⟩ 2 none) (.step (o := .add ⟨7, 32⟩ 1 none) .new (by decide) rfl ⟨by decide, ?_⟩)
    (by decide) rfl ⟨by decide, ?_⟩, by decide⟩
  all_goals
    intro q i n _ hn
    have : i < 3 := (List.getElem?_eq_some_iff.1 hn).1
    match i, this with
    | 0, _ => cases hn; decide
    | 1, _ => cases hn; decide
    | 2, _ => cases hn; decide

/-- **C69** fails for width 64: with two prefixes stored, the value map has one entry, and after the
deletion of one of them it is empty although a prefix is still stored. -/
theorem C69_tree64_violated :
    (∃ t : Tree Nat, ReachSet id64 t ∧ t.vals.len = 1 ∧ ∃ a b, t.visit = .ok [(a, [2]), (b, [2])]) ∧
    (∃ t : Tree Nat, ReachSet id64 t ∧ t.vals.len = 0 ∧ ∃ a, t.visit = .ok [(a, [0])]) := by
  refine ⟨⟨_, ⟨[.set ⟨0, 64⟩ 1, .set ⟨1, 64⟩ 2], _, ?_, rfl⟩, by decide, _, _, rfl⟩,
    ⟨_, ⟨[.set ⟨0, 64⟩ 1, .set ⟨1, 64⟩ 2, .delete ⟨1, 64⟩ (fun _ _ => true) 0], _, ?_, rfl⟩, by decide, _, rfl⟩⟩
  · intro o ho
    simp only [List.mem_cons, List.not_mem_nil, or_false] at ho
    rcases ho with rfl | rfl <;> exact ⟨by decide, trivial⟩
  · intro o ho
    simp only [List.mem_cons, List.not_mem_nil, or_false] at ho
    rcases ho with rfl | rfl | rfl <;> exact ⟨by decide, trivial⟩

/-! ### C68 -/

/-- **C68** fails: ids longer than the width are accepted, and then not found again. A second `Set` of
0/17 reports a new prefix and stores a second value, and a `Delete` after a `Set` removes nothing. -/
theorem C68_long_length_violated :
    observe id16 ([.set ⟨0, 17⟩ 1, .set ⟨0, 17⟩ 2] : List (Op id16 Nat)) =
      some ([.added true 1, .added true 1], [[1], [2]]) ∧
    observe id16 ([.set ⟨0, 17⟩ 1, .delete ⟨0, 17⟩ (fun _ _ => true) 2] : List (Op id16 Nat)) =
      some ([.added true 1, .deleted 0], [[1]]) := by
  refine ⟨by decide, by decide⟩

end Verif.Tree
