import Verif.Tree.Crowd

/-! The prefix tree of width 32 with more than `2^31` prefixes: keys of the value map are used twice. -/

namespace Verif.Tree
open Verif.Id

/-- the calls of the history: the ids in the order of `crowdId`, one more than `2^31`; then the second is deleted and
`0/0` is stored -/
def crowdHist {T : Type} (f : BitVec 32 → T) (m : T → T → Bool) (v w : T) (n : Nat) : List (Op id32 T) :=
  crowdOps f n ++ [.delete ⟨crowdId 1, 32⟩ m v] ++ [.set ⟨0, 0⟩ w]

theorem mapOf_append {P : Pkg} {T : Type} : ∀ (os os' : List (Op P T)) (M : List Bool → Option T),
    mapOf (os ++ os') M = mapOf os' (mapOf os M) := by
  intro os
  induction os with
  | nil => intro os' M; rfl
  | cons o os ih => intro os' M; exact ih os' _

/-- the map after storing some of the ids -/
theorem mapOf_crowd {T : Type} (f : BitVec 32 → T) : ∀ n q,
    mapOf (crowdOps f n) (fun _ => none) q ≠ none → ∃ i, i < n ∧ q = pfx (crowdId i) 32 := by
  intro n
  induction n with
  | zero => intro q h; exact absurd rfl h
  | succ n ih =>
    intro q h
    unfold crowdOps at h
    rw [List.range_succ, List.map_append, mapOf_append] at h
    have h : (if q = pfx (crowdId n) 32 then some (f (crowdId n)) else mapOf (crowdOps f n) (fun _ => none) q) ≠ none := h
    split at h
    · next hq => exact ⟨n, by omega, hq⟩
    · obtain ⟨i, hi, hq⟩ := ih q h
      exact ⟨i, by omega, hq⟩

theorem take_crowd {T : Type} (f : BitVec 32 → T) (n k : Nat) : (crowdOps f n).take k = crowdOps f (min k n) := by
  unfold crowdOps
  rw [← List.map_take, List.take_range]

theorem atMost_crowd {T : Type} (f : BitVec 32 → T) (n : Nat) : AtMost n (mapOf (crowdOps f n) (fun _ => none)) := by
  refine ⟨(List.range n).map (fun i => pfx (crowdId i) 32), by simp, ?_⟩
  intro q hq
  obtain ⟨i, hi, h⟩ := mapOf_crowd f n q hq
  exact List.mem_map.2 ⟨i, List.mem_range.2 hi, h.symm⟩

/-- at no time more than `n` prefixes are stored -/
theorem atMost_hist {T : Type} (f : BitVec 32 → T) (m : T → T → Bool) (v w : T) {n : Nat} (hn : n = 2 ^ 31 + 1)
    (hm : m (f (crowdId 1)) v = true) (k : Nat) :
    AtMost n (mapOf ((crowdHist f m v w n).take k) (fun _ => none)) := by
  obtain ⟨N, hN⟩ : ∃ N, N = crowdOps f n := ⟨_, rfl⟩
  have hlen : N.length = n := by rw [hN]; simp [crowdOps]
  have h1 : ∀ k, AtMost n (mapOf (N.take k) (fun _ => none)) := by
    intro k
    rw [hN, take_crowd]
    obtain ⟨ks, h1, h2⟩ := atMost_crowd f (min k n)
    exact ⟨ks, by omega, h2⟩
  unfold crowdHist
  rw [← hN]
  rcases Nat.lt_or_ge n k with hk | hk
  · -- the deletion is included
    have h2 : ∀ q, mapOf (N ++ [.delete ⟨crowdId 1, 32⟩ m v]) (fun _ => none) q ≠ none →
        ∃ i, i < n ∧ i ≠ 1 ∧ q = pfx (crowdId i) 32 := by
      intro q hq
      rw [mapOf_append] at hq
      have hq : (if q = pfx (crowdId 1) 32 then (mapOf N (fun _ => none) q).filter (fun x => !m x v)
        else mapOf N (fun _ => none) q) ≠ none := hq
      split at hq
      · next h =>
        exfalso
        have hval : ∀ k, 2 ≤ k → mapOf (crowdOps f k) (fun _ => none) (pfx (crowdId 1) 32) = some (f (crowdId 1)) ∨ n < k := by
          intro k
          induction k with
          | zero => intro h; omega
          | succ k ih =>
            intro hk2
            unfold crowdOps
            rw [List.range_succ, List.map_append, mapOf_append]
            show (if pfx (crowdId 1) 32 = pfx (crowdId k) 32 then some (f (crowdId k))
              else mapOf (crowdOps f k) (fun _ => none) (pfx (crowdId 1) 32)) = _ ∨ _
            by_cases hk1 : k = 1
            · subst hk1; exact .inl (if_pos rfl)
            · rcases ih (by omega) with h | h
              · by_cases hkn : n < k + 1
                · exact .inr hkn
                · left
                  rw [if_neg, h]
                  intro he
                  exact hk1 (crowd_pfx_inj (by decide) (by omega) he).symm
              · exact .inr (by omega)
        rcases hval n (by omega) with h3 | h3
        · rw [h, hN, h3] at hq
          simp [Option.filter, hm] at hq
        · omega
      · next h =>
        rw [hN] at hq
        obtain ⟨i, hi, h3⟩ := mapOf_crowd f n q hq
        exact ⟨i, hi, fun h4 => h (by rw [h3, h4]), h3⟩
    have h3 : ∀ k, n < k → ∀ q, mapOf ((N ++ [Op.delete ⟨crowdId 1, 32⟩ m v] ++ [Op.set ⟨0, 0⟩ w]).take k) (fun _ => none) q ≠ none →
        q = [] ∨ ∃ i, i < n ∧ i ≠ 1 ∧ q = pfx (crowdId i) 32 := by
      intro k hk q hq
      rcases Nat.lt_or_ge (n + 1) k with hk2 | hk2
      · rw [List.take_of_length_le (by simp [hlen]; omega), mapOf_append] at hq
        have hq : (if q = [] then some w else mapOf (N ++ [.delete ⟨crowdId 1, 32⟩ m v]) (fun _ => none) q) ≠ none := hq
        split at hq
        · next h => exact .inl h
        · exact .inr (h2 q hq)
      · rw [List.take_append_of_le_length (by simp [hlen]; omega), List.take_of_length_le (by simp [hlen]; omega)] at hq
        exact .inr (h2 q hq)
    refine ⟨[] :: ((List.range n).erase 1).map (fun i => pfx (crowdId i) 32), ?_, ?_⟩
    · rw [List.length_cons, List.length_map, List.length_erase_of_mem (List.mem_range.2 (by omega)), List.length_range]
      omega
    · intro q hq
      rcases h3 k hk q hq with rfl | ⟨i, hi, hi1, rfl⟩
      · exact List.mem_cons_self
      · exact List.mem_cons_of_mem _ (List.mem_map.2 ⟨i, (List.mem_erase_of_ne hi1).2 (List.mem_range.2 hi), rfl⟩)
  · rw [List.append_assoc, List.take_append_of_le_length (by omega)]
    exact h1 k

/-- **C42** fails for width 32 as well: one prefix more than in `C42_tree32_is_map_partial`, and the keys of two nodes are
the same. The calls store `2^31 + 1` ids of full length, delete one and store `0/0`, each with its own prefix
as the value; then the last of the ids has the value of `0/0`. -/
theorem C42_tree32_violated : ∃ os : List (Op id32 (List Bool)), (∀ o ∈ os, o.id.len ≤ 32 ∧ o.NoAdd) ∧
    (∀ n, AtMost (2 ^ 31 + 1) (mapOf (os.take n) (fun _ => none))) ∧
    ∃ rs t vis, run (newTree id32) os = .ok (rs, t) ∧ t.visit = .ok vis ∧
      ¬ ∃ L, ListsMap L (mapOf os (fun _ => none)) ∧ vis.map (·.2) = L.map (fun e => [e.2]) := by
  obtain ⟨n, hn⟩ : ∃ n : Nat, n = 2 ^ 31 + 1 := ⟨_, rfl⟩
  let f : BitVec 32 → List Bool := fun x => pfx x 32
  let m : List Bool → List Bool → Bool := fun _ _ => true
  let os : List (Op id32 (List Bool)) := crowdHist f m [] [] n
  obtain ⟨rs, t, s, h1, h2⟩ := crowd_run f n (by omega)
  obtain ⟨t', t'', s'', h3, h4, h5, h6, h7, h8⟩ := h2.zero hn m [] rfl []
  have hrun := run_append (run_append h1 (exec_delete h3)) (exec_set h4)
  have hmem : ∀ o ∈ os, o = .set ⟨0, 0⟩ [] ∨ o = .delete ⟨crowdId 1, 32⟩ m [] ∨ ∃ i, o = .set ⟨crowdId i, 32⟩ (pfx (crowdId i) 32) := by
    intro o ho
    rcases List.mem_append.1 ho with ho | ho
    · rcases List.mem_append.1 ho with ho | ho
      · obtain ⟨i, _, rfl⟩ := List.mem_map.1 ho
        exact .inr (.inr ⟨i, rfl⟩)
      · exact .inr (.inl (List.mem_singleton.1 ho))
    · exact .inl (List.mem_singleton.1 ho)
  refine ⟨os, ?_, ?_, _, t'', _, hrun, visit_spec h5, ?_⟩
  · intro o ho
    rcases hmem o ho with rfl | rfl | ⟨i, rfl⟩
    · exact ⟨Nat.zero_le _, trivial⟩
    · exact ⟨Nat.le_refl _, trivial⟩
    · exact ⟨Nat.le_refl _, trivial⟩
  · intro k
    rw [← hn]
    exact atMost_hist f m [] [] hn rfl k
  · rintro ⟨L, hL, he⟩
    -- the values of the map are its keys
    have hown : ∀ (os : List (Op id32 (List Bool))) (M : List Bool → Option (List Bool)),
        (∀ o ∈ os, o = .set ⟨0, 0⟩ [] ∨ o = .delete ⟨crowdId 1, 32⟩ m [] ∨ ∃ i, o = .set ⟨crowdId i, 32⟩ (pfx (crowdId i) 32)) →
        (∀ q v, M q = some v → v = q) → ∀ q v, mapOf os M q = some v → v = q := by
      intro os
      induction os with
      | nil => intro M _ hM; exact hM
      | cons o os ih =>
        intro M ho hM
        refine ih _ (fun o' h' => ho o' (List.mem_cons_of_mem _ h')) ?_
        intro q v hq
        rcases ho o List.mem_cons_self with rfl | rfl | ⟨i, rfl⟩
        · have hq : (if q = [] then some [] else M q) = some v := hq
          split at hq
          · next h => cases hq; exact h.symm
          · exact hM q v hq
        · have hq : (if q = pfx (crowdId 1) 32 then (M q).filter (fun w => !true) else M q) = some v := hq
          split at hq
          · cases hMq : M q with
            | none => rw [hMq] at hq; cases hq
            | some y => rw [hMq] at hq; cases hq
          · exact hM q v hq
        · have hq : (if q = pfx (crowdId i) 32 then some (pfx (crowdId i) 32) else M q) = some v := hq
          split at hq
          · next h => cases hq; exact h.symm
          · exact hM q v hq
    have hval : ∀ e ∈ L, e.2 = e.1 := fun e hm => hown os (fun _ => none) hmem (by intro q v h; cases h) e.1 e.2 ((hL.mem e.1 e.2).1 hm)
    have hnd : (L.map (fun e => [e.2])).Nodup := by
      unfold List.Nodup
      rw [List.pairwise_map]
      refine (List.Pairwise.and_mem.1 hL.sorted).imp ?_
      rintro a b ⟨ha, hb, h⟩ e
      have : a.2 = b.2 := (List.cons.inj e).1
      rw [hval a ha, hval b hb] at this
      rw [this] at h
      exact lt_irrefl_bits _ h
    rw [← he, List.map_map] at hnd
    -- but two nodes yield the same value
    have hsort := Sh.entries_sorted [] (.inr h5.wf)
    have hone : ∀ q x, (q, x, 1) ∈ s''.entries [] → (q = [] ∨ q = pfx (crowdId (n - 1)) 32) →
        valsAt t''.vals (t''.key x) 1 = [[]] := by
      intro q x hx hq
      have hv : getV t''.vals (t''.key x) = [] := by
        rcases (h8 _ _ _ hx).2 with ⟨_, h⟩ | ⟨i, hi, _, hqi, _⟩
        · exact h
        · exfalso
          rcases hq with rfl | rfl
          · have := congrArg List.length hqi
            simp [pfx] at this
          · have := crowd_pfx_inj (by omega) (by omega) hqi
            omega
      rw [← hv]
      show [getV t''.vals (t''.key x + BitVec.ofNat 64 0)] = _
      rw [show t''.key x + BitVec.ofNat 64 0 = t''.key x from BitVec.add_zero _]
    have hdup : ∀ (l : List (List Bool × Nat × Nat)) (g : List Bool × Nat × Nat → List (List Bool)), (l.map g).Nodup →
        ∀ a b, a ∈ l → b ∈ l → g a = g b → a = b := by
      intro l g
      induction l with
      | nil => intro _ a b h; cases h
      | cons x l ih =>
        intro hnd a b ha hb hg
        rw [List.map_cons, List.nodup_cons] at hnd
        rcases List.mem_cons.1 ha with ha | ha <;> rcases List.mem_cons.1 hb with hb | hb
        · rw [ha, hb]
        · exact absurd (List.mem_map.2 ⟨b, hb, by rw [← hg, ha]⟩) hnd.1
        · exact absurd (List.mem_map.2 ⟨a, ha, by rw [hg, hb]⟩) hnd.1
        · exact ih hnd.2 a b ha hb hg
    have := hdup _ _ hnd _ _ h6 h7 (by
      show valsAt t''.vals (t''.key 1) 1 = valsAt t''.vals (t''.key (2 * n - 1)) 1
      rw [hone _ _ h6 (.inl rfl), hone _ _ h7 (.inr rfl)])
    have := congrArg (fun e => e.1.length) this
    simp [pfx] at this

end Verif.Tree
