import Verif.GTree.InvProps
import Verif.GTree.HistProps

/-! tree32 of length at most 31: what is proved of it holds however many prefixes are claimed. -/

namespace Verif.GTree
open Verif.Id
open Verif.Tree (Tree Out newTree pfx)
variable {L : Type} [Labels L]

/-- a text of `ClaimRange` names ids below `2^31` only -/
def Op.Low {P : Pkg} : Op P L → Prop
  | .claimRange s _ => ∀ a b, IsRange P.W s a b → a < 2 ^ 31 ∧ b < 2 ^ 31
  | _ => True

/-- all ids are below `2^31` -/
def LowMap {P : Pkg} (M : Map P L) : Prop :=
  ∀ q e, M q = some e → e.id.id.toNat < 2 ^ 31 ∧ q = pre e.id ∧ e.id.len ≤ P.W

omit [Labels L] in
theorem pre_low {id : MyId id32} (hid : id.len ≤ 32) (h : id.id.toNat < 2 ^ 31) :
    (pre id).length ≤ 31 + 1 ∧ (pre id = [] ∨ ∃ r, pre id = false :: r) := by
  unfold pre pfx
  refine ⟨by rw [List.length_map, List.length_range]; exact hid, ?_⟩
  cases hl : id.len with
  | zero => exact .inl rfl
  | succ k =>
    right
    rw [List.range_succ_eq_map, List.map_cons]
    refine ⟨_, congrArg (· :: _) ?_⟩
    have hm : ∀ x : BitVec 32, x.toNat < 2 ^ 31 → x.msb = false := by
      intro x hx
      rw [BitVec.msb_eq_decide, decide_eq_false_iff_not]
      omega
    exact hm _ h

omit [Labels L] in
/-- such a map has room -/
theorem LowMap.room {M : Map tree32.P L} (h : LowMap M) : Room M := by
  intro _
  refine Verif.Tree.needs_half (W := 31) ?_
  intro q hq
  cases hm : M q with
  | none => exact absurd hm hq
  | some e =>
    obtain ⟨h0, h1, h2⟩ := h q e hm
    rw [h1]
    exact pre_low h2 h0

omit [Labels L] in
theorem lowMap_put {P : Pkg} {M : Map P L} (h : LowMap M) {id : MyId P} (hid : id.id.toNat < 2 ^ 31) (hl : id.len ≤ P.W) (l : L) :
    LowMap (put M id l) := by
  intro q e he
  unfold put at he
  split at he
  · next hq => cases he; exact ⟨hid, hq, hl⟩
  · exact h q e he

omit [Labels L] in
theorem lowMap_puts {P : Pkg} (l : L) : ∀ {ids : List (MyId P)} {M : Map P L}, LowMap M →
    (∀ i ∈ ids, i.id.toNat < 2 ^ 31 ∧ i.len ≤ P.W) → LowMap (puts M l ids) := by
  intro ids
  induction ids with
  | nil => intro M h _; exact h
  | cons i ids ih =>
    intro M h hi
    exact ih (lowMap_put h (hi i List.mem_cons_self).1 (hi i List.mem_cons_self).2 l) (fun j hj => hi j (List.mem_cons_of_mem _ hj))

/-- the prefixes of a range of such ids -/
theorem ids_low {s : List UInt8} {x : Rng id32} (hx : parseRange s = some x)
    (h : ∀ a b, IsRange 32 s a b → a < 2 ^ 31 ∧ b < 2 ^ 31) {ids : List (MyId id32)} (hi : x.ids = some ids) :
    ∀ i ∈ ids, i.id.toNat < 2 ^ 31 ∧ i.len ≤ 32 := by
  obtain ⟨u, v, a, b, h1, _, h3, h4, ha, hb, rfl⟩ := ((C34_parseRange (P := id32) (.inr (.inl rfl))).2 s x).1 hx
  obtain ⟨ha', hb'⟩ := h a b ⟨u, v, h1, h3, h4, ha, hb⟩
  have ea : (BitVec.ofNat 32 a).toNat = a := by rw [BitVec.toNat_ofNat]; exact Nat.mod_eq_of_lt ha
  have eb : (BitVec.ofNat 32 b).toNat = b := by rw [BitVec.toNat_ofNat]; exact Nat.mod_eq_of_lt hb
  intro i him
  by_cases hab : a ≤ b
  · obtain ⟨ids', i1, i2⟩ := C32_ids_partition (P := id32) (.inr rfl) (rangeFrom (BitVec.ofNat _ a) (BitVec.ofNat _ b))
      (by
        show BitVec.ofNat 32 a ≤ BitVec.ofNat 32 b
        rw [BitVec.le_def, ea, eb]; exact hab)
    rw [hi] at i1
    cases i1
    have := ((i2.cover i.id).1 ⟨i, him, rfl⟩).2
    have : i.id.toNat ≤ (BitVec.ofNat 32 b).toNat := this
    exact ⟨by omega, (i2.aligned i him).1⟩
  · obtain ⟨ids', i1, i2⟩ := C90_ids (P := id32) (.inr rfl) (rangeFrom (BitVec.ofNat _ a) (BitVec.ofNat _ b))
      (by
        show BitVec.ofNat 32 b < BitVec.ofNat 32 a
        rw [BitVec.lt_def, ea, eb]; omega)
    rw [hi] at i1
    cases i1
    obtain ⟨q, q1, q2, q3, q4⟩ := i2.cover
    have hq := ((q4 i.id).1 ⟨i, him, rfl⟩).1
    have cov : ∀ z : BitVec 32, Covers (⟨0, 1⟩ : MyId id32) z ↔ z.toNat < 2 ^ 31 := by
      intro z
      show z.toNat / 2 ^ 31 = 0 / 2 ^ 31 ↔ _
      omega
    refine ⟨(cov _).1 (q3 ⟨0, 1⟩ (by decide) ((cov (BitVec.ofNat 32 a)).2 (by omega)) ((cov (BitVec.ofNat 32 b)).2 (by omega)) _ hq), ?_⟩
    refine ((wraps_distinct ?_ i2).1 i him).1
    show BitVec.ofNat 32 b < BitVec.ofNat 32 a
    rw [BitVec.lt_def, ea, eb]; omega

/-- the map stays low -/
theorem lowMap_effect {length : Nat} (hl : length ≤ 31) {M M' : Map tree32.P L} (h : LowMap M) {o : Op tree32.P L}
    {r : Result tree32.P L} (hf : o.Fits) (ho : o.Low) (he : Effect length M o r M') : LowMap M' := by
  have hp : 2 ^ length ≤ 2 ^ 31 := Nat.pow_le_pow_right (by decide) hl
  have hclaim : ∀ (id : MyId tree32.P) (l : L), id.len ≤ 32 → (if id.id.toNat < 2 ^ length then r = .done ∧ M' = put M id l else r = .err ∧ M' = M) →
      LowMap M' := by
    intro id l hid he
    split at he
    · rw [he.2]; exact lowMap_put h (by omega) hid l
    · rw [he.2]; exact h
  cases o with
  | claim id l => exact hclaim id l hf he
  | update id l => exact hclaim id l hf he
  | claimFree l =>
    rcases he with ⟨_, rfl⟩ | ⟨x, h1, _, rfl⟩
    · exact h
    · exact lowMap_put h (by show x.toNat < _; omega) (Nat.le_refl _) l
  | claimRange s l =>
    rcases he with ⟨_, _, rfl⟩ | ⟨x, ids, h1, h2, _, rfl⟩
    · exact h
    · exact lowMap_puts l h (ids_low h1 ho h2)
  | release id =>
    have he : (if id.id.toNat < 2 ^ length then
      r = .done ∧ (∀ q, M' q = if q = pre id then (M q).filter (fun e => decide (e.id ≠ id)) else M q)
      else r = .err ∧ M' = M) := he
    split at he
    · intro q e hq
      rw [he.2 q] at hq
      split at hq
      · cases hm : M q with
        | none => rw [hm] at hq; cases hq
        | some e' =>
          rw [hm, Option.filter_some] at hq
          split at hq
          · cases hq; exact h q _ hm
          · cases hq
      · exact h q e hq
    · rw [he.2]; exact h
  | releaseByLabel sel =>
    intro q e hq
    rw [he.2 q] at hq
    cases hm : M q with
    | none => rw [hm] at hq; cases hq
    | some e' =>
      rw [hm, Option.filter_some] at hq
      split at hq
      · cases hq; exact h q _ hm
      · cases hq

theorem lowMap_empty {P : Pkg} : LowMap (Map.empty : Map P L) := by
  intro q e h; cases h

/-- **C70, partial** (tree32 of length at most 31, `ClaimRange` with ids below `2^31` only) After every history of calls,
however many prefixes are claimed, no call panics: all do what the map says. For tree32 of length 32 this is violated
with `2^31 + 1` claims (`C52_tree32_violated`). -/
theorem C70_history32_partial {length : Nat} (hl : length ≤ 31) (os : List (Op tree32.P L))
    (ho : ∀ o ∈ os, o.Fits ∧ o.Low) : ∃ g₀, new tree32 L length = some g₀ ∧
      ∃ rs g M, rs.length = os.length ∧ Steps tree32 length g₀ Map.empty (os.zip rs) g M := by
  have hle : ¬ length > tree32.P.W := by
    show ¬ length > 32
    omega
  obtain ⟨g₀, hg₀⟩ : ∃ g₀, new tree32 L length = some g₀ := by
    unfold new
    rw [if_neg hle]
    exact ⟨_, rfl⟩
  refine ⟨g₀, hg₀, ?_⟩
  have key : ∀ (os : List (Op tree32.P L)), (∀ o ∈ os, o.Fits ∧ o.Low) → ∀ {g : GTree tree32 L} {M : Map tree32.P L},
      Reach tree32 length g M → LowMap M →
      ∃ rs g' M', rs.length = os.length ∧ Steps tree32 length g M (os.zip rs) g' M' := by
    intro os
    induction os with
    | nil => intro _ g M _ _; exact ⟨[], g, M, rfl, .nil⟩
    | cons o os ih =>
      intro ho g M h hM
      obtain ⟨h1, h2⟩ := ho o List.mem_cons_self
      obtain ⟨r, M', e1, e2⟩ := C70_no_panic_partial (.inr rfl) h h1
      have hM' := lowMap_effect hl hM h1 h2 e1
      obtain ⟨g', e3, e4⟩ := e2 hM'.room
      obtain ⟨rs, g'', M'', f1, f2⟩ := ih (fun o h => ho o (List.mem_cons_of_mem _ h)) e4 hM'
      exact ⟨r :: rs, g'', M'', by simp [f1], .cons h1 e3 e1 hM'.room f2⟩
  exact key os ho (.new hg₀) lowMap_empty

-- "5-0"
example : (Op.claimRange [53, 45, 48] true : Op tree32.P Bool).Low := by
  rintro a b ⟨u, v, h1, h2, h3, h4, h5⟩
  have hk := (C34_parseRange (P := id32) (.inr (.inl rfl))).2 [53, 45, 48] (rangeFrom (BitVec.ofNat _ a) (BitVec.ofNat _ b))
  have hp := hk.2 ⟨u, v, a, b, h1, h2.no_hyphen, h2, h3, h4, h5, rfl⟩
  have : (parseRange [53, 45, 48] : Option (Rng id32)) = some (rangeFrom 5 0) := rfl
  rw [this] at hp
  have e1 : (5 : BitVec 32) = BitVec.ofNat 32 a := congrArg (fun x => x.lo.id) (Option.some.inj hp)
  have e2 : (0 : BitVec 32) = BitVec.ofNat 32 b := congrArg (fun x => x.hi.id) (Option.some.inj hp)
  have e1 := congrArg BitVec.toNat e1
  have e2 := congrArg BitVec.toNat e2
  rw [BitVec.toNat_ofNat] at e1 e2
  have h4 : a < 2 ^ 32 := h4
  have h5 : b < 2 ^ 32 := h5
  rw [Nat.mod_eq_of_lt h4] at e1
  rw [Nat.mod_eq_of_lt h5] at e2
  have e1 : 5 = a := e1
  have e2 : 0 = b := e2
  omega

end Verif.GTree
