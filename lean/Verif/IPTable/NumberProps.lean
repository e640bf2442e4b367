import Verif.IPTable.HistProps
import Verif.Ranged.ShiftProps

/-! Property C118: an IP table is a `table64` over the offsets of its addresses. -/

namespace Verif.IPTable
open Verif.IdxTable (U64 Ascending)
open Verif.Ranged (RCall RReply LMap RStep RRun InR AvailR LeastR Lists TEntry)
variable {R : Type} {parse : String → Option Addr} {lo hi : Addr}

/-! ### Specification -/

open Classical in
/-- the id for a text: the offset of the address it denotes, or `2^64-1`, which is in no range considered here -/
noncomputable def textId (parse : String → Option Addr) (lo hi : Addr) (x : String) : U64 :=
  match parse x with
  | some a => if InIP lo hi a then BitVec.ofNat 64 (num a - num lo) else BitVec.ofNat 64 (2 ^ 64 - 1)
  | none => BitVec.ofNat 64 (2 ^ 64 - 1)

/-- the address at offset `i` from `lo` -/
def addrAt (lo : Addr) (i : Nat) : Addr :=
  match lo with
  | .zero => .zero
  | .v4 f => .v4 (BitVec.ofNat 32 (f.toNat + i))
  | .v6 f _ => .v6 (BitVec.ofNat 128 (f.toNat + i)) ""

/-- the same call about ids given by `id` -/
def ICall.toR (id : String → U64) : ICall R → RCall R
  | .get x => .get (id x)
  | .claim x d => .claim (id x) d
  | .release x => .release (id x)
  | .update x d => .update (id x) d
  | .size => .size
  | .has x => .has (id x)
  | .isFree x => .isFree (id x)
  | .findFree => .findFree
  | .getAll => .getAll
  | .getByLabel sel => .getByLabel sel

/-- the reply about addresses; `ClaimFree` is not a call of an IP table -/
def ofR (lo : Addr) : RReply R → IReply R
  | .ok => .ok
  | .err => .err
  | .panic => .panic
  | .labels d => .route d
  | .entry _ => .panic
  | .entries es => .routes (es.map TEntry.labels)
  | .id i => .addr (addrAt lo i.toNat)
  | .bool b => .bool b
  | .nat n => .nat n

/-! ### Proof -/

open Classical in
/-- the map from addresses that goes with a map from offsets -/
noncomputable def toA (lo hi : Addr) (m : LMap R) : AMap R := fun a => if InIP lo hi a then m (idxA lo a) else none

section
variable (hs : SmallRange lo hi)
include hs

theorem textId_in {x : String} {a : Addr} (hp : parse x = some a) (ha : InIP lo hi a) : textId parse lo hi x = idxA lo a := by
  have h := idxA_toNat (mid_of_small hs).1 ha
  unfold textId
  rw [hp]
  simp only [if_pos ha]
  rw [← h.1, BitVec.ofNat_toNat, BitVec.setWidth_eq]

omit hs in
theorem textId_out {x : String} (h : ∀ a, parse x = some a → ¬ InIP lo hi a) :
    textId parse lo hi x = BitVec.ofNat 64 (2 ^ 64 - 1) := by
  unfold textId
  cases hp : parse x with
  | none => rfl
  | some a => simp only [if_neg (h a hp)]

theorem idxA_in {a : Addr} (ha : InIP lo hi a) : InR 0 (num hi - num lo) (idxA lo a) := by
  have h := idxA_toNat (mid_of_small hs).1 ha
  exact ⟨Nat.zero_le _, by omega⟩

theorem out_notIn : ¬ InR 0 (num hi - num lo) (BitVec.ofNat 64 (2 ^ 64 - 1)) := by
  have h : num hi - num lo + 1 < 2 ^ 64 := (mid_of_small hs).2
  intro ⟨_, h2⟩
  rw [BitVec.toNat_ofNat] at h2
  omega

/-- a text denotes an address of the range, or is treated as an id out of range -/
theorem text_cases (x : String) :
    (∃ a, parse x = some a ∧ InIP lo hi a ∧ textId parse lo hi x = idxA lo a) ∨
    ((∀ a, parse x = some a → ¬ InIP lo hi a) ∧ ¬ InR 0 (num hi - num lo) (textId parse lo hi x)) := by
  by_cases h : ∃ a, parse x = some a ∧ InIP lo hi a
  · obtain ⟨a, h1, h2⟩ := h
    exact .inl ⟨a, h1, h2, textId_in hs h1 h2⟩
  · have h : ∀ a, parse x = some a → ¬ InIP lo hi a := fun a h1 h2 => h ⟨a, h1, h2⟩
    exact .inr ⟨h, by rw [textId_out h]; exact out_notIn hs⟩

omit hs in
theorem toA_in {m : LMap R} {a : Addr} (ha : InIP lo hi a) : toA lo hi m a = m (idxA lo a) := by
  unfold toA; rw [if_pos ha]

omit hs in
theorem toA_out {m : LMap R} {a : Addr} (ha : ¬ InIP lo hi a) : toA lo hi m a = none := by
  unfold toA; rw [if_neg ha]

theorem toA_put {m : LMap R} {a : Addr} (ha : InIP lo hi a) (d : R) :
    toA lo hi (m.put (idxA lo a) d) = (toA lo hi m).put a d := by
  funext b
  unfold AMap.put
  by_cases hb : b = a
  · rw [if_pos hb, hb, toA_in ha]
    unfold LMap.put
    rw [if_pos rfl]
  · rw [if_neg hb]
    by_cases hi' : InIP lo hi b
    · rw [toA_in hi', toA_in hi']
      unfold LMap.put
      rw [if_neg (fun h => hb (idxA_inj (mid_of_small hs).1 hi' ha h))]
    · rw [toA_out hi', toA_out hi']

theorem toA_drop {m : LMap R} {a : Addr} (ha : InIP lo hi a) :
    toA lo hi (m.drop (idxA lo a)) = (toA lo hi m).drop a := by
  funext b
  unfold AMap.drop
  by_cases hb : b = a
  · rw [if_pos hb, hb, toA_in ha]
    unfold LMap.drop
    rw [if_pos rfl]
  · rw [if_neg hb]
    by_cases hi' : InIP lo hi b
    · rw [toA_in hi', toA_in hi']
      unfold LMap.drop
      rw [if_neg (fun h => hb (idxA_inj (mid_of_small hs).1 hi' ha h))]
    · rw [toA_out hi', toA_out hi']

theorem avail_toA {m : LMap R} {a : Addr} (ha : InIP lo hi a) :
    AvailIP lo hi (toA lo hi m) a ↔ AvailR 0 (num hi - num lo) m (idxA lo a) := by
  unfold AvailIP AvailR
  rw [toA_in ha]
  exact ⟨fun h => ⟨idxA_in hs ha, h.2⟩, fun h => ⟨ha, h.2⟩⟩

theorem extA_in {i : U64} (h : InR 0 (num hi - num lo) i) :
    InIP lo hi (extA lo i) ∧ idxA lo (extA lo i) = i ∧ num (extA lo i) = num lo + i.toNat :=
  ⟨(num_extA (mid_of_small hs).1 h.2).2, idxA_extA (mid_of_small hs).1 h.2, (num_extA (mid_of_small hs).1 h.2).1⟩

/-- every address of the range is that of an id -/
theorem none_avail {m : LMap R} (h : ∀ i, ¬ AvailR 0 (num hi - num lo) m i) (a : Addr) : ¬ AvailIP lo hi (toA lo hi m) a :=
  fun ha => h _ ((avail_toA hs ha.1).1 ha)

theorem least_toA {m : LMap R} {i : U64} (h : LeastR 0 (num hi - num lo) m i) : LeastIP lo hi (toA lo hi m) (extA lo i) := by
  obtain ⟨h1, h2, h3⟩ := extA_in hs h.1.1
  refine ⟨(avail_toA hs h1).2 (by rw [h2]; exact h.1), fun b hb => ?_⟩
  have h4 := h.2 _ ((avail_toA hs hb.1).1 hb)
  have h5 := idxA_toNat (mid_of_small hs).1 hb.1
  rw [BitVec.le_def] at h4
  omega

theorem lists_toA {m : LMap R} (hin : ∀ i, m i ≠ none → InR 0 (num hi - num lo) i) {ids : List U64} (ha : Ascending ids)
    (hm : ∀ i, i ∈ ids ↔ m i ≠ none) : ListsIP (toA lo hi m) (ids.map (extA lo)) := by
  have hids : ∀ i ∈ ids, InR 0 (num hi - num lo) i := fun i hi => hin i ((hm i).1 hi)
  refine ⟨?_, fun a => ?_⟩
  · rw [List.pairwise_map]
    refine List.Pairwise.imp_of_mem ?_ ha
    intro i j h1 h2 h3
    have := (extA_in hs (hids i h1)).2.2
    have := (extA_in hs (hids j h2)).2.2
    rw [BitVec.lt_def] at h3
    omega
  · rw [List.mem_map]
    constructor
    · rintro ⟨i, hi', rfl⟩
      obtain ⟨h1, h2, _⟩ := extA_in hs (hids i hi')
      rw [toA_in h1, h2]
      exact (hm i).1 hi'
    · intro h
      by_cases hb : InIP lo hi a
      · rw [toA_in hb] at h
        exact ⟨_, (hm _).2 h, extA_idxA (mid_of_small hs).1 hb⟩
      · rw [toA_out hb] at h
        exact absurd rfl h

omit hs in
/-- the claimed ids, ascending -/
theorem exists_ids {n : Nat} (hn : n + 1 < 2 ^ 64) {m : LMap R} (hin : ∀ i, m i ≠ none → InR 0 n i) :
    ∃ ids, Ascending ids ∧ ∀ i, i ∈ ids ↔ m i ≠ none := by
  refine ⟨((List.range (n + 1)).map (BitVec.ofNat 64)).filter (fun i => (m i).isSome), ?_, fun i => ?_⟩
  · refine List.Pairwise.filter _ ?_
    rw [List.pairwise_map]
    refine List.Pairwise.imp_of_mem ?_ List.pairwise_lt_range
    intro a b h1 h2 h3
    rw [List.mem_range] at h1 h2
    rw [BitVec.lt_def, BitVec.toNat_ofNat, BitVec.toNat_ofNat, Nat.mod_eq_of_lt (by omega), Nat.mod_eq_of_lt (by omega)]
    exact h3
  · rw [List.mem_filter, List.mem_map, Option.isSome_iff_ne_none]
    refine ⟨fun h => h.2, fun h => ⟨⟨i.toNat, List.mem_range.2 ?_, ?_⟩, h⟩⟩
    · have := (hin i h).2; omega
    · rw [BitVec.ofNat_toNat, BitVec.setWidth_eq]

/-- the routes of a listing with labels -/
theorem routes_toA {m : LMap R} {len : Nat} (hin : ∀ i, m i ≠ none → InR 0 (num hi - num lo) i) {sel : R → Bool}
    {es : List (TEntry R)} (h : Lists len m sel es) :
    ∃ as, ListsIP (toA lo hi m) as ∧ es.map TEntry.labels = (as.filterMap (toA lo hi m)).filter sel := by
  obtain ⟨ids, h1, h2⟩ := exists_ids (mid_of_small hs).2 hin
  refine ⟨_, lists_toA hs hin h1 h2, ?_⟩
  have hids : ∀ i ∈ ids, InR 0 (num hi - num lo) i := fun i hi' => hin i ((h2 i).1 hi')
  -- the ids of the selected entries
  have e1 : es.map TEntry.id = ids.filter (fun i => (m i).any sel) := by
    apply IdxTable.sorted_ext h.1 (h1.filter _)
    intro i
    rw [List.mem_map, List.mem_filter, h2]
    constructor
    · rintro ⟨e, he, rfl⟩
      obtain ⟨a, _, c⟩ := (h.2 e).1 he
      rw [a]
      exact ⟨by simp, by simpa using c⟩
    · rintro ⟨a, b⟩
      cases hm : m i with
      | none => exact absurd hm a
      | some l =>
        rw [hm] at b
        exact ⟨⟨i, len, l⟩, (h.2 _).2 ⟨hm, rfl, by simpa using b⟩, rfl⟩
  have e2 : es.map TEntry.labels = (es.map TEntry.id).filterMap m := by
    rw [List.filterMap_map]
    rw [← List.filterMap_eq_map]
    apply List.filterMap_congr
    intro e he
    exact ((h.2 e).1 he).1.symm
  rw [e2, e1, List.filterMap_map, List.filter_filterMap, List.filterMap_filter]
  apply List.filterMap_congr
  intro i hi'
  obtain ⟨a, b, _⟩ := extA_in hs (hids i hi')
  simp only [Function.comp_def, toA_in a, b]
  cases m i with
  | none => rfl
  | some l => simp [Option.filter]

theorem step_toA {len1 len2 : Nat} {m m' : LMap R} {r : RReply R} (hin : ∀ i, m i ≠ none → InR 0 (num hi - num lo) i)
    (c : ICall R) (h : RStep 0 (num hi - num lo) len1 len2 m (c.toR (textId parse lo hi)) m' r) :
    IStep parse lo hi (toA lo hi m) c (toA lo hi m') (ofR lo r) := by
  have out : ∀ {i}, ¬ InR 0 (num hi - num lo) i → m i = none := fun hn => by
    apply Classical.byContradiction
    intro h
    exact hn (hin _ h)
  have outA : ∀ {x}, (∀ a, parse x = some a → ¬ InIP lo hi a) → ∀ a, parse x = some a → toA lo hi m a = none :=
    fun hn a hp => toA_out (hn a hp)
  cases c with
  | get x =>
    obtain ⟨rfl, h1, h2⟩ := h
    refine ⟨rfl, ?_⟩
    rcases text_cases (parse := parse) hs x with ⟨a, hp, ha, ht⟩ | ⟨hn, ht⟩
    · rw [ht] at h1 h2
      cases hm : m' (idxA lo a) with
      | none =>
        refine .inr ⟨fun b hb => ?_, by rw [h2 hm]; rfl⟩
        rw [hp] at hb; cases hb
        rw [toA_in ha, hm]
      | some l => exact .inl ⟨a, l, hp, by rw [toA_in ha, hm], by rw [h1 l hm]; rfl⟩
    · exact .inr ⟨outA hn, by rw [h2 (out ht)]; rfl⟩
  | claim x d =>
    rcases text_cases (parse := parse) hs x with ⟨a, hp, ha, ht⟩ | ⟨hn, ht⟩
    · simp only [ICall.toR, RStep, ht] at h
      rcases h with ⟨h1, rfl, rfl⟩ | ⟨h1, rfl, rfl⟩
      · exact .inl ⟨a, hp, (avail_toA hs ha).2 h1, toA_put hs ha d, rfl⟩
      · refine .inr ⟨fun b hb => ?_, rfl, rfl⟩
        rw [hp] at hb; cases hb
        rwa [avail_toA hs ha]
    · rcases h with ⟨h1, rfl, rfl⟩ | ⟨h1, rfl, rfl⟩
      · exact absurd h1.1 ht
      · exact .inr ⟨fun b hb h => hn b hb h.1, rfl, rfl⟩
  | release x =>
    rcases text_cases (parse := parse) hs x with ⟨a, hp, ha, ht⟩ | ⟨hn, ht⟩
    · simp only [ICall.toR, RStep, ht] at h
      rcases h with ⟨h1, rfl, rfl⟩ | ⟨h1, rfl, rfl⟩
      · exact .inl ⟨a, hp, ha, toA_drop hs ha, rfl⟩
      · exact absurd (idxA_in hs ha) h1
    · rcases h with ⟨h1, rfl, rfl⟩ | ⟨h1, rfl, rfl⟩
      · exact absurd h1 ht
      · exact .inr ⟨hn, rfl, rfl⟩
  | update x d =>
    rcases text_cases (parse := parse) hs x with ⟨a, hp, ha, ht⟩ | ⟨hn, ht⟩
    · simp only [ICall.toR, RStep, ht] at h
      rcases h with ⟨h1, rfl, rfl⟩ | ⟨h1, rfl, rfl⟩
      · exact .inl ⟨a, hp, by rwa [toA_in ha], toA_put hs ha d, rfl⟩
      · refine .inr ⟨fun b hb => ?_, rfl, rfl⟩
        rw [hp] at hb; cases hb
        rwa [toA_in ha]
    · rcases h with ⟨h1, rfl, rfl⟩ | ⟨h1, rfl, rfl⟩
      · exact absurd (out ht) h1
      · exact .inr ⟨outA hn, rfl, rfl⟩
  | size =>
    obtain ⟨rfl, ids, h1, h2, rfl⟩ := h
    exact ⟨rfl, _, lists_toA hs hin h1 h2, by rw [List.length_map]; rfl⟩
  | has x =>
    obtain ⟨rfl, b, h1, rfl⟩ := h
    refine ⟨rfl, b, h1.trans ?_, rfl⟩
    rcases text_cases (parse := parse) hs x with ⟨a, hp, ha, ht⟩ | ⟨hn, ht⟩
    · rw [ht]
      constructor
      · intro h; exact ⟨a, hp, by rwa [toA_in ha]⟩
      · rintro ⟨b, hb, h⟩
        rw [hp] at hb; cases hb
        rwa [toA_in ha] at h
    · exact ⟨fun h => absurd (out ht) h, fun ⟨b, hb, h⟩ => absurd (outA hn b hb) h⟩
  | isFree x =>
    obtain ⟨rfl, b, h1, rfl⟩ := h
    refine ⟨rfl, b, h1.trans ?_, rfl⟩
    rcases text_cases (parse := parse) hs x with ⟨a, hp, ha, ht⟩ | ⟨hn, ht⟩
    · rw [ht]
      constructor
      · intro h; exact ⟨a, hp, (avail_toA hs ha).2 h⟩
      · rintro ⟨b, hb, h⟩
        rw [hp] at hb; cases hb
        exact (avail_toA hs ha).1 h
    · exact ⟨fun h => absurd h.1 ht, fun ⟨b, hb, h⟩ => absurd h.1 (hn b hb)⟩
  | findFree =>
    obtain ⟨rfl, h⟩ := h
    refine ⟨rfl, ?_⟩
    rcases h with ⟨i, h1, rfl⟩ | ⟨h1, rfl⟩
    · exact .inl ⟨_, least_toA hs h1, rfl⟩
    · exact .inr ⟨none_avail hs h1, rfl⟩
  | getAll =>
    obtain ⟨rfl, es, h1, rfl⟩ := h
    obtain ⟨as, h2, h3⟩ := routes_toA hs hin h1
    refine ⟨rfl, as, h2, ?_⟩
    simp only [ofR, h3]
    rw [List.filter_eq_self.2 (fun _ _ => rfl)]
  | getByLabel sel =>
    obtain ⟨rfl, es, h1, rfl⟩ := h
    obtain ⟨as, h2, h3⟩ := routes_toA hs hin h1
    exact ⟨rfl, as, h2, by simp only [ofR, h3]⟩

theorem run_toA {len1 len2 : Nat} {m m' : LMap R} {cs : List (ICall R)} {rs : List (RReply R)}
    (h : RRun 0 (num hi - num lo) len1 len2 m (cs.map (ICall.toR (textId parse lo hi))) rs m')
    (hin : ∀ i, m i ≠ none → InR 0 (num hi - num lo) i) :
    IRun parse lo hi (toA lo hi m) cs (rs.map (ofR lo)) (toA lo hi m') := by
  induction cs generalizing m rs with
  | nil => cases h; exact .nil _
  | cons c cs ih =>
    cases h with
    | cons h1 h2 => exact .cons (step_toA hs hin c h1) (ih h2 (h1.inR hin))

end

/-- C118: the IP table of a range of fewer than `2^64` addresses, IPv4 or IPv6, replies to every history as the `table64` for
0 to the number of addresses less one replies to the calls about the offsets of the addresses. -/
theorem C118_offsets (hs : SmallRange lo hi) (cs : List (ICall R)) :
    (run parse (new lo hi : IPTab R) cs).2 =
      (Ranged.run (Ranged.new (BitVec.ofNat _ 0) (BitVec.ofNat _ (num hi - num lo)) : Ranged.RTable Ranged.w64 R)
        (cs.map (ICall.toR (textId parse lo hi)))).2.map (ofR lo) := by
  have hn : num hi - num lo + 1 < 2 ^ 64 := (mid_of_small hs).2
  have e1 : (BitVec.ofNat Ranged.w64.W 0).toNat = 0 := rfl
  have e2 : (BitVec.ofNat Ranged.w64.W (num hi - num lo)).toNat = num hi - num lo := by
    rw [BitVec.toNat_ofNat]
    exact Nat.mod_eq_of_lt (show _ < 2 ^ 64 by omega)
  obtain ⟨_, h1⟩ := C23_ip_partial_map (parse := parse) hs cs
  obtain ⟨_, h2⟩ := Ranged.C15_ranged_partial_map (.inr (.inr rfl)) (BitVec.ofNat Ranged.w64.W 0)
    (BitVec.ofNat Ranged.w64.W (num hi - num lo)) (by unfold Ranged.Proper; rw [e1, e2]; exact ⟨Nat.zero_le _, hn⟩)
    (cs.map (ICall.toR (textId parse lo hi)))
  rw [e1, e2] at h2
  have h3 := run_toA hs h2 (fun i hi => absurd rfl hi)
  have e3 : toA lo hi (fun _ => none : LMap R) = fun _ => none := by funext a; unfold toA; split <;> rfl
  rw [e3] at h3
  exact (C23_run_deterministic (fun a h => absurd rfl h) h1 h3).1

-- in the table of 10.0.0.0 to 10.0.0.3, 10.0.0.1 has id 1
example : SmallRange (.v4 0x0a000000) (.v4 0x0a000003) ∧ textId exParse (.v4 0x0a000000) (.v4 0x0a000003) "10.0.0.1" = 1 := by
  refine ⟨exI_small, (textId_in (a := .v4 0x0a000001) exI_small rfl ⟨by decide, by decide⟩).trans ?_⟩
  decide

/-! ### Two IP tables -/

/-- the same call with other texts -/
def ICall.rename (τ : String → String) : ICall R → ICall R
  | .get x => .get (τ x)
  | .claim x d => .claim (τ x) d
  | .release x => .release (τ x)
  | .update x d => .update (τ x) d
  | .has x => .has (τ x)
  | .isFree x => .isFree (τ x)
  | c => c

/-- the reply with the address at the same offset from `lo'` in place of one at an offset from `lo` -/
def IReply.move (lo lo' : Addr) : IReply R → IReply R
  | .addr a => .addr (addrAt lo' (num a - num lo))
  | r => r

/-- `y` denotes the address of the second range at the offset that the address denoted by `x` has in the first; or neither
denotes an address of its range -/
def SamePlace (parse parse' : String → Option Addr) (lo hi lo' hi' : Addr) (x y : String) : Prop :=
  (∃ a b, parse x = some a ∧ InIP lo hi a ∧ parse' y = some b ∧ InIP lo' hi' b ∧ num a - num lo = num b - num lo') ∨
  ((∀ a, parse x = some a → ¬ InIP lo hi a) ∧ ∀ b, parse' y = some b → ¬ InIP lo' hi' b)

/-- what two tables of ranges with the same number of addresses have in common -/
structure Twin (lo hi lo' hi' : Addr) (r r' : IPTab R) : Prop where
  rng : r.ipRange = ipRangeFrom lo hi
  rng' : r'.ipRange = ipRangeFrom lo' hi'
  tab : r'.tab = r.tab
  size : r.tab.size.toNat = (num hi - num lo + 1) % 2 ^ 64

theorem index_of_in {a : Addr} (h : InIP lo hi a) : calculateIndex a lo.noZone = BitVec.ofNat 64 (num a - num lo) := by
  unfold calculateIndex
  congr 1
  match lo, hi, a, h with
  | .v4 f, .v4 t, .v4 b, h =>
    obtain ⟨h1, h2⟩ : f.toNat ≤ b.toNat ∧ b.toNat ≤ t.toNat := h
    simp only [Addr.noZone, ipToInt_v4, num]
    omega
  | .v6 f _, .v6 t _, .v6 b _, h =>
    obtain ⟨h1, h2, _⟩ : f.toNat ≤ b.toNat ∧ b.toNat ≤ t.toNat ∧ _ := h
    simp only [Addr.noZone, ipToInt_v6, num]
    omega

theorem numIPs_of_in {a : Addr} (h : InIP lo hi a) : (numIPs lo hi).toNat = (num hi - num lo + 1) % 2 ^ 64 := by
  have one : (1 : U64).toNat = 1 := rfl
  match lo, hi, a, h with
  | .v4 f, .v4 t, .v4 b, h =>
    obtain ⟨h1, h2⟩ : f.toNat ≤ b.toNat ∧ b.toNat ≤ t.toNat := h
    unfold numIPs
    simp only [ipToInt_v4, num]
    rw [if_neg (by omega), BitVec.toNat_add, BitVec.toNat_ofNat]
    omega
  | .v6 f _, .v6 t _, .v6 b _, h =>
    obtain ⟨h1, h2, _⟩ : f.toNat ≤ b.toNat ∧ b.toNat ≤ t.toNat ∧ _ := h
    unfold numIPs
    simp only [ipToInt_v6, num]
    rw [if_neg (by omega), BitVec.toNat_add, BitVec.toNat_ofNat]
    omega

theorem fromIndex_of_in {a : Addr} (h : InIP lo hi a) {i : U64} (hi' : i.toNat ≤ num hi - num lo) :
    calculateIPFromIndex lo.noZone i = some (addrAt lo i.toNat) ∧ num (addrAt lo i.toNat) = num lo + i.toNat := by
  match lo, hi, a, h, hi' with
  | .v4 f, .v4 t, .v4 b, h, hi' =>
    obtain ⟨h1, h2⟩ : f.toNat ≤ b.toNat ∧ b.toNat ≤ t.toNat := h
    have hm : MidRange (.v4 f) (.v4 t) := Nat.le_trans h1 h2
    exact ⟨calcIP hm hi', (num_extA hm hi').1⟩
  | .v6 f _, .v6 t _, .v6 b _, h, hi' =>
    obtain ⟨h1, h2, _⟩ : f.toNat ≤ b.toNat ∧ b.toNat ≤ t.toNat ∧ _ := h
    have h3 := t.isLt
    simp only [num] at hi'
    have hlt : f.toNat + i.toNat < 2 ^ 128 := by omega
    refine ⟨?_, ?_⟩
    · unfold calculateIPFromIndex
      simp only [Addr.noZone, ipToInt_v6, if_pos hlt]
      rfl
    · simp only [addrAt, num, BitVec.toNat_ofNat]
      omega

section
variable {parse' : String → Option Addr} {lo' hi' : Addr} {r r' : IPTab R}

theorem twin_about (h : Twin lo hi lo' hi' r r') {x y : String} (hxy : SamePlace parse parse' lo hi lo' hi' x y)
    {c c' : ICall R} (hc : c.about = some x) (hc' : c'.about = some y) (hk : ∀ k, c'.idx k = c.idx k) (hr : c'.refused = c.refused) :
    (step parse' r' c').2 = (step parse r c).2 ∧ Twin lo hi lo' hi' (step parse r c).1 (step parse' r' c').1 := by
  rcases hxy with ⟨a, b, h1, h2, h3, h4, h5⟩ | ⟨h1, h2⟩
  · have v1 : validateIP parse r x = .ok a := by
      unfold validateIP
      rw [h1, h.rng]
      exact if_pos ((contains_iff lo hi a).2 h2)
    have v2 : validateIP parse' r' y = .ok b := by
      unfold validateIP
      rw [h3, h.rng']
      exact if_pos ((contains_iff lo' hi' b).2 h4)
    obtain ⟨_, p1, p2⟩ := about_in hc r v1
    obtain ⟨_, q1, q2⟩ := about_in hc' r' v2
    have e : calculateIndex b r'.ipRange.lo = calculateIndex a r.ipRange.lo := by
      rw [h.rng, h.rng']
      exact (index_of_in h4).trans ((congrArg _ h5.symm).trans (index_of_in h2).symm)
    rw [p1, p2, q1, q2, e, hk, h.tab]
    refine ⟨rfl, h.rng, h.rng', rfl, ?_⟩
    rw [← h.size]
    exact congrArg _ (IdxTable.step_size r.tab _)
  · have v1 : ∀ a, validateIP parse r x ≠ .ok a := by
      intro a ha
      obtain ⟨e, he⟩ := validate_out (parse := parse) h.rng h1
      rw [he] at ha; cases ha
    have v2 : ∀ a, validateIP parse' r' y ≠ .ok a := by
      intro a ha
      obtain ⟨e, he⟩ := validate_out (parse := parse') h.rng' h2
      rw [he] at ha; cases ha
    rw [about_out hc r v1, about_out hc' r' v2, hr]
    exact ⟨rfl, h⟩

theorem twin_step (hne : ∃ a, InIP lo hi a) (hne' : ∃ b, InIP lo' hi' b) (hn : num hi - num lo = num hi' - num lo')
    {τ : String → String} (hτ : ∀ x, SamePlace parse parse' lo hi lo' hi' x (τ x)) (h : Twin lo hi lo' hi' r r') (c : ICall R) :
    (step parse' r' (c.rename τ)).2 = ((step parse r c).2).move lo lo' ∧
    Twin lo hi lo' hi' (step parse r c).1 (step parse' r' (c.rename τ)).1 := by
  have nomove : ∀ {c : ICall R} {x}, c.about = some x → ((step parse r c).2).move lo lo' = (step parse r c).2 := by
    intro c x hc
    cases hv : validateIP parse r x with
    | error e =>
      rw [about_out hc r (by intro ip hi; rw [hv] at hi; cases hi)]
      cases c <;> rfl
    | ok ip =>
      rw [(about_in hc r hv).2.1]
      cases (IdxTable.step r.tab (c.idx (calculateIndex ip r.ipRange.lo))).2 <;> rfl
  have key : ∀ {c : ICall R} {x}, c.about = some x → (c.rename τ).about = some (τ x) → (∀ k, (c.rename τ).idx k = c.idx k) →
      (c.rename τ).refused = c.refused → (step parse' r' (c.rename τ)).2 = ((step parse r c).2).move lo lo' ∧
        Twin lo hi lo' hi' (step parse r c).1 (step parse' r' (c.rename τ)).1 := by
    intro c x h1 h2 h3 h4
    rw [nomove h1]
    exact twin_about h (hτ x) h1 h2 h3 h4
  cases c with
  | get x => exact key rfl rfl (fun _ => rfl) rfl
  | claim x d => exact key rfl rfl (fun _ => rfl) rfl
  | release x => exact key rfl rfl (fun _ => rfl) rfl
  | update x d => exact key rfl rfl (fun _ => rfl) rfl
  | has x => exact key rfl rfl (fun _ => rfl) rfl
  | isFree x => exact key rfl rfl (fun _ => rfl) rfl
  | size =>
    refine ⟨?_, h⟩
    simp only [ICall.rename, step, sizeOf, h.tab, IReply.move]
  | findFree =>
    refine ⟨?_, h⟩
    obtain ⟨a, ha⟩ := hne
    obtain ⟨b, hb⟩ := hne'
    simp only [ICall.rename, step, findFree, h.tab, h.rng, h.rng', ipRangeFrom]
    cases hf : IdxTable.findFree r.tab with
    | error e => rfl
    | ok i =>
      have hi' : i.toNat ≤ num hi - num lo := by
        rw [IdxTable.findFree_eq] at hf
        split at hf
        · cases hf
        · rename_i k ks hk
          cases hf
          have : i ∈ IdxTable.freeKeys r.tab := by rw [hk]; exact List.mem_cons_self
          have := ((IdxTable.mem_freeKeys r.tab i).1 this).1
          rw [BitVec.lt_def, h.size] at this
          have h2 := Nat.mod_le (num hi - num lo + 1) (2 ^ 64)
          omega
      obtain ⟨e1, e2⟩ := fromIndex_of_in ha hi'
      obtain ⟨e3, _⟩ := fromIndex_of_in hb (hn ▸ hi')
      simp only [e1, e3, IReply.move, e2, Nat.add_sub_cancel_left]
  | getAll =>
    refine ⟨?_, h⟩
    simp only [ICall.rename, step, getAll, h.tab]
    cases getAllLoop (IdxTable.getAll r.tab) <;> rfl
  | getByLabel sel =>
    refine ⟨?_, h⟩
    have : getByLabel r' sel = getByLabel r sel := by unfold getByLabel; rw [h.tab]
    simp only [ICall.rename, step, this]
    cases getByLabel r sel <;> rfl

end

/-- C118: IP tables of two ranges with the same number of addresses, IPv4 or IPv6 and of any size, reply alike to every history
and the same history about the addresses at the same places. -/
theorem C118_place {parse' : String → Option Addr} {lo' hi' : Addr} (hne : ∃ a, InIP lo hi a) (hne' : ∃ b, InIP lo' hi' b)
    (hn : num hi - num lo = num hi' - num lo') (τ : String → String)
    (hτ : ∀ x, SamePlace parse parse' lo hi lo' hi' x (τ x)) (cs : List (ICall R)) :
    (run parse' (new lo' hi' : IPTab R) (cs.map (ICall.rename τ))).2 =
      (run parse (new lo hi : IPTab R) cs).2.map (IReply.move lo lo') := by
  have main : ∀ (cs : List (ICall R)) {r r' : IPTab R}, Twin lo hi lo' hi' r r' →
      (run parse' r' (cs.map (ICall.rename τ))).2 = (run parse r cs).2.map (IReply.move lo lo') := by
    intro cs
    induction cs with
    | nil => intro _ _ _; rfl
    | cons c cs ih =>
      intro r r' h
      obtain ⟨h1, h2⟩ := twin_step hne hne' hn hτ h c
      simp only [List.map_cons, run, h1, ih h2]
  obtain ⟨a, ha⟩ := hne
  obtain ⟨b, hb⟩ := hne'
  refine main cs ⟨rfl, rfl, ?_, numIPs_of_in ha⟩
  have : numIPs lo' hi' = numIPs lo hi := BitVec.eq_of_toNat_eq (by rw [numIPs_of_in ha, numIPs_of_in hb, hn])
  simp only [new, this]

/-- texts for the four addresses from 10.0.0.0 and from ::1 -/
def exParse6 : String → Option Addr
  | "::1" => some (.v6 1 "")
  | "::2" => some (.v6 2 "")
  | _ => none

def exTo6 : String → String
  | "10.0.0.0" => "::1"
  | "10.0.0.1" => "::2"
  | _ => "x"

-- the tables of 10.0.0.0 to 10.0.0.3 and of ::1 to ::4
example : (∃ a, InIP (.v4 0x0a000000) (.v4 0x0a000003) a) ∧ (∃ b, InIP (.v6 1 "") (.v6 4 "") b) ∧
    num (.v4 0x0a000003) - num (.v4 0x0a000000) = num (.v6 4 "") - num (.v6 1 "") ∧
    ∀ x, SamePlace exParse exParse6 (.v4 0x0a000000) (.v4 0x0a000003) (.v6 1 "") (.v6 4 "") x (exTo6 x) := by
  refine ⟨⟨.v4 0x0a000000, by decide, by decide⟩, ⟨.v6 1 "", by decide, by decide, rfl⟩, by decide, fun x => ?_⟩
  by_cases h1 : x = "10.0.0.0"
  · subst h1; exact .inl ⟨_, _, rfl, ⟨by decide, by decide⟩, rfl, ⟨by decide, by decide, rfl⟩, by decide⟩
  by_cases h2 : x = "10.0.0.1"
  · subst h2; exact .inl ⟨_, _, rfl, ⟨by decide, by decide⟩, rfl, ⟨by decide, by decide, rfl⟩, by decide⟩
  · have e : exTo6 x = "x" := by unfold exTo6; split <;> first | rfl | contradiction
    refine .inr ⟨?_, ?_⟩
    · intro a ha
      unfold exParse at ha
      split at ha
      · contradiction
      · contradiction
      · cases ha; exact id
      · cases ha; exact id
      · cases ha
    · intro b hb
      rw [e] at hb
      exact absurd hb (by simp [exParse6])

end Verif.IPTable
