import Verif.Ranged.WidthProps

/-! Property C117: where the range of a table starts makes no difference. -/

namespace Verif.Ranged
open Verif.IdxTable (U64 Ascending)
variable {L : Type}

/-! ### Specification -/

/-- the same call about ids that are larger by `k` (as `uint64`) -/
def RCall.shift (k : U64) : RCall L → RCall L
  | .get id => .get (id + k)
  | .claim id l => .claim (id + k) l
  | .release id => .release (id + k)
  | .update id l => .update (id + k) l
  | .has id => .has (id + k)
  | .isFree id => .isFree (id + k)
  | c => c

def TEntry.shift (k : U64) (e : TEntry L) : TEntry L := { e with id := e.id + k }

/-- the reply about ids that are larger by `k` -/
def RReply.shift (k : U64) : RReply L → RReply L
  | .entry e => .entry (e.shift k)
  | .entries es => .entries (es.map (TEntry.shift k))
  | .id i => .id (i + k)
  | r => r

/-! ### Proof -/

/-- the same map with larger ids -/
def LMap.shift (k : U64) (s : LMap L) : LMap L := fun i => s (i - k)

theorem LMap.shift_add (k : U64) (s : LMap L) (i : U64) : s.shift k (i + k) = s i := by
  unfold LMap.shift
  rw [BitVec.add_sub_cancel]

theorem LMap.shift_put (k : U64) (s : LMap L) (i : U64) (l : L) : (s.put i l).shift k = (s.shift k).put (i + k) l := by
  funext j
  unfold LMap.shift LMap.put
  by_cases h : j = i + k
  · rw [if_pos h, if_pos (by rw [h, BitVec.add_sub_cancel])]
  · rw [if_neg h, if_neg (fun h' => h (by rw [← h', BitVec.sub_add_cancel]))]

theorem LMap.shift_drop (k : U64) (s : LMap L) (i : U64) : (s.drop i).shift k = (s.shift k).drop (i + k) := by
  funext j
  unfold LMap.shift LMap.drop
  by_cases h : j = i + k
  · rw [if_pos h, if_pos (by rw [h, BitVec.add_sub_cancel])]
  · rw [if_neg h, if_neg (fun h' => h (by rw [← h', BitVec.sub_add_cancel]))]

section
variable {start stop k : Nat} {K : U64}

theorem inR_shift (hK : K.toNat = k) (hlt : stop + k < 2 ^ 64) (i : U64) :
    InR (start + k) (stop + k) (i + K) ↔ InR start stop i := by
  unfold InR
  rw [BitVec.toNat_add, hK]
  have := i.isLt
  by_cases h : i.toNat + k < 2 ^ 64
  · rw [Nat.mod_eq_of_lt h]; omega
  · have h2 : (i.toNat + k) % 2 ^ 64 = i.toNat + k - 2 ^ 64 := by
      rw [Nat.mod_eq_sub_mod (by omega), Nat.mod_eq_of_lt (by omega)]
    rw [h2]; omega

/-- in the range the order is kept -/
theorem le_shift (hK : K.toNat = k) (hlt : stop + k < 2 ^ 64) {i j : U64} (hi : InR start stop i) (hj : InR start stop j) :
    (i + K).toNat = i.toNat + k ∧ (j + K).toNat = j.toNat + k := by
  obtain ⟨_, h1⟩ := hi
  obtain ⟨_, h2⟩ := hj
  rw [BitVec.toNat_add, BitVec.toNat_add, hK, Nat.mod_eq_of_lt (by omega), Nat.mod_eq_of_lt (by omega)]
  exact ⟨rfl, rfl⟩

theorem avail_shift (hK : K.toNat = k) (hlt : stop + k < 2 ^ 64) {s : LMap L} (i : U64) :
    AvailR (start + k) (stop + k) (s.shift K) (i + K) ↔ AvailR start stop s i := by
  unfold AvailR
  rw [inR_shift hK hlt, LMap.shift_add]

theorem all_shift {p : U64 → Prop} (h : ∀ i, p (i + K)) (j : U64) : p j := by
  have := h (j - K)
  rwa [BitVec.sub_add_cancel] at this

theorem least_shift (hK : K.toNat = k) (hlt : stop + k < 2 ^ 64) {s : LMap L} {i : U64} (h : LeastR start stop s i) :
    LeastR (start + k) (stop + k) (s.shift K) (i + K) := by
  refine ⟨(avail_shift hK hlt i).2 h.1, all_shift (K := K) fun j hj => ?_⟩
  have hj := (avail_shift hK hlt j).1 hj
  have h1 := le_shift hK hlt h.1.1 hj.1
  have h2 := h.2 j hj
  rw [BitVec.le_def] at h2 ⊢
  omega

theorem RStep.inR {len1 len2 : Nat} {s s' : LMap L} {c : RCall L} {r : RReply L} (h : RStep start stop len1 len2 s c s' r)
    (hin : ∀ i, s i ≠ none → InR start stop i) : ∀ i, s' i ≠ none → InR start stop i := by
  have put : ∀ {id l}, InR start stop id → ∀ i, s.put id l i ≠ none → InR start stop i := by
    intro id l hid i hi
    unfold LMap.put at hi
    by_cases h : i = id
    · rw [h]; exact hid
    · rw [if_neg h] at hi; exact hin i hi
  cases c with
  | get id => rw [h.1]; exact hin
  | claim id l => rcases h with ⟨a, rfl, rfl⟩ | ⟨a, rfl, rfl⟩; exacts [put a.1, hin]
  | claimFree l => rcases h with ⟨i, a, rfl, rfl⟩ | ⟨a, rfl, rfl⟩; exacts [put a.1.1, hin]
  | release id =>
    rcases h with ⟨a, rfl, rfl⟩ | ⟨a, rfl, rfl⟩
    · intro i hi
      unfold LMap.drop at hi
      by_cases h : i = id
      · rw [if_pos h] at hi; exact absurd rfl hi
      · rw [if_neg h] at hi; exact hin i hi
    · exact hin
  | update id l => rcases h with ⟨a, rfl, rfl⟩ | ⟨a, rfl, rfl⟩; exacts [put (hin _ a), hin]
  | size => rw [h.1]; exact hin
  | has id => rw [h.1]; exact hin
  | isFree id => rw [h.1]; exact hin
  | findFree => rw [h.1]; exact hin
  | getAll => rw [h.1]; exact hin
  | getByLabel sel => rw [h.1]; exact hin

theorem ascending_shift (hK : K.toNat = k) (hlt : stop + k < 2 ^ 64) {l : List U64} (hl : ∀ i ∈ l, InR start stop i)
    (h : Ascending l) : Ascending (l.map (· + K)) := by
  unfold Ascending at h ⊢
  rw [List.pairwise_map]
  refine h.imp_of_mem ?_
  intro a b ha hb hab
  have h1 := le_shift hK hlt (hl a ha) (hl b hb)
  rw [BitVec.lt_def] at hab ⊢
  omega

theorem lists_shift (hK : K.toNat = k) (hlt : stop + k < 2 ^ 64) {len : Nat} {s : LMap L} {sel : L → Bool}
    (hin : ∀ i, s i ≠ none → InR start stop i) {es : List (TEntry L)} (h : Lists len s sel es) :
    Lists len (s.shift K) sel (es.map (TEntry.shift K)) := by
  obtain ⟨h1, h2⟩ := h
  refine ⟨?_, ?_⟩
  · have := ascending_shift hK hlt (l := es.map TEntry.id) (by
      intro i hi
      obtain ⟨e, he, rfl⟩ := List.mem_map.1 hi
      exact hin _ (by rw [((h2 e).1 he).1]; simp)) h1
    rw [List.map_map] at this ⊢
    exact this
  · intro e
    rw [List.mem_map]
    constructor
    · rintro ⟨e', he', rfl⟩
      obtain ⟨a, b, c⟩ := (h2 e').1 he'
      exact ⟨(LMap.shift_add K s e'.id).trans a, b, c⟩
    · rintro ⟨a, b, c⟩
      refine ⟨{ e with id := e.id - K }, (h2 _).2 ⟨a, b, c⟩, ?_⟩
      unfold TEntry.shift
      cases e
      simp only [BitVec.sub_add_cancel]

theorem RStep.shift (hK : K.toNat = k) (hlt : stop + k < 2 ^ 64) {len1 len2 : Nat} {s s' : LMap L} {c : RCall L} {r : RReply L}
    (hin : ∀ i, s i ≠ none → InR start stop i) (h : RStep start stop len1 len2 s c s' r) :
    RStep (start + k) (stop + k) len1 len2 (s.shift K) (c.shift K) (s'.shift K) (r.shift K) := by
  cases c with
  | get id =>
    obtain ⟨rfl, a, b⟩ := h
    refine ⟨rfl, fun l hl => ?_, fun hn => ?_⟩
    · rw [a l (by rwa [LMap.shift_add] at hl)]; rfl
    · rw [b (by rwa [LMap.shift_add] at hn)]; rfl
  | claim id l =>
    rcases h with ⟨a, rfl, rfl⟩ | ⟨a, rfl, rfl⟩
    · exact .inl ⟨(avail_shift hK hlt id).2 a, LMap.shift_put .., rfl⟩
    · exact .inr ⟨fun h => a ((avail_shift hK hlt id).1 h), rfl, rfl⟩
  | claimFree l =>
    rcases h with ⟨i, a, rfl, rfl⟩ | ⟨a, rfl, rfl⟩
    · exact .inl ⟨i + K, least_shift hK hlt a, LMap.shift_put .., rfl⟩
    · exact .inr ⟨all_shift (K := K) fun i h => a i ((avail_shift hK hlt i).1 h), rfl, rfl⟩
  | release id =>
    rcases h with ⟨a, rfl, rfl⟩ | ⟨a, rfl, rfl⟩
    · exact .inl ⟨(inR_shift hK hlt id).2 a, LMap.shift_drop .., rfl⟩
    · exact .inr ⟨fun h => a ((inR_shift hK hlt id).1 h), rfl, rfl⟩
  | update id l =>
    rcases h with ⟨a, rfl, rfl⟩ | ⟨a, rfl, rfl⟩
    · exact .inl ⟨by rwa [LMap.shift_add], LMap.shift_put .., rfl⟩
    · exact .inr ⟨by rwa [LMap.shift_add], rfl, rfl⟩
  | size =>
    obtain ⟨rfl, ids, a, b, rfl⟩ := h
    refine ⟨rfl, ids.map (· + K), ascending_shift hK hlt (fun i hi => hin i ((b i).1 hi)) a, ?_, by rw [List.length_map]; rfl⟩
    intro i
    rw [List.mem_map]
    constructor
    · rintro ⟨j, hj, rfl⟩
      rw [LMap.shift_add]
      exact (b j).1 hj
    · intro hi
      exact ⟨i - K, (b _).2 hi, BitVec.sub_add_cancel _ _⟩
  | has id =>
    obtain ⟨rfl, b, a, rfl⟩ := h
    exact ⟨rfl, b, by rw [LMap.shift_add]; exact a, rfl⟩
  | isFree id =>
    obtain ⟨rfl, b, a, rfl⟩ := h
    exact ⟨rfl, b, by rw [avail_shift hK hlt]; exact a, rfl⟩
  | findFree =>
    obtain ⟨rfl, h⟩ := h
    refine ⟨rfl, ?_⟩
    rcases h with ⟨i, a, rfl⟩ | ⟨a, rfl⟩
    · exact .inl ⟨i + K, least_shift hK hlt a, rfl⟩
    · exact .inr ⟨all_shift (K := K) fun i h => a i ((avail_shift hK hlt i).1 h), rfl⟩
  | getAll => obtain ⟨rfl, es, a, rfl⟩ := h; exact ⟨rfl, _, lists_shift hK hlt hin a, rfl⟩
  | getByLabel sel => obtain ⟨rfl, es, a, rfl⟩ := h; exact ⟨rfl, _, lists_shift hK hlt hin a, rfl⟩

theorem RRun.shift (hK : K.toNat = k) (hlt : stop + k < 2 ^ 64) {len1 len2 : Nat} {s s' : LMap L} {cs : List (RCall L)}
    {rs : List (RReply L)} (h : RRun start stop len1 len2 s cs rs s') (hin : ∀ i, s i ≠ none → InR start stop i) :
    RRun (start + k) (stop + k) len1 len2 (s.shift K) (cs.map (RCall.shift K)) (rs.map (RReply.shift K)) (s'.shift K) := by
  induction h with
  | nil => exact .nil _
  | cons hs _ ih => exact .cons (hs.shift hK hlt hin) (ih (hs.inR hin))

theorem rrun_det {len1 len2 : Nat} {s s₁ s₂ : LMap L} {cs : List (RCall L)} {rs₁ rs₂ : List (RReply L)}
    (h₁ : RRun start stop len1 len2 s cs rs₁ s₁) (h₂ : RRun start stop len1 len2 s cs rs₂ s₂) : rs₁ = rs₂ := by
  induction h₁ generalizing rs₂ s₂ with
  | nil => cases h₂; rfl
  | cons hs _ ih =>
    cases h₂ with
    | cons hs' h' =>
      obtain ⟨rfl, rfl⟩ := C15_spec_deterministic hs hs'
      rw [ih h']

end

theorem shift_zero (cs : List (RCall L)) (rs : List (RReply L)) : cs.map (RCall.shift 0#64) = cs ∧ rs.map (RReply.shift 0#64) = rs := by
  have he : ∀ e : TEntry L, TEntry.shift 0#64 e = e := fun e => by unfold TEntry.shift; rw [BitVec.add_zero]
  constructor
  · refine (List.map_congr_left (g := fun c => c) fun c _ => ?_).trans (List.map_id' cs)
    cases c <;> simp only [RCall.shift, BitVec.add_zero]
  · refine (List.map_congr_left (g := fun c => c) fun c _ => ?_).trans (List.map_id' rs)
    cases c with
    | entry e => simp only [RReply.shift, he]
    | entries es => simp only [RReply.shift]; rw [List.map_congr_left (g := fun c => c) fun c _ => he c, List.map_id']
    | id i => simp only [RReply.shift, BitVec.add_zero]
    | _ => rfl

/-- C117: a table whose range starts and ends `k` later gives the same replies to calls about ids larger by `k`, with ids
larger by `k`; for all histories and ids, also ids outside the range. -/
theorem C117_shift {P : Width} (hP : IsPkg P) (start stop k : Nat) (hle : start ≤ stop) (hlt : stop + k < 2 ^ P.W)
    (cs : List (RCall L)) :
    (run (new (BitVec.ofNat _ (start + k)) (BitVec.ofNat _ (stop + k)) : RTable P L) (cs.map (RCall.shift (BitVec.ofNat _ k)))).2 =
      (run (new (BitVec.ofNat _ start) (BitVec.ofNat _ stop) : RTable P L) cs).2.map (RReply.shift (BitVec.ofNat _ k)) := by
  by_cases hsz : stop - start + 1 < 2 ^ P.W
  swap
  · obtain rfl : k = 0 := by omega
    rw [show BitVec.ofNat 64 0 = 0#64 from rfl, (shift_zero cs []).1, (shift_zero ([] : List (RCall L)) _).2]
    rfl
  have hW : 2 ^ P.W ≤ 2 ^ 64 := by rcases hP with rfl | rfl | rfl <;> decide
  have main : ∀ (a b : Nat) (cs : List (RCall L)), a ≤ b → b < 2 ^ P.W → b - a + 1 < 2 ^ P.W → ∃ s',
      RRun a b P.W (max P.W 32) (fun _ => none) cs (run (new (BitVec.ofNat _ a) (BitVec.ofNat _ b) : RTable P L) cs).2 s' := by
    intro a b cs h1 h2 h3
    have e1 : (BitVec.ofNat P.W a).toNat = a := by rw [BitVec.toNat_ofNat, Nat.mod_eq_of_lt (by omega)]
    have e2 : (BitVec.ofNat P.W b).toNat = b := by rw [BitVec.toNat_ofNat, Nat.mod_eq_of_lt h2]
    have := C15_ranged_partial_map hP (BitVec.ofNat P.W a) (BitVec.ofNat P.W b)
      (by unfold Proper; rw [e1, e2]; exact ⟨h1, h3⟩) cs
    rw [e1, e2] at this
    exact this
  obtain ⟨_, r1⟩ := main start stop cs hle (by omega) hsz
  obtain ⟨_, r2⟩ := main (start + k) (stop + k) (cs.map (RCall.shift (BitVec.ofNat _ k))) (by omega) hlt (by omega)
  have hk : (BitVec.ofNat 64 k).toNat = k := by rw [BitVec.toNat_ofNat, Nat.mod_eq_of_lt (by omega)]
  exact rrun_det r2 (r1.shift hk (by omega) (fun i hi => absurd rfl hi))

-- the ranges 10 to 20 and 110 to 120: claiming 15 in the first is claiming 115 in the second
example : IsPkg w16 ∧ 10 ≤ 20 ∧ 20 + 100 < 2 ^ w16.W ∧
    RCall.shift (BitVec.ofNat _ 100) (.claim 15 "a") = .claim 115 "a" :=
  ⟨.inl rfl, by decide, by decide, rfl⟩

end Verif.Ranged
