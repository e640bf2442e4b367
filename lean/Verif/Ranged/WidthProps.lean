import Verif.Ranged.Props

/-! Property C115: tables of the three packages over the same range behave alike. -/

namespace Verif.Ranged
open Verif.IdxTable (U64)
variable {L : Type}

/-- a reply without the length of ids in its entries (for these see `C95`) -/
def noLen : RReply L → RReply L
  | .entry e => .entry { e with len := 0 }
  | .entries es => .entries (es.map fun e => { e with len := 0 })
  | r => r

theorem lists_noLen {len : Nat} {s : LMap L} {sel : L → Bool} {es : List (TEntry L)} (h : Lists len s sel es) :
    Lists 0 s sel (es.map fun e => { e with len := 0 }) := by
  obtain ⟨h1, h2⟩ := h
  refine ⟨?_, ?_⟩
  · rw [List.map_map]; exact h1
  · intro e
    rw [List.mem_map]
    constructor
    · rintro ⟨e', he', rfl⟩
      obtain ⟨a, _, b⟩ := (h2 e').1 he'
      exact ⟨a, rfl, b⟩
    · rintro ⟨a, b, c⟩
      refine ⟨{ e with len := len }, (h2 _).2 ⟨a, rfl, c⟩, ?_⟩
      cases e
      simp only at b
      subst b
      rfl

theorem RStep.noLen {start stop len1 len2 : Nat} {s s' : LMap L} {c : RCall L} {r : RReply L}
    (h : RStep start stop len1 len2 s c s' r) : RStep start stop 0 0 s c s' (noLen r) := by
  cases c with
  | get id =>
    obtain ⟨rfl, a, b⟩ := h
    refine ⟨rfl, fun l hl => by rw [a l hl]; rfl, fun hn => by rw [b hn]; rfl⟩
  | claim id l => rcases h with ⟨a, rfl, rfl⟩ | ⟨a, rfl, rfl⟩; exacts [.inl ⟨a, rfl, rfl⟩, .inr ⟨a, rfl, rfl⟩]
  | claimFree l => rcases h with ⟨i, a, rfl, rfl⟩ | ⟨a, rfl, rfl⟩; exacts [.inl ⟨i, a, rfl, rfl⟩, .inr ⟨a, rfl, rfl⟩]
  | release id => rcases h with ⟨a, rfl, rfl⟩ | ⟨a, rfl, rfl⟩; exacts [.inl ⟨a, rfl, rfl⟩, .inr ⟨a, rfl, rfl⟩]
  | update id l => rcases h with ⟨a, rfl, rfl⟩ | ⟨a, rfl, rfl⟩; exacts [.inl ⟨a, rfl, rfl⟩, .inr ⟨a, rfl, rfl⟩]
  | size => obtain ⟨rfl, ids, a, b, rfl⟩ := h; exact ⟨rfl, ids, a, b, rfl⟩
  | has id => obtain ⟨rfl, b, a, rfl⟩ := h; exact ⟨rfl, b, a, rfl⟩
  | isFree id => obtain ⟨rfl, b, a, rfl⟩ := h; exact ⟨rfl, b, a, rfl⟩
  | findFree =>
    obtain ⟨rfl, h⟩ := h
    rcases h with ⟨i, a, rfl⟩ | ⟨a, rfl⟩
    · exact ⟨rfl, .inl ⟨i, a, rfl⟩⟩
    · exact ⟨rfl, .inr ⟨a, rfl⟩⟩
  | getAll => obtain ⟨rfl, es, a, rfl⟩ := h; exact ⟨rfl, _, lists_noLen a, rfl⟩
  | getByLabel sel => obtain ⟨rfl, es, a, rfl⟩ := h; exact ⟨rfl, _, lists_noLen a, rfl⟩

theorem rrun_same {start stop a b c d : Nat} {s s₁ s₂ : LMap L} {cs : List (RCall L)} {rs₁ rs₂ : List (RReply L)}
    (h₁ : RRun start stop a b s cs rs₁ s₁) (h₂ : RRun start stop c d s cs rs₂ s₂) : rs₁.map noLen = rs₂.map noLen := by
  induction h₁ generalizing rs₂ s₂ with
  | nil => cases h₂; rfl
  | cons hs _ ih =>
    cases h₂ with
    | cons hs' h' =>
      obtain ⟨rfl, e⟩ := C15_spec_deterministic hs.noLen hs'.noLen
      rw [List.map_cons, List.map_cons, e, ih h']

/-- C115, part that holds: the tables of any two of the packages for the same range give the same replies to every history,
apart from the lengths in entries, if the range is not the full one of either package. Missing: full ranges (violated
below). -/
theorem C115_widths_partial {P P' : Width} (hP : IsPkg P) (hP' : IsPkg P') (start stop : Nat) (hle : start ≤ stop)
    (h : stop < 2 ^ P.W ∧ stop - start + 1 < 2 ^ P.W) (h' : stop < 2 ^ P'.W ∧ stop - start + 1 < 2 ^ P'.W) (cs : List (RCall L)) :
    (run (new (BitVec.ofNat _ start) (BitVec.ofNat _ stop) : RTable P L) cs).2.map noLen =
      (run (new (BitVec.ofNat _ start) (BitVec.ofNat _ stop) : RTable P' L) cs).2.map noLen := by
  have main : ∀ {P : Width}, IsPkg P → stop < 2 ^ P.W ∧ stop - start + 1 < 2 ^ P.W → ∃ s',
      RRun start stop P.W (max P.W 32) (fun _ => none) cs
        (run (new (BitVec.ofNat _ start) (BitVec.ofNat _ stop) : RTable P L) cs).2 s' := by
    intro P hP h
    have e1 : (BitVec.ofNat P.W start).toNat = start := by rw [BitVec.toNat_ofNat, Nat.mod_eq_of_lt (by omega)]
    have e2 : (BitVec.ofNat P.W stop).toNat = stop := by rw [BitVec.toNat_ofNat, Nat.mod_eq_of_lt h.1]
    have := C15_ranged_partial_map hP (BitVec.ofNat P.W start) (BitVec.ofNat P.W stop)
      (by unfold Proper; rw [e1, e2]; exact ⟨hle, h.2⟩) cs
    rw [e1, e2] at this
    exact this
  obtain ⟨_, r1⟩ := main hP h
  obtain ⟨_, r2⟩ := main hP' h'
  exact rrun_same r1 r2

/-- C115, violated: for 0 to 65535 `FindFree` of a table16 fails, that of a table32 returns 0. -/
theorem C115_full_violated :
    (step (new (BitVec.ofNat _ 0) (BitVec.ofNat _ 65535) : RTable w16 L) .findFree).2 = .err ∧
    (step (new (BitVec.ofNat _ 0) (BitVec.ofNat _ 65535) : RTable w32 L) .findFree).2 = .id 0 := by
  constructor
  · obtain ⟨e, he⟩ := full_findFree (P := w16) (L := L) (r := new 0 (-1)) ⟨.inl rfl, [], rfl⟩
    have he : findFree (new (BitVec.ofNat _ 0) (BitVec.ofNat _ 65535) : RTable w16 L) = .error e := he
    simp only [step, he]
  · have hp : Proper (P := w32) (BitVec.ofNat _ 0) (BitVec.ofNat _ 65535) := by unfold Proper; decide
    obtain ⟨s', h⟩ := C15_ranged_partial_map (L := L) (.inr (.inl rfl)) _ _ hp [.findFree]
    rw [run] at h
    cases h with
    | cons h _ =>
      have h0 : AvailR (BitVec.ofNat w32.W 0).toNat (BitVec.ofNat w32.W 65535).toNat (fun _ => none : LMap L) 0 := by
        refine ⟨?_, rfl⟩
        decide
      rcases h.2 with ⟨i, a, b⟩ | ⟨a, _⟩
      · rw [b]
        have := a.2 0 h0
        rw [BitVec.le_def] at this
        have : i = 0 := BitVec.eq_of_toNat_eq (Nat.le_zero.1 this)
        rw [this]
      · exact absurd h0 (a 0)

-- the range 10 to 20 is a proper one of all three packages
example : IsPkg w16 ∧ IsPkg w32 ∧ IsPkg w64 ∧ 20 < 2 ^ w16.W ∧ 20 - 10 + 1 < 2 ^ w16.W := by
  refine ⟨.inl rfl, .inr (.inl rfl), .inr (.inr rfl), by decide, by decide⟩

end Verif.Ranged
