import Mathlib.Data.List.Induction
import Verif.IPTable.Text6

/-!
Property C124: the texts of IPv6 addresses, as the calls of the IP table take them. The grammar is in `Text6.lean`.
-/

namespace Verif.IPTable
variable {R : Type}

/-- the number with these groups -/
def number6 (gs : List Nat) : Nat := gs.foldl (fun n g => 65536 * n + g) 0

/-- the end of the text of an address: nothing, or a percent sign and the zone -/
def ZoneText (z : String) (t : List Char) : Prop := (z = "" ∧ t = []) ∨ (z ≠ "" ∧ t = '%' :: z.toList)

/-! ### Lemmas -/

theorem number6_eq (gs : List Nat) : number6 gs = ofDigits 65536 gs := by
  unfold number6 ofDigits
  congr 1
  funext n g
  rw [Nat.mul_comm]

theorem number6_append (gs : List Nat) (g : Nat) : number6 (gs ++ [g]) = 65536 * number6 gs + g := by
  simp [number6]

theorem number6_lt (gs : List Nat) : (∀ g ∈ gs, g < 65536) → number6 gs < 65536 ^ gs.length := by
  induction gs using List.reverseRecOn with
  | nil => intro _; simp [number6]
  | append_singleton gs g ih =>
    intro h
    have h1 := ih (fun x hx => h x (by simp [hx]))
    have h2 := h g (by simp)
    rw [number6_append, List.length_append, List.length_singleton, Nat.pow_succ]
    omega

theorem Groups.lt {t : List Char} {vs : List Nat} (h : Groups t vs) : ∀ g ∈ vs, g < 65536 := by
  induction h with
  | one h => intro g hg; rw [List.mem_singleton.1 hg]; exact h.lt
  | dotted b =>
    have := b.isLt
    intro g hg
    simp only [List.mem_cons, List.not_mem_nil, or_false] at hg
    omega
  | cons h _ ih =>
    intro g hg
    rcases List.mem_cons.1 hg with rfl | hg
    · exact h.lt
    · exact ih g hg

theorem Groups.chars {t : List Char} {vs : List Nat} (h : Groups t vs) : ∀ c ∈ t, c ≠ '%' := by
  induction h with
  | one h => exact fun c hc => (h.chars c hc).2.2
  | dotted b => rw [← string4_toList]; exact string4_plainChars b
  | cons h _ ih =>
    intro c hc
    rcases List.mem_append.1 hc with hc | hc
    · exact (h.chars c hc).2.2
    · rcases List.mem_cons.1 hc with rfl | hc
      · decide
      · exact ih c hc

theorem Text6.length {t : List Char} {gs : List Nat} (h : Text6 t gs) : gs.length = 8 := by
  cases h with
  | full _ h => exact h
  | short _ _ h => simp only [List.length_append, List.length_replicate]; omega

theorem Text6.lt {t : List Char} {gs : List Nat} (h : Text6 t gs) : number6 gs < 2 ^ 128 := by
  have hg : ∀ g ∈ gs, g < 65536 := by
    cases h with
    | full h _ => exact h.lt
    | @short l ls r rs hl hr _ =>
      intro g hg
      rcases List.mem_append.1 hg with hg | hg
      · rcases List.mem_append.1 hg with hg | hg
        · rcases hl with ⟨_, rfl⟩ | hl
          · cases hg
          · exact hl.groups.lt g hg
        · rw [(List.mem_replicate.1 hg).2]; decide
      · rcases hr with ⟨_, rfl⟩ | hr
        · cases hg
        · exact hr.lt g hg
  have := number6_lt gs hg
  rw [h.length] at this
  exact this

theorem Text6.chars {t : List Char} {gs : List Nat} (h : Text6 t gs) : ∀ c ∈ t, c ≠ '%' := by
  cases h with
  | full h _ => exact h.chars
  | @short l ls r rs hl hr _ =>
    intro c hc
    rcases List.mem_append.1 hc with hc | hc
    · rcases hl with ⟨rfl, _⟩ | hl
      · cases hc
      · exact hl.groups.chars c hc
    · simp only [List.mem_cons] at hc
      rcases hc with rfl | rfl | hc
      · decide
      · decide
      · rcases hr with ⟨rfl, _⟩ | hr
        · cases hc
        · exact hr.chars c hc

/-- the first separator is a colon -/
theorem Text6.colon {t : List Char} {gs : List Nat} (h : Text6 t gs) :
    ∃ ds cs, t = ds ++ ':' :: cs ∧ ∀ c ∈ ds, c ≠ ':' ∧ c ≠ '.' ∧ c ≠ '%' := by
  cases h with
  | full h hl =>
    cases h with
    | one _ => simp at hl
    | dotted b => simp at hl
    | cons h _ => exact ⟨_, _, rfl, h.chars⟩
  | @short l ls r rs hl hr _ =>
    rcases hl with ⟨rfl, _⟩ | hl
    · exact ⟨[], _, rfl, fun c hc => by cases hc⟩
    · cases hl with
      | one h => exact ⟨_, _, rfl, h.chars⟩
      | @cons t v q vs h _ => exact ⟨t, q ++ ':' :: ':' :: r, by simp, h.chars⟩

theorem parseChars_skip (all : List Char) : ∀ (ds cs : List Char), (∀ c ∈ ds, c ≠ ':' ∧ c ≠ '.' ∧ c ≠ '%') →
    parseChars all (ds ++ cs) = parseChars all cs := by
  intro ds
  induction ds with
  | nil => intro cs _; rfl
  | cons d ds ih =>
    intro cs h
    obtain ⟨h1, h2, h3⟩ := h d List.mem_cons_self
    show parseChars all (d :: (ds ++ cs)) = _
    rw [parseChars, if_neg h2, if_neg h1, if_neg h3]
    exact ih cs (fun c hc => h c (List.mem_cons_of_mem _ hc))

theorem parseChars_v6 (all : List Char) : ∀ (s : List Char) {a : BitVec 128} {z : String}, parseChars all s = some (.v6 a z) →
    parseIPv6 all = some (.v6 a z) := by
  intro s
  induction s with
  | nil => intro a z h; cases h
  | cons c cs ih =>
    intro a z h
    rw [parseChars] at h
    split at h
    · obtain ⟨b, hb, _⟩ := parseIPv4_text h
      cases hb
    split at h
    · exact h
    split at h
    · cases h
    · exact ih h

theorem zoneText_iff {z : String} {t : List Char} : ZoneText z t ↔ t = zoneText z := by
  unfold ZoneText zoneText
  split
  · rename_i h; simp [h]
  · rename_i h; simp [h]

/-! ### Theorems -/

/-- **C124** A text denotes an IPv6 address, with or without zone, exactly if it is in the grammar, followed by the zone; the
address is the number with the groups of the text. -/
theorem C124_v6_text {x : String} {a : BitVec 128} {z : String} : parseAddr x = some (.v6 a z) ↔
    ∃ t gs e, x.toList = t ++ e ∧ Text6 t gs ∧ ZoneText z e ∧ a.toNat = number6 gs := by
  constructor
  · intro h
    have h := parseChars_v6 _ _ h
    unfold parseIPv6 at h
    simp only at h
    split at h
    · cases h
    rename_i hz
    rw [Option.map_eq_some_iff] at h
    obtain ⟨gs, h1, h2⟩ := h
    have ht := v6Groups_iff.1 h1
    injection h2 with h2 h3
    refine ⟨_, gs, _, (List.takeWhile_append_dropWhile (p := (· ≠ '%')) (l := x.toList)).symm, ht, ?_, ?_⟩
    · generalize hd : x.toList.dropWhile (· ≠ '%') = e at hz h3 ⊢
      cases e with
      | nil => exact .inl ⟨by rw [← h3]; rfl, rfl⟩
      | cons c cs =>
        have hc : c = '%' := by
          have := List.head_dropWhile_not (p := fun c : Char => decide (c ≠ '%')) (l := x.toList) (by rw [hd]; simp)
          simp only [hd, List.head_cons] at this
          simpa using this
        subst hc
        have hcs : cs ≠ [] := fun e => hz (by rw [e])
        have hz' : z.toList = cs := by rw [← h3]; simp
        refine .inr ⟨?_, by rw [hz']⟩
        rintro rfl
        exact hcs hz'.symm
    · have := ht.lt
      rw [← h2, ← number6_eq, BitVec.toNat_ofNat, Nat.mod_eq_of_lt this]
  · rintro ⟨t, gs, e, hx, ht, hz, ha⟩
    rw [zoneText_iff] at hz
    subst hz
    unfold parseAddr
    obtain ⟨ds, cs, e1, e2⟩ := ht.colon
    have hp : parseChars x.toList x.toList = parseIPv6 x.toList := by
      have : x.toList = ds ++ ':' :: (cs ++ zoneText z) := by rw [hx, e1]; simp
      conv => lhs; arg 2; rw [this]
      rw [parseChars_skip _ _ _ e2, parseChars, if_neg (by decide), if_pos rfl]
    rw [hp, hx]
    exact parseIPv6_text ht.chars (v6Groups_iff.2 ht) (by rw [← number6_eq, ha]) z

/-- leading zeros, capital letters, the last groups as an IPv4 address, `::` for one group, at the start or at the end -/
example : parseAddr "2001:0DB8::00a" = some (.v6 0x20010db800000000000000000000000a "") ∧
    parseAddr "1:2:3:4:5:6:7::" = some (.v6 0x00010002000300040005000600070000 "") ∧
    parseAddr "1:2:3:4:5:6:10.0.0.1" = some (.v6 0x0001000200030004000500060a000001 "") ∧
    parseAddr "::10.0.0.1%eth0" = some (.v6 0x0a000001 "eth0") ∧
    parseAddr "1:2:3:4:5:6:7::8" = none ∧ parseAddr "1::2::3" = none ∧ parseAddr "00001::" = none ∧ parseAddr "1:2:3:4:5:6:7" = none ∧
    parseAddr "10.0.0.1::" = none ∧ parseAddr "::10.0.0.01" = none ∧ parseAddr "::%" = none ∧ parseAddr ":1:2:3:4:5:6:7:8" = none := by decide

/-- a text of the grammar -/
example : Text6 "B::00a".toList [11, 0, 0, 0, 0, 0, 0, 10] := by
  have hb : HexGroup ['B'] 11 := ⟨.snoc (t := []) .nil (d := 11) (by decide), by decide, by decide⟩
  have ha : HexGroup ['0', '0', 'a'] 10 :=
    ⟨.snoc (t := ['0', '0']) (.snoc (t := ['0']) (.snoc (t := []) .nil (d := 0) (by decide)) (d := 0) (by decide)) (d := 10) (by decide), by decide, by decide⟩
  exact .short (.inr (.one hb)) (.inr (.one ha)) (by decide)

/-- **C124** A text denotes at most one address. -/
theorem C124_one_reading {t : List Char} {gs gs' : List Nat} (h : Text6 t gs) (h' : Text6 t gs') : gs = gs' := by
  have e := v6Groups_iff.2 h
  rw [v6Groups_iff.2 h'] at e
  injection e with e
  exact e.symm

/-- **C124**, IPv6 tables of any range and any reachable state: a text that is not in the grammar, or has a zone, or denotes an
address outside of the range, is refused by `Get`, `Claim`, `Update` and `Release`, which leave the table as it is, and is neither
claimed nor free. -/
theorem C124_v6_table {f t : BitVec 128} {zf zt : String} {r : IPTab R} (h : Reach parseAddr (.v6 f zf) (.v6 t zt) r) {x : String}
    (hx : ∀ gs, Text6 x.toList gs → ¬ (f.toNat ≤ number6 gs ∧ number6 gs ≤ t.toNat)) (d : R) :
    ((∃ e, (claim parseAddr r x d).2 = .error e) ∧ (claim parseAddr r x d).1 = r) ∧
    ((∃ e, (update parseAddr r x d).2 = .error e) ∧ (update parseAddr r x d).1 = r) ∧
    ((∃ e, (release parseAddr r x).2 = .error e) ∧ (release parseAddr r x).1 = r) ∧
    (∃ e, get parseAddr r x = .error e) ∧ has parseAddr r x = false ∧ isFree parseAddr r x = false := by
  refine C25_out_of_range_rejected h ?_ d
  intro a ha hin
  cases a with
  | v6 a z =>
    obtain ⟨h1, h2, rfl⟩ := hin
    obtain ⟨t', gs, e, e1, e2, e3, e4⟩ := C124_v6_text.1 ha
    rcases e3 with ⟨_, rfl⟩ | ⟨e3, _⟩
    · rw [List.append_nil] at e1
      subst e1
      rw [e4] at h1 h2
      exact hx gs e2 ⟨h1, h2⟩
    · exact e3 rfl
  | zero => exact hin
  | v4 a => exact hin

/-- the text of an IPv4 address is not in the grammar -/
example : ∀ gs, Text6 "10.0.0.1".toList gs → ¬ (0 ≤ number6 gs ∧ number6 gs ≤ 2 ^ 128) := by
  intro gs h
  have := v6Groups_iff.2 h
  rw [show v6Groups "10.0.0.1".toList = none by decide] at this
  cases this

/-- **C124**, tables of any range in any state: the texts of an address are interchangeable in all calls. -/
theorem C124_same_address {x y : String} {gs : List Nat} (hx : Text6 x.toList gs) (hy : Text6 y.toList gs) (r : IPTab R) (d : R) :
    claim parseAddr r x d = claim parseAddr r y d ∧ update parseAddr r x d = update parseAddr r y d ∧
    release parseAddr r x = release parseAddr r y ∧ get parseAddr r x = get parseAddr r y ∧
    has parseAddr r x = has parseAddr r y ∧ isFree parseAddr r x = isFree parseAddr r y := by
  have key : ∀ {x : String}, Text6 x.toList gs → parseAddr x = some (.v6 (BitVec.ofNat 128 (number6 gs)) "") := by
    intro x h
    refine C124_v6_text.2 ⟨_, gs, [], (List.append_nil _).symm, h, .inl ⟨rfl, rfl⟩, ?_⟩
    rw [BitVec.toNat_ofNat, Nat.mod_eq_of_lt h.lt]
  have hv : validateIP parseAddr r x = validateIP parseAddr r y := by
    unfold validateIP
    rw [key hx, key hy]
  refine ⟨?_, ?_, ?_, ?_, ?_, ?_⟩ <;> simp only [claim, update, release, get, has, isFree, hv]

/-- two texts of one address -/
example : ∃ gs, Text6 "::A".toList gs ∧ Text6 "0:0:0:0::0.0.0.10".toList gs :=
  ⟨[0, 0, 0, 0, 0, 0, 0, 10], v6Groups_iff.1 (by decide), v6Groups_iff.1 (by decide)⟩

end Verif.IPTable
