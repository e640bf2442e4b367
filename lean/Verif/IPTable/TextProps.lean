import Verif.IPTable.Text
import Verif.IPTable.Refine

/-!
Property C122: the texts of addresses.
-/

namespace Verif.IPTable

/-! ### Digits -/

theorem decVal_digit {d : Nat} (h : d < 10) : decVal (digitChar d) = some d :=
  (by decide : ∀ d : Fin 10, decVal (digitChar d.1) = some d.1) ⟨d, h⟩

theorem hexVal_digit {d : Nat} (h : d < 16) : hexVal (digitChar d) = some d :=
  (by decide : ∀ d : Fin 16, hexVal (digitChar d.1) = some d.1) ⟨d, h⟩

theorem decVal_eq {c : Char} {d : Nat} (h : decVal c = some d) : d < 10 ∧ c = digitChar d := by
  unfold decVal at h
  split at h
  · rename_i hc
    have h1 : '0'.toNat ≤ c.toNat := hc.1
    have h2 : c.toNat ≤ '9'.toNat := hc.2
    have e1 : '0'.toNat = 48 := rfl
    have e2 : '9'.toNat = 57 := rfl
    injection h with h
    have hd : d < 10 := by omega
    refine ⟨hd, ?_⟩
    unfold digitChar
    rw [if_pos hd]
    have : '0'.toNat + d = c.toNat := by omega
    rw [this, Char.ofNat_toNat]
  · cases h

theorem dot_not_dec : decVal '.' = none := by decide
theorem dot_not_hex : hexVal '.' = none := by decide
theorem colon_not_hex : hexVal ':' = none := by decide
theorem percent_not_hex : hexVal '%' = none := by decide

/-! ### IPv4: what is written can be read -/

theorem v4Loop_digit {d : Nat} (hd : d < 10) (prev : Option Char) (val k : Nat) (fs : List Nat) (cs : List Char)
    (h1 : ¬ (k = 1 ∧ val = 0)) (h2 : val * 10 + d ≤ 255) :
    v4Loop prev val k fs (digitChar d :: cs) = v4Loop (some (digitChar d)) (val * 10 + d) (k + 1) fs cs := by
  rw [v4Loop, decVal_digit hd]
  simp only
  rw [if_neg h1, if_neg (by omega)]

/-- the last character is a digit -/
theorem v4Loop_dec {b : Nat} (hb : b < 256) (prev : Option Char) (fs : List Nat) (cs : List Char) :
    ∃ d k, d < 10 ∧ 0 < k ∧ v4Loop prev 0 0 fs (fmtDec b ++ cs) = v4Loop (some (digitChar d)) b k fs cs := by
  unfold fmtDec
  by_cases h1 : b ≥ 100
  · rw [if_pos h1, if_pos (by omega)]
    refine ⟨b % 10, 3, by omega, by decide, ?_⟩
    simp only [List.cons_append, List.nil_append]
    rw [v4Loop_digit (by omega) _ _ _ _ _ (by omega) (by omega), v4Loop_digit (by omega) _ _ _ _ _ (by omega) (by omega),
      v4Loop_digit (by omega) _ _ _ _ _ (by omega) (by omega)]
    congr 1
    omega
  · rw [if_neg h1]
    by_cases h2 : b ≥ 10
    · rw [if_pos h2]
      refine ⟨b % 10, 2, by omega, by decide, ?_⟩
      simp only [List.cons_append, List.nil_append]
      rw [v4Loop_digit (by omega) _ _ _ _ _ (by omega) (by omega), v4Loop_digit (by omega) _ _ _ _ _ (by omega) (by omega)]
      congr 1
      omega
    · rw [if_neg h2]
      refine ⟨b % 10, 1, by omega, by decide, ?_⟩
      simp only [List.cons_append, List.nil_append]
      rw [v4Loop_digit (by omega) _ _ _ _ _ (by omega) (by omega)]
      congr 1
      omega

theorem digit_ne_dot {d : Nat} (h : d < 10) : digitChar d ≠ '.' :=
  (by decide : ∀ d : Fin 10, digitChar d.1 ≠ '.') ⟨d, h⟩

theorem fmtDec_ne_nil (b : Nat) : fmtDec b ≠ [] := by
  unfold fmtDec
  simp

/-- a field and a dot -/
theorem v4Loop_field {b : Nat} (hb : b < 256) (prev : Option Char) (fs : List Nat) (hf : fs.length < 3) {cs : List Char} (hc : cs ≠ []) :
    v4Loop prev 0 0 fs (fmtDec b ++ '.' :: cs) = v4Loop (some '.') 0 0 (fs ++ [b]) cs := by
  obtain ⟨d, k, hd, _, h⟩ := v4Loop_dec hb prev fs ('.' :: cs)
  rw [h, v4Loop, dot_not_dec]
  show (if '.' = '.' then _ else _) = _
  rw [if_pos rfl, if_neg (by
    rintro (h | h | h)
    · cases h
    · exact hc h
    · exact digit_ne_dot hd (Option.some.inj h)), if_neg (by omega)]

theorem byteOf_lt (a : BitVec 32) (i : Nat) : byteOf a i < 256 := Nat.mod_lt _ (by decide)
theorem groupOf_lt (a : BitVec 128) (i : Nat) : groupOf a i < 65536 := Nat.mod_lt _ (by decide)

theorem v4Fields_string4 (a : BitVec 32) : v4Fields (string4 a) = some [byteOf a 0, byteOf a 1, byteOf a 2, byteOf a 3] := by
  unfold v4Fields string4
  simp only [List.append_assoc, List.cons_append]
  rw [v4Loop_field (byteOf_lt a 0) _ _ (by decide) (by simp [fmtDec_ne_nil]), v4Loop_field (byteOf_lt a 1) _ _ (by simp) (by simp [fmtDec_ne_nil]),
    v4Loop_field (byteOf_lt a 2) _ _ (by simp) (by simp [fmtDec_ne_nil])]
  obtain ⟨d, k, _, _, h⟩ := v4Loop_dec (byteOf_lt a 3) (some '.') ((([] ++ [byteOf a 0]) ++ [byteOf a 1]) ++ [byteOf a 2]) []
  rw [List.append_nil] at h
  rw [h]
  rfl

theorem ofDigits_bytes (a : BitVec 32) : ofDigits 256 [byteOf a 0, byteOf a 1, byteOf a 2, byteOf a 3] = a.toNat := by
  have := a.isLt
  unfold ofDigits byteOf
  simp only [List.foldl]
  omega

theorem parseIPv4_string4 (a : BitVec 32) : parseIPv4 (string4 a) = some (.v4 a) := by
  unfold parseIPv4
  rw [v4Fields_string4]
  simp only [Option.map_some, ofDigits_bytes, BitVec.ofNat_toNat, BitVec.setWidth_eq]

/-! ### IPv4: only what is written can be read -/

/-- the text of the current field -/
def curText (val k : Nat) : List Char := if k = 0 then [] else fmtDec val

/-- the texts of the fields before -/
def doneText (fs : List Nat) : List Char := fs.flatMap fun f => fmtDec f ++ ['.']

theorem fmtDec_digit {d : Nat} (h : d < 10) : fmtDec d = [digitChar d] := by
  unfold fmtDec
  rw [if_neg (by omega), if_neg (by omega), Nat.mod_eq_of_lt h]
  rfl

theorem fmtDec_more {v d : Nat} (hv : 0 < v) (hd : d < 10) (h : v * 10 + d ≤ 255) : fmtDec (v * 10 + d) = fmtDec v ++ [digitChar d] := by
  unfold fmtDec
  have e1 : (v * 10 + d) % 10 = d := by omega
  have e2 : (v * 10 + d) / 10 % 10 = v % 10 := by omega
  have e3 : (v * 10 + d) / 100 = v / 10 % 10 := by omega
  rw [e1, e2, e3, if_pos (show v * 10 + d ≥ 10 by omega), if_neg (show ¬ v ≥ 100 by omega)]
  by_cases hv' : v ≥ 10
  · rw [if_pos (by omega), if_pos hv']; simp
  · rw [if_neg (by omega), if_neg hv']; simp

/-- what the variables say about the text read so far -/
structure V4Ok (prev : Option Char) (val k : Nat) (fs : List Nat) : Prop where
  none_ : prev = none → k = 0 ∧ fs = []
  digit : k = 0 → prev = none ∨ prev = some '.'
  start : k = 0 → val = 0
  zero : 0 < k → val = 0 → k = 1
  small : val ≤ 255
  fields : ∀ f ∈ fs, f ≤ 255
  few : fs.length ≤ 3

theorem v4Loop_text (s : List Char) : ∀ {prev : Option Char} {val k : Nat} {fs out : List Nat}, V4Ok prev val k fs → (s = [] → 0 < k ∨ fs = []) →
    v4Loop prev val k fs s = some out →
    ∃ fs' b, out = fs' ++ [b] ∧ fs'.length = 3 ∧ (∀ f ∈ out, f ≤ 255) ∧ doneText fs ++ curText val k ++ s = doneText fs' ++ fmtDec b := by
  induction s with
  | nil =>
    intro prev val k fs out ho he h
    rw [v4Loop] at h
    split at h
    · cases h
    · rename_i hl
      cases h
      have hk : 0 < k := by
        rcases he rfl with h | h
        · exact h
        · rw [h] at hl; exact absurd (by decide) hl
      have := ho.few
      refine ⟨fs, val, rfl, by omega, ?_, ?_⟩
      · intro f hf
        rcases List.mem_append.1 hf with hf | hf
        · exact ho.fields f hf
        · rw [List.mem_singleton.1 hf]; exact ho.small
      · unfold curText
        rw [if_neg (by omega), List.append_nil]
  | cons c cs ih =>
    intro prev val k fs out ho he h
    rw [v4Loop] at h
    cases hc : decVal c with
    | some d =>
      rw [hc] at h
      simp only at h
      split at h
      · cases h
      · rename_i h1
        split at h
        · cases h
        · rename_i h2
          obtain ⟨hd, rfl⟩ := decVal_eq hc
          have ho' : V4Ok (some (digitChar d)) (val * 10 + d) (k + 1) fs := by
            refine ⟨(fun h => by cases h), (fun h => by omega), (fun h => by omega), fun _ hv => ?_, by omega, ho.fields, ho.few⟩
            have : val = 0 := by omega
            rcases Nat.eq_zero_or_pos k with hk | hk
            · omega
            · exact absurd ⟨ho.zero hk this, this⟩ h1
          obtain ⟨fs', b, e1, e2, e3, e4⟩ := ih ho' (fun _ => .inl (by omega)) h
          refine ⟨fs', b, e1, e2, e3, ?_⟩
          rw [← e4]
          have : curText (val * 10 + d) (k + 1) = curText val k ++ [digitChar d] := by
            unfold curText
            rw [if_neg (by omega)]
            rcases Nat.eq_zero_or_pos k with hk | hk
            · rw [if_pos hk, ho.start hk]
              simp [fmtDec_digit hd]
            · rw [if_neg (by omega)]
              have hv : 0 < val := by
                rcases Nat.eq_zero_or_pos val with hv | hv
                · exact absurd ⟨ho.zero hk hv, hv⟩ h1
                · exact hv
              exact fmtDec_more hv hd (by omega)
          rw [this]
          simp
    | none =>
      rw [hc] at h
      simp only at h
      split at h
      · rename_i hdot
        subst hdot
        split at h
        · cases h
        · rename_i hp
          split at h
          · cases h
          · rename_i hl
            have hlen := ho.few
            have hk : 0 < k := by
              rcases Nat.eq_zero_or_pos k with hk | hk
              · rcases ho.digit hk with h | h
                · exact absurd (.inl h) hp
                · exact absurd (.inr (.inr h)) hp
              · exact hk
            have ho' : V4Ok (some '.') 0 0 (fs ++ [val]) := by
              refine ⟨(fun h => by cases h), fun _ => .inr rfl, fun _ => rfl, (fun h => by omega), by omega, ?_, ?_⟩
              · intro f hf
                rcases List.mem_append.1 hf with hf | hf
                · exact ho.fields f hf
                · rw [List.mem_singleton.1 hf]; exact ho.small
              · simp; omega
            obtain ⟨fs', b, e1, e2, e3, e4⟩ := ih ho' (fun h => absurd (.inr (.inl h)) hp) h
            refine ⟨fs', b, e1, e2, e3, ?_⟩
            rw [← e4]
            unfold curText doneText
            rw [if_neg (by omega), if_pos rfl]
            simp
      · cases h

theorem parseIPv4_text {s : List Char} {x : Addr} (h : parseIPv4 s = some x) : ∃ a, x = .v4 a ∧ s = string4 a := by
  unfold parseIPv4 v4Fields at h
  cases hl : v4Loop none 0 0 [] s with
  | none => rw [hl] at h; cases h
  | some out =>
    rw [hl] at h
    have h : Addr.v4 (BitVec.ofNat 32 (ofDigits 256 out)) = x := Option.some.inj h
    obtain ⟨fs', b, rfl, e2, e3, e4⟩ := v4Loop_text s (prev := none) (val := 0) (k := 0) (fs := [])
      ⟨fun _ => ⟨rfl, rfl⟩, fun _ => .inl rfl, fun _ => rfl, fun h => by omega, by omega, (by intro f hf; cases hf), by simp⟩ (fun _ => .inr rfl) hl
    match fs', e2 with
    | [p, q, r], _ =>
      refine ⟨_, h.symm, ?_⟩
      have hp := e3 p (by simp)
      have hq := e3 q (by simp)
      have hr := e3 r (by simp)
      have hb := e3 b (by simp)
      have en : (BitVec.ofNat 32 (ofDigits 256 ([p, q, r] ++ [b]))).toNat = ((p * 256 + q) * 256 + r) * 256 + b := by
        rw [BitVec.toNat_ofNat]
        simp only [ofDigits, List.cons_append, List.nil_append, List.foldl]
        omega
      have b0 : byteOf (BitVec.ofNat 32 (ofDigits 256 ([p, q, r] ++ [b]))) 0 = p := by unfold byteOf; rw [en]; omega
      have b1 : byteOf (BitVec.ofNat 32 (ofDigits 256 ([p, q, r] ++ [b]))) 1 = q := by unfold byteOf; rw [en]; omega
      have b2 : byteOf (BitVec.ofNat 32 (ofDigits 256 ([p, q, r] ++ [b]))) 2 = r := by unfold byteOf; rw [en]; omega
      have b3 : byteOf (BitVec.ofNat 32 (ofDigits 256 ([p, q, r] ++ [b]))) 3 = b := by unfold byteOf; rw [en]; omega
      unfold string4
      rw [b0, b1, b2, b3]
      simpa [doneText, curText] using e4

/-! ### IPv6: groups -/

theorem readHex_digit {d : Nat} (hd : d < 16) {off acc : Nat} (h1 : off ≤ 3) (h2 : acc * 16 + d ≤ 65535) (cs : List Char) :
    readHex off acc (digitChar d :: cs) = readHex (off + 1) (acc * 16 + d) cs := by
  rw [readHex, hexVal_digit hd]
  simp only
  rw [if_neg (by omega), if_neg (by omega)]

theorem readHex_fmt {g : Nat} (hg : g < 65536) (cs : List Char) :
    ∃ k, 0 < k ∧ readHex 0 0 (fmtHex g ++ cs) = readHex k g cs := by
  unfold fmtHex
  by_cases h1 : g ≥ 0x1000
  · rw [if_pos h1, if_pos (by omega), if_pos (by omega)]
    refine ⟨4, by decide, ?_⟩
    simp only [List.cons_append, List.nil_append]
    rw [readHex_digit (by omega) (by omega) (by omega), readHex_digit (by omega) (by omega) (by omega),
      readHex_digit (by omega) (by omega) (by omega), readHex_digit (by omega) (by omega) (by omega)]
    congr 1
    omega
  · rw [if_neg h1]
    by_cases h2 : g ≥ 0x100
    · rw [if_pos h2, if_pos (by omega)]
      refine ⟨3, by decide, ?_⟩
      simp only [List.cons_append, List.nil_append]
      rw [readHex_digit (by omega) (by omega) (by omega), readHex_digit (by omega) (by omega) (by omega),
        readHex_digit (by omega) (by omega) (by omega)]
      congr 1
      omega
    · rw [if_neg h2]
      by_cases h3 : g ≥ 0x10
      · rw [if_pos h3]
        refine ⟨2, by decide, ?_⟩
        simp only [List.cons_append, List.nil_append]
        rw [readHex_digit (by omega) (by omega) (by omega), readHex_digit (by omega) (by omega) (by omega)]
        congr 1
        omega
      · rw [if_neg h3]
        refine ⟨1, by decide, ?_⟩
        simp only [List.cons_append, List.nil_append]
        rw [readHex_digit (by omega) (by omega) (by omega)]
        congr 1
        omega

theorem readHex_nil (k g : Nat) : readHex k g [] = some (k, g, []) := by rw [readHex]

theorem readHex_stop {c : Char} (hc : hexVal c = none) (k g : Nat) (cs : List Char) : readHex k g (c :: cs) = some (k, g, c :: cs) := by
  rw [readHex, hc]

/-- the characters of numbers -/
def IsDigit (c : Char) : Prop := ∃ d, d < 16 ∧ c = digitChar d

theorem IsDigit.ne {c : Char} (h : IsDigit c) : c ≠ ':' ∧ c ≠ '.' ∧ c ≠ '%' := by
  obtain ⟨d, hd, rfl⟩ := h
  exact (by decide : ∀ d : Fin 16, digitChar d.1 ≠ ':' ∧ digitChar d.1 ≠ '.' ∧ digitChar d.1 ≠ '%') ⟨d, hd⟩

theorem fmtHex_digits {g : Nat} (hg : g < 65536) : ∀ c ∈ fmtHex g, IsDigit c := by
  intro c hc
  unfold fmtHex at hc
  simp only [List.mem_append, List.mem_singleton] at hc
  rcases hc with ((hc | hc) | hc) | rfl
  · split at hc
    · rw [List.mem_singleton.1 hc]; exact ⟨_, by omega, rfl⟩
    · cases hc
  · split at hc
    · rw [List.mem_singleton.1 hc]; exact ⟨_, by omega, rfl⟩
    · cases hc
  · split at hc
    · rw [List.mem_singleton.1 hc]; exact ⟨_, by omega, rfl⟩
    · cases hc
  · exact ⟨_, by omega, rfl⟩

theorem fmtDec_digits {g : Nat} (hg : g < 256) : ∀ c ∈ fmtDec g, IsDigit c := by
  intro c hc
  unfold fmtDec at hc
  simp only [List.mem_append, List.mem_singleton] at hc
  rcases hc with (hc | hc) | rfl
  · split at hc
    · rw [List.mem_singleton.1 hc]; exact ⟨_, by omega, rfl⟩
    · cases hc
  · split at hc
    · rw [List.mem_singleton.1 hc]; exact ⟨_, by omega, rfl⟩
    · cases hc
  · exact ⟨_, by omega, rfl⟩

theorem fmtHex_ne_nil (g : Nat) : fmtHex g ≠ [] := by
  unfold fmtHex
  simp

theorem fmtHex_head {g : Nat} (hg : g < 65536) (cs : List Char) : ∃ c cs', fmtHex g ++ cs = c :: cs' ∧ IsDigit c := by
  cases h : fmtHex g with
  | nil => exact absurd h (fmtHex_ne_nil g)
  | cons c r => exact ⟨c, r ++ cs, rfl, fmtHex_digits hg c (by rw [h]; exact List.mem_cons_self)⟩

theorem fmtDec_head {g : Nat} (hg : g < 256) (cs : List Char) : ∃ c cs', fmtDec g ++ cs = c :: cs' ∧ IsDigit c := by
  cases h : fmtDec g with
  | nil => exact absurd h (fmtDec_ne_nil g)
  | cons c r => exact ⟨c, r ++ cs, rfl, fmtDec_digits hg c (by rw [h]; exact List.mem_cons_self)⟩

theorem v6Loop_last {g : Nat} (hg : g < 65536) (k : Nat) (gs : List Nat) (ell : Option Nat) :
    v6Loop (k + 1) gs ell (fmtHex g) = some (gs ++ [g], ell, []) := by
  obtain ⟨j, hj, h⟩ := readHex_fmt hg []
  rw [List.append_nil, readHex_nil] at h
  rw [v6Loop, h]
  simp only
  rw [if_neg (by omega)]
  rfl

theorem v6Loop_colon {g : Nat} (hg : g < 65536) (k : Nat) (gs : List Nat) (ell : Option Nat) {d : Char} (hd : d ≠ ':') (cs : List Char) :
    v6Loop (k + 1) gs ell (fmtHex g ++ ':' :: d :: cs) = v6Loop k (gs ++ [g]) ell (d :: cs) := by
  obtain ⟨j, hj, h⟩ := readHex_fmt hg (':' :: d :: cs)
  rw [readHex_stop colon_not_hex] at h
  rw [v6Loop, h]
  simp only
  rw [if_neg (by omega)]
  simp [hd]

theorem v6Loop_ell {g : Nat} (hg : g < 65536) (k : Nat) (gs : List Nat) (cs : List Char) :
    v6Loop (k + 1) gs none (fmtHex g ++ ':' :: ':' :: cs) =
      if cs = [] then some (gs ++ [g], some (gs.length + 1), []) else v6Loop k (gs ++ [g]) (some (gs.length + 1)) cs := by
  obtain ⟨j, hj, h⟩ := readHex_fmt hg (':' :: ':' :: cs)
  rw [readHex_stop colon_not_hex] at h
  rw [v6Loop, h]
  simp only
  rw [if_neg (by omega)]
  simp

/-- groups with colons between -/
def joinC : List Nat → List Char
  | [] => []
  | [g] => fmtHex g
  | g :: h :: gs => fmtHex g ++ ':' :: joinC (h :: gs)

theorem joinC_head {g : Nat} {gs : List Nat} (hg : g < 65536) (cs : List Char) : ∃ c cs', joinC (g :: gs) ++ cs = c :: cs' ∧ IsDigit c := by
  cases gs with
  | nil => exact fmtHex_head hg cs
  | cons h gs =>
    obtain ⟨c, cs', h1, h2⟩ := fmtHex_head hg (':' :: joinC (h :: gs) ++ cs)
    exact ⟨c, cs', by rw [← h1]; simp [joinC], h2⟩

theorem v6Loop_join : ∀ (ts : List Nat) (k : Nat) (gs : List Nat) (ell : Option Nat), (∀ t ∈ ts, t < 65536) → ts ≠ [] → ts.length ≤ k →
    v6Loop k gs ell (joinC ts) = some (gs ++ ts, ell, []) := by
  intro ts
  induction ts with
  | nil => intro _ _ _ _ h; exact absurd rfl h
  | cons t ts ih =>
    intro k gs ell ht _ hk
    cases k with
    | zero => exact absurd hk (by simp)
    | succ k =>
      cases ts with
      | nil => exact v6Loop_last (ht t (by simp)) k gs ell
      | cons u ts =>
        obtain ⟨c, cs', h1, h2⟩ := joinC_head (gs := ts) (ht u (by simp)) []
        rw [List.append_nil] at h1
        show v6Loop (k + 1) gs ell (fmtHex t ++ ':' :: joinC (u :: ts)) = _
        rw [h1, v6Loop_colon (ht t (by simp)) k gs ell h2.ne.1, ← h1,
          ih k (gs ++ [t]) ell (fun x hx => ht x (List.mem_cons_of_mem _ hx)) (by simp) (by simpa using hk)]
        simp

theorem v6Loop_join_ell : ∀ (ts : List Nat) (k : Nat) (gs : List Nat) (cs : List Char), (∀ t ∈ ts, t < 65536) → ts ≠ [] → ts.length ≤ k →
    v6Loop k gs none (joinC ts ++ ':' :: ':' :: cs) = if cs = [] then some (gs ++ ts, some (gs.length + ts.length), [])
      else v6Loop (k - ts.length) (gs ++ ts) (some (gs.length + ts.length)) cs := by
  intro ts
  induction ts with
  | nil => intro _ _ _ _ h; exact absurd rfl h
  | cons t ts ih =>
    intro k gs cs ht _ hk
    cases k with
    | zero => exact absurd hk (by simp)
    | succ k =>
      cases ts with
      | nil => exact v6Loop_ell (ht t (by simp)) k gs cs
      | cons u ts =>
        obtain ⟨c, cs', h1, h2⟩ := joinC_head (gs := ts) (ht u (by simp)) (':' :: ':' :: cs)
        have e : joinC (t :: u :: ts) ++ ':' :: ':' :: cs = fmtHex t ++ ':' :: (joinC (u :: ts) ++ ':' :: ':' :: cs) := by
          simp [joinC]
        rw [e, h1, v6Loop_colon (ht t (by simp)) k gs none h2.ne.1, ← h1,
          ih k (gs ++ [t]) cs (fun x hx => ht x (List.mem_cons_of_mem _ hx)) (by simp) (by simpa using hk)]
        simp only [List.append_assoc, List.cons_append, List.nil_append, List.length_append, List.length_cons, List.length_nil]
        rw [show gs.length + (0 + 1) + (ts.length + 1) = gs.length + (ts.length + 1 + 1) by omega,
          show k + 1 - (ts.length + 1 + 1) = k - (ts.length + 1) by omega]

/-! ### IPv6: the text -/

theorem zeroRun_spec (g : Nat → Nat) : ∀ n i, zeroRun g n i ≤ n ∧ ∀ j, i ≤ j → j < i + zeroRun g n i → g j = 0 := by
  intro n
  induction n with
  | zero => intro i; exact ⟨Nat.le_refl _, fun j h1 h2 => absurd h2 (by simp only [zeroRun]; omega)⟩
  | succ n ih =>
    intro i
    rw [zeroRun]
    split
    · rename_i h0
      obtain ⟨h1, h2⟩ := ih (i + 1)
      refine ⟨by omega, fun j h3 h4 => ?_⟩
      rcases Nat.eq_or_lt_of_le h3 with rfl | h3
      · exact h0
      · exact h2 j h3 (by omega)
    · exact ⟨Nat.zero_le _, fun j h1 h2 => absurd h2 (by omega)⟩

/-- a run of two or more zero groups -/
def ZeroRun (g : Nat → Nat) (zs ze : Nat) : Prop := zs + 2 ≤ ze ∧ ze ≤ 8 ∧ ∀ j, zs ≤ j → j < ze → g j = 0

theorem zeros6_spec (g : Nat → Nat) : ∀ i, i ≤ 8 → zeros6 g i = (255, 255) ∨ ZeroRun g (zeros6 g i).1 (zeros6 g i).2 := by
  intro i
  induction i with
  | zero => intro _; exact .inl rfl
  | succ i ih =>
    intro hi
    rw [zeros6]
    simp only
    obtain ⟨h1, h2⟩ := zeroRun_spec g (8 - i) i
    split
    · rename_i h
      exact .inr ⟨by show i + 2 ≤ i + _; omega, by show i + _ ≤ 8; omega, h2⟩
    · exact ih (by omega)

/-- the groups from number `i` on -/
def groups (g : Nat → Nat) (i n : Nat) : List Nat := (List.range' i n).map g

theorem groups_succ (g : Nat → Nat) (i n : Nat) : groups g i (n + 1) = g i :: groups g (i + 1) n := by
  unfold groups
  rw [List.range'_succ]; rfl

theorem joinC_groups (g : Nat → Nat) (i n : Nat) :
    joinC (groups g i (n + 1)) = fmtHex (g i) ++ if n = 0 then [] else ':' :: joinC (groups g (i + 1) n) := by
  cases n with
  | zero => simp [groups, joinC]
  | succ n => rw [groups_succ, groups_succ, if_neg (by omega)]; rfl

/-- the colon before a group -/
def sep (i : Nat) : List Char := if i > 0 then [':'] else []

theorem out6_plain (g : Nat → Nat) (zs ze : Nat) : ∀ m n i, i + m = 8 → m ≤ n → (zs < i ∨ 8 ≤ zs) →
    out6 g zs ze n i = if m = 0 then [] else sep i ++ joinC (groups g i m) := by
  intro m
  induction m with
  | zero =>
    intro n i h1 _ _
    cases n with
    | zero => rfl
    | succ n => rw [out6, if_pos (by omega)]; rfl
  | succ m ih =>
    intro n i h1 h2 h3
    cases n with
    | zero => omega
    | succ n =>
      rw [out6, if_neg (by omega), if_neg (by omega), ih n (i + 1) (by omega) (by omega) (by omega), if_neg (show ¬ m + 1 = 0 by omega), joinC_groups]
      unfold sep
      rw [if_pos (show i + 1 > 0 by omega)]
      simp

theorem out6_ell (g : Nat → Nat) {zs ze : Nat} (hz : zs + 2 ≤ ze) (he : ze ≤ 8) : ∀ m n i, i + m = zs → 8 - i ≤ n →
    out6 g zs ze n i = (if m = 0 then [] else sep i ++ joinC (groups g i m)) ++ ':' :: ':' :: joinC (groups g ze (8 - ze)) := by
  intro m
  induction m with
  | zero =>
    intro n i h1 h2
    cases n with
    | zero => omega
    | succ n =>
      rw [out6, if_neg (by omega), if_pos (by omega), if_pos rfl]
      simp only [List.nil_append]
      congr 2
      split
      · rw [show 8 - ze = 0 by omega]; rfl
      · rw [out6_plain g zs ze (8 - (ze + 1)) n (ze + 1) (by omega) (by omega) (by omega), show 8 - ze = (8 - (ze + 1)) + 1 by omega,
          joinC_groups]
        unfold sep
        rw [if_pos (show ze + 1 > 0 by omega)]
        rfl
  | succ m ih =>
    intro n i h1 h2
    cases n with
    | zero => omega
    | succ n =>
      rw [out6, if_neg (by omega), if_neg (by omega), ih n (i + 1) (by omega) (by omega), if_neg (show ¬ m + 1 = 0 by omega), joinC_groups]
      unfold sep
      rw [if_pos (show i + 1 > 0 by omega)]
      split <;> simp

theorem groups_lt {g : Nat → Nat} (hg : ∀ i, g i < 65536) (i n : Nat) : ∀ t ∈ groups g i n, t < 65536 := by
  intro t ht
  obtain ⟨j, _, rfl⟩ := List.mem_map.1 ht
  exact hg j

theorem groups_length (g : Nat → Nat) (i n : Nat) : (groups g i n).length = n := by simp [groups]

theorem groups_append (g : Nat → Nat) (i n m : Nat) : groups g i n ++ groups g (i + n) m = groups g i (n + m) := by
  unfold groups
  rw [← List.map_append, List.range'_append_1]

theorem groups_zero {g : Nat → Nat} {zs ze : Nat} (h : ∀ j, zs ≤ j → j < ze → g j = 0) (n : Nat) (hn : zs + n = ze) :
    groups g zs n = List.replicate n 0 := by
  rw [List.eq_replicate_iff]
  refine ⟨groups_length g zs n, fun t ht => ?_⟩
  obtain ⟨j, hj, rfl⟩ := List.mem_map.1 ht
  have := List.mem_range'_1.1 hj
  exact h j this.1 (by omega)

theorem v6Groups_digit {s : List Char} {c : Char} {cs : List Char} (h : s = c :: cs) (hc : c ≠ ':') :
    v6Groups s = (v6Loop 8 [] none s).bind expand := by
  subst h
  unfold v6Groups
  split
  · rename_i h
    injection h with h _
    exact absurd h hc
  · rfl

theorem v6Groups_string6 {g : Nat → Nat} (hg : ∀ i, g i < 65536) : v6Groups (string6 g) = some (groups g 0 8) := by
  unfold string6
  rcases zeros6_spec g 8 (Nat.le_refl _) with hz | hz
  · rw [hz]
    simp only
    rw [out6_plain g 255 255 8 8 0 rfl (Nat.le_refl _) (.inr (by decide))]
    have h8 : (if 8 = 0 then [] else sep 0 ++ joinC (groups g 0 8)) = joinC (groups g 0 8) := rfl
    rw [h8]
    obtain ⟨c, cs, h1, h2⟩ := joinC_head (g := g 0) (gs := groups g 1 7) (hg 0) []
    rw [List.append_nil, ← groups_succ] at h1
    rw [v6Groups_digit h1 h2.ne.1, v6Loop_join _ _ _ _ (groups_lt hg 0 8) (by simp [groups]) (by rw [groups_length]; exact Nat.le_refl _)]
    show expand (groups g 0 8, none, []) = _
    unfold expand
    simp [groups_length]
  · show v6Groups (out6 g (zeros6 g 8).1 (zeros6 g 8).2 8 0) = _
    generalize (zeros6 g 8).1 = zs at hz ⊢
    generalize (zeros6 g 8).2 = ze at hz ⊢
    obtain ⟨z1, z2, z3⟩ := hz
    rw [out6_ell g z1 z2 zs 8 0 (by omega) (by omega)]
    have hfin : ∀ (A B : List Nat), A = groups g 0 zs → B = groups g ze (8 - ze) → expand (A ++ B, some zs, []) = some (groups g 0 8) := by
      rintro A B rfl rfl
      show (if ([] : List Char) ≠ [] then none else if (groups g 0 zs ++ groups g ze (8 - ze)).length < 8 then
        some ((groups g 0 zs ++ groups g ze (8 - ze)).take zs ++ List.replicate (8 - (groups g 0 zs ++ groups g ze (8 - ze)).length) 0 ++
          (groups g 0 zs ++ groups g ze (8 - ze)).drop zs) else _) = _
      rw [if_neg (by simp), List.length_append, groups_length, groups_length, if_pos (by omega)]
      congr 1
      rw [List.take_left' (groups_length g 0 zs), List.drop_left' (groups_length g 0 zs), show 8 - (zs + (8 - ze)) = ze - zs by omega,
        ← groups_zero z3 (ze - zs) (by omega)]
      have e1 := groups_append g 0 zs (ze - zs)
      have e2 := groups_append g 0 ze (8 - ze)
      rw [Nat.zero_add] at e1 e2
      rw [e1, show zs + (ze - zs) = ze by omega, e2, show ze + (8 - ze) = 8 by omega]
    by_cases hs : zs = 0
    · subst hs
      rw [if_pos rfl]
      show (if joinC (groups g ze (8 - ze)) = [] then _ else _) = _
      by_cases he : 8 - ze = 0
      · rw [he, if_pos (by rfl), show (8 : Nat) = 0 + 8 from rfl]
        have : ze = 8 := by omega
        subst this
        rw [groups_zero z3 8 rfl]
      · obtain ⟨m, hm⟩ : ∃ m, 8 - ze = m + 1 := ⟨8 - ze - 1, by omega⟩
        obtain ⟨c, cs, h1, h2⟩ := joinC_head (g := g ze) (gs := groups g (ze + 1) m) (hg ze) []
        rw [List.append_nil, ← groups_succ, ← hm] at h1
        rw [if_neg (by rw [h1]; simp), v6Loop_join _ _ _ _ (groups_lt hg ze _) (by rw [hm, groups_succ]; simp) (by rw [groups_length]; omega)]
        exact hfin [] _ rfl rfl
    · rw [if_neg hs]
      show v6Groups (joinC (groups g 0 zs) ++ _) = _
      obtain ⟨m, hm⟩ : ∃ m, zs = m + 1 := ⟨zs - 1, by omega⟩
      obtain ⟨c, cs, h1, h2⟩ := joinC_head (g := g 0) (gs := groups g 1 m) (hg 0) (':' :: ':' :: joinC (groups g ze (8 - ze)))
      rw [← groups_succ, ← hm] at h1
      rw [v6Groups_digit h1 h2.ne.1, v6Loop_join_ell _ _ _ _ (groups_lt hg 0 zs) (by rw [hm, groups_succ]; simp) (by rw [groups_length]; omega),
        groups_length]
      by_cases he : 8 - ze = 0
      · rw [he, if_pos (by rfl)]
        have := hfin (groups g 0 zs) [] rfl (by rw [he]; rfl)
        rw [List.append_nil] at this
        simpa using this
      · obtain ⟨m', hm'⟩ : ∃ m, 8 - ze = m + 1 := ⟨8 - ze - 1, by omega⟩
        obtain ⟨c, cs, h3, _⟩ := joinC_head (g := g ze) (gs := groups g (ze + 1) m') (hg ze) []
        rw [List.append_nil, ← groups_succ, ← hm'] at h3
        rw [if_neg (by rw [h3]; simp), v6Loop_join _ _ _ _ (groups_lt hg ze _) (by rw [hm', groups_succ]; simp) (by rw [groups_length]; omega)]
        have := hfin (groups g 0 zs) _ rfl rfl
        simpa using this

theorem ofDigits_groups (a : BitVec 128) : ofDigits 65536 (groups (groupOf a) 0 8) = a.toNat := by
  have := a.isLt
  show ofDigits 65536 [groupOf a 0, groupOf a 1, groupOf a 2, groupOf a 3, groupOf a 4, groupOf a 5, groupOf a 6, groupOf a 7] = _
  unfold ofDigits groupOf
  simp only [List.foldl]
  omega

/-! ### IPv4-mapped addresses -/

theorem readHex_dec {b : Nat} (hb : b < 256) (cs : List Char) :
    ∃ k acc, 0 < k ∧ readHex 0 0 (fmtDec b ++ '.' :: cs) = some (k, acc, '.' :: cs) := by
  unfold fmtDec
  by_cases h1 : b ≥ 100
  · rw [if_pos h1, if_pos (by omega)]
    simp only [List.cons_append, List.nil_append]
    rw [readHex_digit (by omega) (by omega) (by omega), readHex_digit (by omega) (by omega) (by omega),
      readHex_digit (by omega) (by omega) (by omega), readHex_stop dot_not_hex]
    exact ⟨_, _, by decide, rfl⟩
  · rw [if_neg h1]
    by_cases h2 : b ≥ 10
    · rw [if_pos h2]
      simp only [List.cons_append, List.nil_append]
      rw [readHex_digit (by omega) (by omega) (by omega), readHex_digit (by omega) (by omega) (by omega), readHex_stop dot_not_hex]
      exact ⟨_, _, by decide, rfl⟩
    · rw [if_neg h2]
      simp only [List.cons_append, List.nil_append]
      rw [readHex_digit (by omega) (by omega) (by omega), readHex_stop dot_not_hex]
      exact ⟨_, _, by decide, rfl⟩

theorem string4_head (a : BitVec 32) : ∃ c cs, string4 a = c :: cs ∧ IsDigit c := by
  obtain ⟨c, cs, h1, h2⟩ := fmtDec_head (byteOf_lt a 0) ('.' :: fmtDec (byteOf a 1) ++ '.' :: fmtDec (byteOf a 2) ++ '.' :: fmtDec (byteOf a 3))
  exact ⟨c, cs, by rw [← h1]; simp [string4], h2⟩

theorem v6Groups_4in6 (b : BitVec 32) : v6Groups ("::ffff:".toList ++ string4 b) =
    some [0, 0, 0, 0, 0, 65535, byteOf b 0 * 256 + byteOf b 1, byteOf b 2 * 256 + byteOf b 3] := by
  have e : "::ffff:".toList ++ string4 b = ':' :: ':' :: (fmtHex 65535 ++ ':' :: string4 b) := by
    rw [show "::ffff:".toList = ':' :: ':' :: (fmtHex 65535 ++ [':']) by decide]
    simp
  rw [e]
  obtain ⟨c, cs, h1, h2⟩ := string4_head b
  show (if fmtHex 65535 ++ ':' :: string4 b = [] then some (List.replicate 8 0) else (v6Loop 8 [] (some 0) (fmtHex 65535 ++ ':' :: string4 b)).bind expand) = _
  rw [if_neg (by simp), h1, v6Loop_colon (by decide) _ _ _ h2.ne.1, ← h1]
  obtain ⟨k, acc, hk, h3⟩ := readHex_dec (byteOf_lt b 0) (fmtDec (byteOf b 1) ++ '.' :: fmtDec (byteOf b 2) ++ '.' :: fmtDec (byteOf b 3))
  have e4 : string4 b = fmtDec (byteOf b 0) ++ '.' :: (fmtDec (byteOf b 1) ++ '.' :: fmtDec (byteOf b 2) ++ '.' :: fmtDec (byteOf b 3)) := by
    simp [string4]
  rw [← e4] at h3
  rw [v6Loop, h3]
  simp only
  rw [if_neg (by omega), if_pos (by rfl), if_neg (by simp), if_neg (by simp), v4Fields_string4]
  rfl

theorem ofDigits_4in6 {a : BitVec 128} (h : is4In6 a = true) :
    ofDigits 65536 [0, 0, 0, 0, 0, 65535, byteOf (a.setWidth 32) 0 * 256 + byteOf (a.setWidth 32) 1,
      byteOf (a.setWidth 32) 2 * 256 + byteOf (a.setWidth 32) 3] = a.toNat := by
  have h : a.toNat / 2 ^ 32 = 0xffff := of_decide_eq_true h
  have e := ofDigits_bytes (a.setWidth 32)
  rw [BitVec.toNat_setWidth] at e
  have h3 := Nat.div_add_mod a.toNat (2 ^ 32)
  rw [h, ← e] at h3
  rw [← h3]
  unfold ofDigits
  simp only [List.foldl, Nat.zero_mul, Nat.zero_add, Nat.reducePow, Nat.reduceMul]
  clear h h3 e
  generalize byteOf (a.setWidth 32) 0 = b0
  generalize byteOf (a.setWidth 32) 1 = b1
  generalize byteOf (a.setWidth 32) 2 = b2
  generalize byteOf (a.setWidth 32) 3 = b3
  omega

/-! ### Reading what is written -/

theorem parseChars_digits (all : List Char) : ∀ (ds cs : List Char), (∀ c ∈ ds, IsDigit c) → parseChars all (ds ++ cs) = parseChars all cs := by
  intro ds
  induction ds with
  | nil => intro cs _; rfl
  | cons d ds ih =>
    intro cs h
    obtain ⟨h1, h2, h3⟩ := (h d List.mem_cons_self).ne
    show parseChars all (d :: (ds ++ cs)) = _
    rw [parseChars, if_neg h2, if_neg h1, if_neg h3]
    exact ih cs (fun c hc => h c (List.mem_cons_of_mem _ hc))

theorem parseChars_string4 (a : BitVec 32) : parseChars (string4 a) (string4 a) = some (.v4 a) := by
  rw [← parseIPv4_string4 a]
  generalize hs : string4 a = s
  have e4 : s = fmtDec (byteOf a 0) ++ '.' :: (fmtDec (byteOf a 1) ++ '.' :: fmtDec (byteOf a 2) ++ '.' :: fmtDec (byteOf a 3)) := by
    rw [← hs]; simp [string4]
  conv => lhs; arg 2; rw [e4]
  rw [parseChars_digits _ _ _ (fmtDec_digits (byteOf_lt a 0)), parseChars, if_pos rfl]

/-- the first character that is not a digit is a colon -/
def ColonFirst (s : List Char) : Prop := ∃ ds cs, s = ds ++ ':' :: cs ∧ ∀ c ∈ ds, IsDigit c

theorem parseChars_colon {all s : List Char} (h : ColonFirst s) : parseChars all s = parseIPv6 all := by
  obtain ⟨ds, cs, rfl, hd⟩ := h
  rw [parseChars_digits _ _ _ hd, parseChars, if_neg (by decide), if_pos rfl]

theorem colonFirst_string6 {g : Nat → Nat} (hg : ∀ i, g i < 65536) : ColonFirst (string6 g) := by
  show ColonFirst (out6 g (zeros6 g 8).1 (zeros6 g 8).2 8 0)
  generalize (zeros6 g 8).1 = zs
  generalize (zeros6 g 8).2 = ze
  rw [out6, if_neg (by omega)]
  by_cases h0 : 0 = zs
  · rw [if_pos h0]
    exact ⟨[], _, rfl, by intro c hc; cases hc⟩
  · rw [if_neg h0, if_neg (by omega), out6, if_neg (by omega)]
    by_cases h1 : 0 + 1 = zs
    · rw [if_pos h1]
      exact ⟨fmtHex (g 0), _, rfl, fmtHex_digits (hg 0)⟩
    · rw [if_neg h1, if_pos (by omega)]
      exact ⟨fmtHex (g 0), fmtHex (g (0 + 1)) ++ out6 g zs ze 6 (0 + 1 + 1), rfl, fmtHex_digits (hg 0)⟩

theorem out6_plainChars {g : Nat → Nat} (hg : ∀ i, g i < 65536) (zs ze : Nat) : ∀ n i, ∀ c ∈ out6 g zs ze n i, c ≠ '%' := by
  intro n
  induction n with
  | zero => intro i c hc; cases hc
  | succ n ih =>
    intro i c hc
    rw [out6] at hc
    split at hc
    · cases hc
    · split at hc
      · rcases List.mem_cons.1 hc with rfl | hc
        · decide
        rcases List.mem_cons.1 hc with rfl | hc
        · decide
        split at hc
        · cases hc
        · rcases List.mem_append.1 hc with hc | hc
          · exact (fmtHex_digits (hg ze) c hc).ne.2.2
          · exact ih _ c hc
      · rcases List.mem_append.1 hc with hc | hc
        · rcases List.mem_append.1 hc with hc | hc
          · split at hc
            · rw [List.mem_singleton.1 hc]; decide
            · cases hc
          · exact (fmtHex_digits (hg i) c hc).ne.2.2
        · exact ih _ c hc

theorem string4_plainChars (a : BitVec 32) : ∀ c ∈ string4 a, c ≠ '%' := by
  intro c hc
  unfold string4 at hc
  simp only [List.mem_append, List.mem_cons] at hc
  rcases hc with ((hc | rfl | hc) | rfl | hc) | rfl | hc
  all_goals first
    | decide
    | exact (fmtDec_digits (byteOf_lt a _) c hc).ne.2.2

theorem takeWhile_zone {s : List Char} (hs : ∀ c ∈ s, c ≠ '%') (z : String) :
    (s ++ zoneText z).takeWhile (· ≠ '%') = s ∧ (s ++ zoneText z).dropWhile (· ≠ '%') = zoneText z := by
  induction s with
  | nil =>
    unfold zoneText
    split
    · exact ⟨rfl, rfl⟩
    · simp
  | cons c s ih =>
    obtain ⟨h1, h2⟩ := ih (fun d hd => hs d (List.mem_cons_of_mem _ hd))
    have hc : decide (c ≠ '%') = true := decide_eq_true (hs c List.mem_cons_self)
    rw [List.cons_append, List.takeWhile_cons, List.dropWhile_cons, if_pos hc, if_pos hc]
    exact ⟨by rw [h1], h2⟩

theorem parseIPv6_text {s : List Char} (hs : ∀ c ∈ s, c ≠ '%') {gs : List Nat} (hg : v6Groups s = some gs) {a : BitVec 128}
    (ha : ofDigits 65536 gs = a.toNat) (z : String) : parseIPv6 (s ++ zoneText z) = some (.v6 a z) := by
  obtain ⟨h1, h2⟩ := takeWhile_zone hs z
  unfold parseIPv6
  simp only
  rw [h1, h2, hg]
  have hz : zoneText z ≠ ['%'] := by
    unfold zoneText
    split
    · simp
    · rename_i h
      intro h'
      injection h' with _ h'
      exact h (by rw [← String.ofList_toList (s := z), h'])
  have hz2 : String.ofList ((zoneText z).drop 1) = z := by
    unfold zoneText
    split
    · rename_i h; rw [h]; rfl
    · exact String.ofList_toList
  rw [if_neg hz, hz2]
  simp only [Option.map_some, ha, BitVec.ofNat_toNat, BitVec.setWidth_eq]

theorem ColonFirst.append {s : List Char} (h : ColonFirst s) (t : List Char) : ColonFirst (s ++ t) := by
  obtain ⟨ds, cs, rfl, hd⟩ := h
  exact ⟨ds, cs ++ t, by simp, hd⟩

theorem parseChars_addr {a : Addr} (h : a ≠ .zero) : parseChars (addrChars a) (addrChars a) = some a := by
  cases a with
  | zero => exact absurd rfl h
  | v4 a => exact parseChars_string4 a
  | v6 a z =>
    show parseChars ((if is4In6 a then _ else _) ++ _) ((if is4In6 a then _ else _) ++ _) = _
    by_cases h4 : is4In6 a = true
    · simp only [if_pos h4]
      have hc : ColonFirst ("::ffff:".toList ++ string4 (a.setWidth 32)) := ⟨[], ":ffff:".toList ++ string4 (a.setWidth 32), rfl, by intro c hc; cases hc⟩
      rw [parseChars_colon (hc.append _)]
      refine parseIPv6_text ?_ (v6Groups_4in6 _) (ofDigits_4in6 h4) z
      intro c hc
      rcases List.mem_append.1 hc with hc | hc
      · exact (show ∀ c ∈ "::ffff:".toList, c ≠ '%' by decide) c hc
      · exact string4_plainChars _ c hc
    · simp only [if_neg h4]
      rw [parseChars_colon ((colonFirst_string6 (groupOf_lt a)).append _)]
      exact parseIPv6_text (out6_plainChars (groupOf_lt a) _ _ 8 0) (v6Groups_string6 (groupOf_lt a)) (ofDigits_groups a) z

/-- `ParseAddr` reads what `String` writes, for every address but the zero one, with or without zone -/
theorem parse_string {a : Addr} (h : a ≠ .zero) : parseAddr (addrString a) = some a := by
  unfold parseAddr addrString
  rw [String.toList_ofList]
  exact parseChars_addr h

theorem parseChars_v4 (all : List Char) : ∀ (s : List Char) (a : BitVec 32), parseChars all s = some (.v4 a) → all = string4 a := by
  intro s
  induction s with
  | nil => intro a h; cases h
  | cons c s ih =>
    intro a h
    rw [parseChars] at h
    split at h
    · obtain ⟨b, h1, h2⟩ := parseIPv4_text h
      cases h1
      exact h2
    · split at h
      · unfold parseIPv6 at h
        simp only at h
        split at h
        · cases h
        · cases hg : v6Groups (all.takeWhile (· ≠ '%')) with
          | none => rw [hg] at h; cases h
          | some gs => rw [hg] at h; cases h
      · split at h
        · cases h
        · exact ih a h

/-- the only text of an IPv4 address is the one that `String` writes -/
theorem parse_v4_unique {x : String} {a : BitVec 32} (h : parseAddr x = some (.v4 a)) : x = addrString (.v4 a) := by
  have := parseChars_v4 x.toList x.toList a h
  show x = String.ofList (string4 a)
  rw [← this, String.ofList_toList]

end Verif.IPTable
