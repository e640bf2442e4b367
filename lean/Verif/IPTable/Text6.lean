import Verif.IPTable.TextTable

/-!
Which texts denote IPv6 addresses: a grammar, and the proof that `parseIPv6` accepts exactly this grammar (property C124).
-/

namespace Verif.IPTable

/-! ### Specification -/

/-- the hexadecimal digits and their values -/
def hexDigits : List (Char × Nat) :=
  [('0', 0), ('1', 1), ('2', 2), ('3', 3), ('4', 4), ('5', 5), ('6', 6), ('7', 7), ('8', 8), ('9', 9),
   ('a', 10), ('b', 11), ('c', 12), ('d', 13), ('e', 14), ('f', 15),
   ('A', 10), ('B', 11), ('C', 12), ('D', 13), ('E', 14), ('F', 15)]

/-- the text is a sequence of hexadecimal digits, and what number it is -/
inductive HexNumber : List Char → Nat → Prop
  | nil : HexNumber [] 0
  | snoc {t v c d} : HexNumber t v → (c, d) ∈ hexDigits → HexNumber (t ++ [c]) (16 * v + d)

/-- a group: one to four digits -/
def HexGroup (t : List Char) (v : Nat) : Prop := HexNumber t v ∧ 1 ≤ t.length ∧ t.length ≤ 4

/-- groups with colons between them -/
inductive HexGroups : List Char → List Nat → Prop
  | one {t v} : HexGroup t v → HexGroups t [v]
  | cons {t v r vs} : HexGroup t v → HexGroups r vs → HexGroups (t ++ ':' :: r) (v :: vs)

/-- the same, the last two groups possibly written as an IPv4 address -/
inductive Groups : List Char → List Nat → Prop
  | one {t v} : HexGroup t v → Groups t [v]
  | dotted (b : BitVec 32) : Groups (Dotted b).toList [b.toNat / 65536, b.toNat % 65536]
  | cons {t v r vs} : HexGroup t v → Groups r vs → Groups (t ++ ':' :: r) (v :: vs)

/-- the text of an IPv6 address without zone, and its eight groups: all of them, or less than eight with `::` in the place of
those that are missing, which are zero -/
inductive Text6 : List Char → List Nat → Prop
  | full {t gs} : Groups t gs → gs.length = 8 → Text6 t gs
  | short {l ls r rs} : (l = [] ∧ ls = [] ∨ HexGroups l ls) → (r = [] ∧ rs = [] ∨ Groups r rs) → ls.length + rs.length < 8 →
      Text6 (l ++ ':' :: ':' :: r) (ls ++ List.replicate (8 - (ls.length + rs.length)) 0 ++ rs)

/-! ### Digits -/

theorem hexVal_iff {c : Char} {d : Nat} : hexVal c = some d ↔ (c, d) ∈ hexDigits := by
  constructor
  · intro h
    have key : ∀ n : Fin 128, ∀ d : Fin 16, hexVal (Char.ofNat n.1) = some d.1 → (Char.ofNat n.1, d.1) ∈ hexDigits := by decide +kernel
    have hc : c.toNat < 128 ∧ d < 16 := by
      unfold hexVal at h
      simp only [Char.le_def, UInt32.le_iff_toNat_le] at h
      have e0 : ('0' : Char).val.toNat = 48 := rfl
      have e9 : ('9' : Char).val.toNat = 57 := rfl
      have ea : ('a' : Char).val.toNat = 97 := rfl
      have ef : ('f' : Char).val.toNat = 102 := rfl
      have eA : ('A' : Char).val.toNat = 65 := rfl
      have eF : ('F' : Char).val.toNat = 70 := rfl
      have z0 : ('0' : Char).toNat = 48 := rfl
      have za : ('a' : Char).toNat = 97 := rfl
      have zA : ('A' : Char).toNat = 65 := rfl
      have ec : c.toNat = c.val.toNat := rfl
      rw [z0, za, zA, e0, e9, ea, ef, eA, eF, ec] at h
      rw [ec]
      generalize c.val.toNat = n at h ⊢
      split at h
      · injection h with h; omega
      · split at h
        · injection h with h; omega
        · split at h
          · injection h with h; omega
          · cases h
    have := key ⟨c.toNat, hc.1⟩ ⟨d, hc.2⟩
    simp only [Char.ofNat_toNat] at this
    exact this h
  · intro h
    exact (by decide : ∀ x ∈ hexDigits, hexVal x.1 = some x.2) _ h

theorem hexDigits_lt {c : Char} {d : Nat} (h : (c, d) ∈ hexDigits) : d < 16 ∧ c ≠ ':' ∧ c ≠ '.' ∧ c ≠ '%' :=
  (by decide : ∀ x ∈ hexDigits, x.2 < 16 ∧ x.1 ≠ ':' ∧ x.1 ≠ '.' ∧ x.1 ≠ '%') _ h

theorem HexNumber.lt {t : List Char} {v : Nat} (h : HexNumber t v) : v < 16 ^ t.length := by
  induction h with
  | nil => simp
  | snoc _ hd ih =>
    have := (hexDigits_lt hd).1
    rw [List.length_append, List.length_singleton, Nat.pow_succ]
    omega

theorem HexNumber.chars {t : List Char} {v : Nat} (h : HexNumber t v) : ∀ c ∈ t, ∃ d, (c, d) ∈ hexDigits := by
  induction h with
  | nil => intro c hc; cases hc
  | snoc _ hd ih =>
    intro c hc
    rcases List.mem_append.1 hc with hc | hc
    · exact ih c hc
    · rw [List.mem_singleton.1 hc]; exact ⟨_, hd⟩

theorem HexGroup.chars {t : List Char} {v : Nat} (h : HexGroup t v) : ∀ c ∈ t, c ≠ ':' ∧ c ≠ '.' ∧ c ≠ '%' := by
  intro c hc
  obtain ⟨d, hd⟩ := h.1.chars c hc
  exact (hexDigits_lt hd).2

theorem HexGroup.lt {t : List Char} {v : Nat} (h : HexGroup t v) : v < 65536 := by
  have h1 := h.1.lt
  have h2 : 16 ^ t.length ≤ 16 ^ 4 := Nat.pow_le_pow_right (by decide) h.2.2
  omega

/-! ### `readHex` -/

/-- no digit follows -/
def NoDigit (s : List Char) : Prop := ∀ c cs, s = c :: cs → hexVal c = none

theorem readHex_done {s : List Char} (hs : NoDigit s) (off acc : Nat) : readHex off acc s = some (off, acc, s) := by
  cases s with
  | nil => rw [readHex]
  | cons c cs => rw [readHex, hs c cs rfl]

theorem readHex_number {t : List Char} {v : Nat} (h : HexNumber t v) : t.length ≤ 4 → ∀ s,
    readHex 0 0 (t ++ s) = readHex t.length v s := by
  induction h with
  | nil => intro _ s; rfl
  | @snoc t v c d h0 hd ih =>
    intro hl s
    rw [List.length_append, List.length_singleton] at hl ⊢
    have h1 := h0.lt
    have h2 : 16 ^ t.length ≤ 16 ^ 3 := Nat.pow_le_pow_right (by decide) (by omega)
    have h3 := (hexDigits_lt hd).1
    rw [List.append_assoc, ih (by omega)]
    show readHex t.length v (c :: s) = _
    rw [readHex, hexVal_iff.2 hd]
    simp only
    rw [if_neg (by omega), if_neg (by omega), Nat.mul_comm v 16]

theorem readHex_group {t : List Char} {v : Nat} (h : HexGroup t v) {s : List Char} (hs : NoDigit s) :
    readHex 0 0 (t ++ s) = some (t.length, v, s) := by
  rw [readHex_number h.1 h.2.2, readHex_done hs]

theorem readHex_sound : ∀ {s : List Char} {t : List Char} {v off acc : Nat} {rest : List Char}, HexNumber t v → t.length ≤ 4 →
    readHex t.length v s = some (off, acc, rest) →
    ∃ t', t ++ s = t' ++ rest ∧ HexNumber t' acc ∧ t'.length = off ∧ off ≤ 4 ∧ NoDigit rest := by
  intro s
  induction s with
  | nil =>
    intro t v off acc rest h hl he
    rw [readHex] at he
    cases he
    exact ⟨t, rfl, h, rfl, hl, fun c cs h => by cases h⟩
  | cons c cs ih =>
    intro t v off acc rest h hl he
    rw [readHex] at he
    cases hc : hexVal c with
    | none =>
      rw [hc] at he
      cases he
      exact ⟨t, rfl, h, rfl, hl, fun c' cs' e => by cases e; exact hc⟩
    | some d =>
      rw [hc] at he
      simp only at he
      split at he
      · cases he
      split at he
      · cases he
      rename_i h1 h2
      have hn := HexNumber.snoc h (hexVal_iff.1 hc)
      rw [show t.length + 1 = (t ++ [c]).length by simp, Nat.mul_comm v 16] at he
      obtain ⟨t', e1, e2⟩ := ih hn (by simp; omega) he
      exact ⟨t', by rw [← e1]; simp, e2⟩

theorem readHex_sound0 {s : List Char} {off acc : Nat} {rest : List Char} (h : readHex 0 0 s = some (off, acc, rest)) (h0 : off ≠ 0) :
    ∃ t, s = t ++ rest ∧ HexGroup t acc ∧ t.length = off ∧ NoDigit rest := by
  obtain ⟨t, e1, e2, e3, e4, e5⟩ := readHex_sound (t := []) .nil (by simp) h
  exact ⟨t, e1, ⟨e2, by omega, by omega⟩, e3, e5⟩

/-! ### Dotted -/

theorem string4_toList (b : BitVec 32) : string4 b = (Dotted b).toList := by
  rw [← addrString_dotted]
  show _ = (String.ofList (string4 b)).toList
  rw [String.toList_ofList]

theorem pairUp_bytes (b : BitVec 32) : pairUp [byteOf b 0, byteOf b 1, byteOf b 2, byteOf b 3] = [b.toNat / 65536, b.toNat % 65536] := by
  have hb := b.isLt
  show [byteOf b 0 * 256 + byteOf b 1, byteOf b 2 * 256 + byteOf b 3] = _
  unfold byteOf
  congr 1
  · omega
  · congr 1
    omega

theorem v4Fields_text {s : List Char} {fs : List Nat} (h : v4Fields s = some fs) :
    ∃ b : BitVec 32, s = (Dotted b).toList ∧ pairUp fs = [b.toNat / 65536, b.toNat % 65536] := by
  have hp : parseIPv4 s = some (.v4 (BitVec.ofNat 32 (ofDigits 256 fs))) := by
    unfold parseIPv4; rw [h]; rfl
  obtain ⟨b, _, rfl⟩ := parseIPv4_text hp
  rw [v4Fields_string4] at h
  cases h
  exact ⟨b, string4_toList b, pairUp_bytes b⟩

/-- what the loop finds at the start of an IPv4 address -/
theorem readHex_dotted (b : BitVec 32) : ∃ off acc rest, readHex 0 0 (Dotted b).toList = some (off, acc, rest) ∧ off ≠ 0 ∧
    rest.head? = some '.' := by
  rw [← string4_toList]
  have e4 : string4 b = fmtDec (byteOf b 0) ++ '.' :: (fmtDec (byteOf b 1) ++ '.' :: fmtDec (byteOf b 2) ++ '.' :: fmtDec (byteOf b 3)) := by
    simp [string4]
  rw [e4]
  obtain ⟨k, acc, hk, e⟩ := readHex_dec (byteOf_lt b 0) (fmtDec (byteOf b 1) ++ '.' :: fmtDec (byteOf b 2) ++ '.' :: fmtDec (byteOf b 3))
  rw [e]
  exact ⟨_, _, _, rfl, by omega, rfl⟩

/-! ### The loop reads what the grammar describes -/

theorem noDigit_nil : NoDigit [] := fun c cs h => by cases h
theorem noDigit_colon (s : List Char) : NoDigit (':' :: s) := fun c cs h => by cases h; exact colon_not_hex

theorem HexGroup.head {t : List Char} {v : Nat} (h : HexGroup t v) : ∃ c cs, t = c :: cs ∧ c ≠ ':' := by
  cases t with
  | nil => have := h.2.1; simp at this
  | cons c cs => exact ⟨c, cs, rfl, (h.chars c (by simp)).1⟩

theorem Groups.head {t : List Char} {vs : List Nat} (h : Groups t vs) : ∃ c cs, t = c :: cs ∧ c ≠ ':' := by
  cases h with
  | one h => exact h.head
  | dotted b =>
    rw [← string4_toList]
    obtain ⟨c, cs, h1, h2⟩ := string4_head b
    exact ⟨c, cs, h1, h2.ne.1⟩
  | cons h _ =>
    obtain ⟨c, cs, rfl, h2⟩ := h.head
    exact ⟨c, _, rfl, h2⟩

theorem HexGroups.groups {t : List Char} {vs : List Nat} (h : HexGroups t vs) : Groups t vs := by
  induction h with
  | one h => exact .one h
  | cons h _ ih => exact .cons h ih

theorem v6Loop_one {t : List Char} {v : Nat} (h : HexGroup t v) (k : Nat) (gs : List Nat) (ell : Option Nat) :
    v6Loop (k + 1) gs ell t = some (gs ++ [v], ell, []) := by
  have e := readHex_group h noDigit_nil
  rw [List.append_nil] at e
  rw [v6Loop, e]
  simp only
  rw [if_neg (by have := h.2.1; omega), if_neg (by simp)]

theorem v6Loop_more {t : List Char} {v : Nat} (h : HexGroup t v) (k : Nat) (gs : List Nat) (ell : Option Nat) {d : Char}
    (hd : d ≠ ':') (r : List Char) : v6Loop (k + 1) gs ell (t ++ ':' :: d :: r) = v6Loop k (gs ++ [v]) ell (d :: r) := by
  rw [v6Loop, readHex_group h (noDigit_colon _)]
  simp only
  rw [if_neg (by have := h.2.1; omega), if_neg (by simp), if_neg (by simp), if_neg hd]

theorem v6Loop_gap {t : List Char} {v : Nat} (h : HexGroup t v) (k : Nat) (gs : List Nat) (r : List Char) :
    v6Loop (k + 1) gs none (t ++ ':' :: ':' :: r) = if r = [] then some (gs ++ [v], some (gs.length + 1), [])
      else v6Loop k (gs ++ [v]) (some (gs.length + 1)) r := by
  rw [v6Loop, readHex_group h (noDigit_colon _)]
  simp only
  rw [if_neg (by have := h.2.1; omega), if_neg (by simp), if_neg (by simp), if_pos trivial, if_neg (by simp)]

theorem v6Loop_dotted (b : BitVec 32) (k : Nat) {gs : List Nat} {ell : Option Nat} (h : ¬ (ell = none ∧ gs.length ≠ 6))
    (hl : gs.length + 2 ≤ 8) :
    v6Loop (k + 1) gs ell (Dotted b).toList = some (gs ++ [b.toNat / 65536, b.toNat % 65536], ell, []) := by
  obtain ⟨off, acc, rest, e1, e2, e3⟩ := readHex_dotted b
  rw [v6Loop, e1]
  simp only
  rw [if_neg e2, if_pos e3, if_neg h, if_neg (by omega), ← string4_toList, v4Fields_string4]
  simp only
  rw [pairUp_bytes]

theorem v6Loop_groups {t : List Char} {vs : List Nat} (h : Groups t vs) : ∀ {k : Nat} {gs : List Nat} {ell : Option Nat},
    k + gs.length = 8 → vs.length ≤ k → (ell = none → vs.length = k) → v6Loop k gs ell t = some (gs ++ vs, ell, []) := by
  induction h with
  | @one t v h =>
    intro k gs ell hk hv _
    obtain ⟨k, rfl⟩ : ∃ m, k = m + 1 := ⟨k - 1, by simp at hv; omega⟩
    exact v6Loop_one h k gs ell
  | dotted b =>
    intro k gs ell hk hv he
    simp only [List.length_cons, List.length_nil] at hv he
    obtain ⟨k, rfl⟩ : ∃ m, k = m + 1 := ⟨k - 1, by omega⟩
    exact v6Loop_dotted b k (by rintro ⟨h1, h2⟩; have := he h1; omega) (by omega)
  | @cons t v r vs h hr ih =>
    intro k gs ell hk hv he
    simp only [List.length_cons] at hv he
    obtain ⟨k, rfl⟩ : ∃ m, k = m + 1 := ⟨k - 1, by omega⟩
    obtain ⟨d, r, rfl, hd⟩ := hr.head
    rw [v6Loop_more h k gs ell hd r, ih (by simp; omega) (by omega) (fun h => by have := he h; omega)]
    simp

theorem v6Loop_short {l : List Char} {ls : List Nat} (h : HexGroups l ls) {r : List Char} {rs : List Nat}
    (hr : r = [] ∧ rs = [] ∨ Groups r rs) : ∀ {k : Nat} {gs : List Nat}, k + gs.length = 8 → ls.length + rs.length ≤ k →
    v6Loop k gs none (l ++ ':' :: ':' :: r) = some (gs ++ ls ++ rs, some (gs.length + ls.length), []) := by
  induction h with
  | @one t v h =>
    intro k gs hk hv
    simp only [List.length_cons, List.length_nil] at hv
    obtain ⟨k, rfl⟩ : ∃ m, k = m + 1 := ⟨k - 1, by omega⟩
    rw [v6Loop_gap h]
    rcases hr with ⟨rfl, rfl⟩ | hr
    · rw [if_pos rfl]; simp
    · obtain ⟨d, r, rfl, hd⟩ := hr.head
      rw [if_neg (by simp), v6Loop_groups hr (by simp; omega) (by omega) (by simp)]
      simp
  | @cons t v l ls h hl ih =>
    intro k gs hk hv
    simp only [List.length_cons] at hv
    obtain ⟨k, rfl⟩ : ∃ m, k = m + 1 := ⟨k - 1, by omega⟩
    obtain ⟨d, l, rfl, hd⟩ := hl.groups.head
    have := ih (k := k) (gs := gs ++ [v]) (by simp; omega) (by omega)
    rw [show t ++ ':' :: d :: l ++ ':' :: ':' :: r = t ++ ':' :: d :: (l ++ ':' :: ':' :: r) by simp, v6Loop_more h k gs none hd]
    show v6Loop k (gs ++ [v]) none (d :: l ++ ':' :: ':' :: r) = _
    rw [this]
    simp
    omega

/-! ### and nothing else -/

theorem v6Loop_sound_some : ∀ {k : Nat} {gs : List Nat} {e : Nat} {s : List Char} {gs' : List Nat} {ell : Option Nat}, s ≠ [] →
    v6Loop k gs (some e) s = some (gs', ell, []) → ell = some e ∧ ∃ vs, gs' = gs ++ vs ∧ Groups s vs := by
  intro k
  induction k with
  | zero => intro gs e s gs' ell hs h; rw [v6Loop] at h; cases h; exact absurd rfl hs
  | succ k ih =>
    intro gs e s gs' ell hs h
    rw [v6Loop] at h
    split at h
    · cases h
    rename_i off acc rest hr
    split at h
    · cases h
    rename_i h0
    obtain ⟨t, rfl, ht, _, hn⟩ := readHex_sound0 hr h0
    split at h
    · split at h
      · cases h
      split at h
      · cases h
      split at h
      · cases h
      rename_i fs hf
      cases h
      obtain ⟨b, e1, e2⟩ := v4Fields_text hf
      exact ⟨rfl, _, by rw [e2], by rw [e1]; exact .dotted b⟩
    · split at h
      · cases h
        exact ⟨rfl, _, rfl, by rw [List.append_nil]; exact .one ht⟩
      · rename_i c rest hh
        split at h
        · cases h
        rename_i hc
        have hc : c = ':' := by simpa using hc
        subst hc
        split at h
        · cases h
        rename_i d rest
        split at h
        · cases h
        rename_i hd
        obtain ⟨e1, vs, e2, e3⟩ := ih (by simp) h
        exact ⟨e1, acc :: vs, by rw [e2]; simp, .cons ht e3⟩

theorem v6Loop_sound_none : ∀ {k : Nat} {gs : List Nat} {s : List Char} {gs' : List Nat} {ell : Option Nat}, s ≠ [] →
    v6Loop k gs none s = some (gs', ell, []) →
    (ell = none ∧ ∃ vs, gs' = gs ++ vs ∧ Groups s vs) ∨
    ∃ l ls r rs, s = l ++ ':' :: ':' :: r ∧ HexGroups l ls ∧ (r = [] ∧ rs = [] ∨ Groups r rs) ∧ gs' = gs ++ ls ++ rs ∧
      ell = some (gs.length + ls.length) := by
  intro k
  induction k with
  | zero => intro gs s gs' ell hs h; rw [v6Loop] at h; cases h; exact absurd rfl hs
  | succ k ih =>
    intro gs s gs' ell hs h
    rw [v6Loop] at h
    split at h
    · cases h
    rename_i off acc rest hr
    split at h
    · cases h
    rename_i h0
    obtain ⟨t, rfl, ht, _, hn⟩ := readHex_sound0 hr h0
    split at h
    · split at h
      · cases h
      split at h
      · cases h
      split at h
      · cases h
      rename_i fs hf
      cases h
      obtain ⟨b, e1, e2⟩ := v4Fields_text hf
      exact .inl ⟨rfl, _, by rw [e2], by rw [e1]; exact .dotted b⟩
    · split at h
      · cases h
        exact .inl ⟨rfl, _, rfl, by rw [List.append_nil]; exact .one ht⟩
      · rename_i c rest hh
        split at h
        · cases h
        rename_i hc
        have hc : c = ':' := by simpa using hc
        subst hc
        split at h
        · cases h
        rename_i d rest
        split at h
        · rename_i hd
          subst hd
          split at h
          · cases h
          split at h
          · rename_i hnil
            cases h
            exact .inr ⟨t, [acc], rest, [], rfl, .one ht, .inl ⟨hnil, rfl⟩, by simp, rfl⟩
          · rename_i hnil
            obtain ⟨e1, vs, e2, e3⟩ := v6Loop_sound_some hnil h
            exact .inr ⟨t, [acc], rest, vs, rfl, .one ht, .inr e3, e2, e1⟩
        · rename_i hd
          rcases ih (by simp) h with ⟨e1, vs, e2, e3⟩ | ⟨l, ls, r, rs, e1, e2, e3, e4, e5⟩
          · exact .inl ⟨e1, acc :: vs, by rw [e2]; simp, .cons ht e3⟩
          · refine .inr ⟨t ++ ':' :: l, acc :: ls, r, rs, by rw [e1]; simp, .cons ht e2, e3, by rw [e4]; simp, ?_⟩
            rw [e5]
            simp
            omega

theorem v6Loop_length : ∀ {k : Nat} {gs : List Nat} {ell : Option Nat} {s : List Char} {gs' : List Nat} {ell' : Option Nat}
    {rest' : List Char}, k + gs.length = 8 → v6Loop k gs ell s = some (gs', ell', rest') → gs'.length ≤ 8 := by
  intro k
  induction k with
  | zero => intro gs ell s gs' ell' rest' hk h; rw [v6Loop] at h; cases h; omega
  | succ k ih =>
    intro gs ell s gs' ell' rest' hk h
    rw [v6Loop] at h
    split at h
    · cases h
    split at h
    · cases h
    split at h
    · split at h
      · cases h
      split at h
      · cases h
      rename_i hl
      split at h
      · cases h
      rename_i fs hf
      cases h
      obtain ⟨b, _, e2⟩ := v4Fields_text hf
      rw [e2]
      simp only [List.length_append, List.length_cons, List.length_nil]
      omega
    · split at h
      · cases h
        simp only [List.length_append, List.length_cons, List.length_nil]
        omega
      split at h
      · cases h
      split at h
      · cases h
      split at h
      · split at h
        · cases h
        split at h
        · cases h
          simp only [List.length_append, List.length_cons, List.length_nil]
          omega
        · exact ih (by simp only [List.length_append, List.length_cons, List.length_nil]; omega) h
      · exact ih (by simp only [List.length_append, List.length_cons, List.length_nil]; omega) h

theorem expand_some {gs : List Nat} {ell : Option Nat} {s : List Char} {out : List Nat} (h : expand (gs, ell, s) = some out) :
    s = [] ∧ ((gs.length < 8 ∧ ∃ e, ell = some e ∧ out = gs.take e ++ List.replicate (8 - gs.length) 0 ++ gs.drop e) ∨
      (8 ≤ gs.length ∧ ell = none ∧ out = gs)) := by
  unfold expand at h
  simp only at h
  split at h
  · cases h
  rename_i hs
  refine ⟨by simpa using hs, ?_⟩
  split at h
  · rename_i hl
    split at h
    · cases h
    · cases h
      exact .inl ⟨hl, _, rfl, rfl⟩
  · rename_i hl
    split at h
    · cases h
    · rename_i he
      cases h
      refine .inr ⟨by omega, ?_, rfl⟩
      cases ell with
      | none => rfl
      | some e => exact absurd rfl he

theorem expand_short {gs : List Nat} (h : gs.length < 8) (e : Nat) :
    expand (gs, some e, []) = some (gs.take e ++ List.replicate (8 - gs.length) 0 ++ gs.drop e) := by
  unfold expand
  simp only
  rw [if_neg (by simp), if_pos h]

/-- the groups of a text -/
theorem v6Groups_iff {s : List Char} {gs : List Nat} : v6Groups s = some gs ↔ Text6 s gs := by
  constructor
  · intro h
    unfold v6Groups at h
    split at h
    · rename_i r
      split at h
      · rename_i hr
        cases h
        exact .short (.inl ⟨rfl, rfl⟩) (.inl ⟨hr, rfl⟩) (by simp)
      · rename_i hr
        obtain ⟨⟨g, ell, rest⟩, h1, h2⟩ := Option.bind_eq_some_iff.1 h
        obtain ⟨rfl, h3⟩ := expand_some h2
        obtain ⟨rfl, vs, e1, e2⟩ := v6Loop_sound_some hr h1
        rw [List.nil_append] at e1
        subst e1
        rcases h3 with ⟨hl, e, he, rfl⟩ | ⟨_, he, _⟩
        · cases he
          have := Text6.short (.inl ⟨rfl, rfl⟩) (.inr e2) (ls := []) (by simpa using hl)
          simpa using this
        · cases he
    · rename_i hne
      obtain ⟨⟨g, ell, rest⟩, h1, h2⟩ := Option.bind_eq_some_iff.1 h
      obtain ⟨rfl, h3⟩ := expand_some h2
      have hs : s ≠ [] := by
        rintro rfl
        rw [v6Loop, readHex_nil] at h1
        simp at h1
      rcases v6Loop_sound_none hs h1 with ⟨rfl, vs, e1, e2⟩ | ⟨l, ls, r, rs, rfl, e2, e3, e4, e5⟩
      · rcases h3 with ⟨_, e, he, _⟩ | ⟨hl, _, rfl⟩
        · cases he
        · have := v6Loop_length (by rfl) h1
          rw [List.nil_append] at e1
          subst e1
          exact .full e2 (by omega)
      · rcases h3 with ⟨hl, e, he, rfl⟩ | ⟨_, he, _⟩
        · rw [e5] at he
          cases he
          rw [List.nil_append] at e4
          subst e4
          rw [List.length_append] at hl ⊢
          have := Text6.short (.inr e2) e3 hl
          simpa using this
        · rw [e5] at he; cases he
  · intro h
    cases h with
    | full hg hl =>
      obtain ⟨c, cs, e, hc⟩ := hg.head
      rw [v6Groups_digit e hc, v6Loop_groups hg (by rfl) (by omega) (fun _ => hl)]
      show expand ([] ++ gs, none, []) = _
      unfold expand
      simp only
      rw [if_neg (by simp), if_neg (by simp; omega), if_neg (by simp), List.nil_append]
    | @short l ls r rs hl hr hlt =>
      rcases hl with ⟨rfl, rfl⟩ | hl
      · simp only [List.length_nil, Nat.zero_add] at hlt
        show (if r = [] then _ else _) = _
        rcases hr with ⟨rfl, rfl⟩ | hr
        · rw [if_pos rfl]; rfl
        · obtain ⟨c, cs, rfl, _⟩ := hr.head
          rw [if_neg (by simp), v6Loop_groups hr (by rfl) (by omega) (by simp)]
          show expand ([] ++ rs, some 0, []) = _
          rw [List.nil_append, expand_short hlt]
          simp
      · obtain ⟨c, cs, e, hc⟩ := hl.groups.head
        have : l ++ ':' :: ':' :: r = c :: (cs ++ ':' :: ':' :: r) := by rw [e]; rfl
        rw [v6Groups_digit this hc, v6Loop_short hl hr (by rfl) (by omega)]
        show expand ([] ++ ls ++ rs, some (0 + ls.length), []) = _
        rw [List.nil_append, Nat.zero_add, expand_short (by simpa using hlt)]
        simp

end Verif.IPTable
