import Verif.GTree.EntryProps
import Verif.Id.StringProps

/-!
C104: `String` of entries. `%d` on a struct prints its fields in braces, separated by a space; `String` of
the id is not used, since it is not called for the verb `%d` (package fmt, not part of /repo). The id is a value, as in
all entries that the repository makes (a pointer would be printed with a leading `&`).
-/

namespace Verif.GTree
open Verif.Id

/-- the bytes of an ASCII string -/
def ascii (s : String) : Text := s.toList.map fun c => UInt8.ofNat c.toNat

/-- entry.go:24 `String` of an entry: `id: {` value, space, length `}, labels: ` labels -/
def Entry.string {P : Pkg} (e : Entry P LabelSet) : Text :=
  ascii "id: {" ++ fmtUint e.id.id.toNat ++ ascii " " ++ fmtUint e.id.len ++ ascii "}, labels: " ++ setString e.labels

theorem _root_.Verif.Id.Numeral.no_other {s n} (h : Numeral s n) {c : UInt8} (hc : c.toNat < 48 ∨ 58 ≤ c.toNat) : c ∉ s := by
  have hd : ∀ {x d}, Digit x d → c ≠ x := by
    rintro x d ⟨h1, h2⟩ rfl
    omega
  induction h with
  | digit h => simpa using hd h
  | more _ h ih => simp [ih, hd h]

theorem string_parts {P Q : Pkg} {e₁ : Entry P LabelSet} {e₂ : Entry Q LabelSet} (h : e₁.string = e₂.string) :
    e₁.id.id.toNat = e₂.id.id.toNat ∧ e₁.id.len = e₂.id.len ∧ setString e₁.labels = setString e₂.labels := by
  unfold Entry.string at h
  have hsp : ascii " " = [32] := by decide
  have hl : ascii "}, labels: " = 125 :: ascii ", labels: " := by decide
  rw [hsp, hl] at h
  simp only [List.append_assoc, List.append_cancel_left_eq, List.cons_append, List.nil_append] at h
  obtain ⟨h1, h2⟩ := split_unique ((numeral_fmtUint e₁.id.id.toNat).no_other (c := 32) (by decide))
    ((numeral_fmtUint e₂.id.id.toNat).no_other (c := 32) (by decide)) h
  obtain ⟨h3, h4⟩ := split_unique ((numeral_fmtUint e₁.id.len).no_other (c := 125) (by decide))
    ((numeral_fmtUint e₂.id.len).no_other (c := 125) (by decide)) h2
  refine ⟨C34_numeral_deterministic (numeral_fmtUint _) (h1 ▸ numeral_fmtUint _),
    C34_numeral_deterministic (numeral_fmtUint _) (h3 ▸ numeral_fmtUint _), ?_⟩
  exact List.append_cancel_left h4

/-- **C104** Two entries have the same `String` exactly if they are `Equal`; if the labels have no commas and their keys
no equals signs, exactly if id, length and labels agree. -/
theorem C104_string {P : Pkg} (e₁ e₂ : Entry P LabelSet) :
    (e₁.string = e₂.string ↔ e₁.equal e₂ = true) ∧
    (Plain e₁.labels → Plain e₂.labels → (e₁.string = e₂.string ↔
      e₁.id.id = e₂.id.id ∧ e₁.id.len = e₂.id.len ∧ ∀ k, e₁.labels.get? k = e₂.labels.get? k)) := by
  have h : e₁.string = e₂.string ↔ e₁.equal e₂ = true := by
    unfold Entry.equal
    simp only [Bool.and_eq_true, beq_iff_eq, and_assoc]
    constructor
    · intro h
      obtain ⟨h1, h2, h3⟩ := string_parts h
      exact ⟨BitVec.eq_of_toNat_eq h1, h2, congrArg toStr h3⟩
    · rintro ⟨h1, h2, h3⟩
      unfold Entry.string
      rw [h1, h2, toStr_inj h3]
  exact ⟨h, fun h1 h2 => h.trans (C98_equal_partial e₁ e₂ h1 h2)⟩

/-- **C104** The kind of id is not shown: entries of two packages have the same `String` exactly if value, length and
the strings of the labels agree. -/
theorem C104_string_packages {P Q : Pkg} (e₁ : Entry P LabelSet) (e₂ : Entry Q LabelSet) :
    e₁.string = e₂.string ↔ e₁.id.id.toNat = e₂.id.id.toNat ∧ e₁.id.len = e₂.id.len ∧
      setString e₁.labels = setString e₂.labels := by
  refine ⟨string_parts, ?_⟩
  rintro ⟨h1, h2, h3⟩
  unfold Entry.string
  rw [h1, h2, h3]

/-- `id: {5 16}, labels: a=b` -/
example : (⟨⟨5, 16⟩, mk [([97], [98])]⟩ : Entry id16 LabelSet).string = ascii "id: {5 16}, labels: a=b" := by
  have h1 : fmtUint 5 = [53] := by rw [fmtUint]; rfl
  have h2 : fmtUint 16 = fmtUint 1 ++ [54] := by rw [fmtUint]; rfl
  have h3 : fmtUint 1 = [49] := by rw [fmtUint]; rfl
  have h4 : setString (mk [([97], [98])]) = ascii "a=b" := by
    show join (([[97, 61, 98]] : List Text).mergeSort textLe) = _
    rw [List.mergeSort_of_pairwise (by decide)]
    rfl
  show ascii "id: {" ++ fmtUint 5 ++ ascii " " ++ fmtUint 16 ++ ascii "}, labels: " ++ setString (mk [([97], [98])]) = _
  rw [h2, h1, h3, h4]
  decide

end Verif.GTree
