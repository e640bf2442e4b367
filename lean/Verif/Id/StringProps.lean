import Verif.Id.Props

/-! Property C86: `String` of ids. -/

namespace Verif.Id
variable {P : Pkg}

theorem Numeral.no_slash {s n} (h : Numeral s n) : (47 : UInt8) ∉ s := by
  have hd : ∀ {c d}, Digit c d → (47 : UInt8) ≠ c := by
    rintro c d ⟨h1, _⟩ rfl
    have : (47 : UInt8).toNat = 47 := rfl
    omega
  induction h with
  | digit h => simpa using hd h
  | more _ h ih => simp [ih, hd h]

theorem split_unique {α : Type} {x : α} : ∀ {u u' v v' : List α}, x ∉ u → x ∉ u' → u ++ x :: v = u' ++ x :: v' → u = u' ∧ v = v' := by
  intro u
  induction u with
  | nil =>
    intro u' v v' _ h2 h
    cases u' with
    | nil => cases h; exact ⟨rfl, rfl⟩
    | cons y u' => cases h; exact absurd (List.mem_cons_self ..) h2
  | cons y u ih =>
    intro u' v v' h1 h2 h
    cases u' with
    | nil => cases h; exact absurd (List.mem_cons_self ..) h1
    | cons y' u' =>
      injection h with ha hb
      obtain ⟨e1, e2⟩ := ih (fun h => h1 (by simp [h])) (fun h => h2 (by simp [h])) hb
      exact ⟨by rw [ha, e1], e2⟩

/-- **C86** (id16, id32, id64) The string of an id is the decimal value, a slash and the decimal length, and ids with
the same string are equal; so are ranges of full-length ids. -/
theorem C86_string (hP : P = id16 ∨ P = id32 ∨ P = id64) :
    (∀ i : MyId P, ∃ u v, i.string = u ++ 47 :: v ∧ Numeral u i.id.toNat ∧ Numeral v i.len) ∧
    (∀ i j : MyId P, i.string = j.string → i = j) ∧
    ∀ a b a' b' : BitVec P.W, (rangeFrom a b : Rng P).string = (rangeFrom a' b' : Rng P).string → a = a' ∧ b = b' := by
  refine ⟨fun i => ⟨_, _, rfl, numeral_fmtUint _, numeral_fmtUint _⟩, fun i j h => ?_, fun a b a' b' h => ?_⟩
  · obtain ⟨h1, h2⟩ := split_unique (numeral_fmtUint _).no_slash (numeral_fmtUint _).no_slash h
    have e1 := C34_numeral_deterministic (numeral_fmtUint i.id.toNat) (h1 ▸ numeral_fmtUint j.id.toNat)
    have e2 := C34_numeral_deterministic (numeral_fmtUint i.len) (h2 ▸ numeral_fmtUint j.len)
    cases i; cases j
    congr 1
    exact BitVec.eq_of_toNat_eq e1
  · have h0 := (C34_parseRange hP).1 a b
    rw [h, (C34_parseRange hP).1 a' b'] at h0
    have h0 := Option.some.inj h0
    exact ⟨(congrArg (fun r : Rng P => r.lo.id) h0).symm, (congrArg (fun r : Rng P => r.hi.id) h0).symm⟩

-- "41/12"
example : (⟨41, 12⟩ : MyId id16).string = [52, 49, 47, 49, 50] := by
  show fmtUint 41 ++ 47 :: fmtUint 12 = _
  have h1 : fmtUint 41 = fmtUint 4 ++ [49] := by rw [fmtUint]; rfl
  have h2 : fmtUint 12 = fmtUint 1 ++ [50] := by rw [fmtUint]; rfl
  have h3 : fmtUint 4 = [52] := by rw [fmtUint]; rfl
  have h4 : fmtUint 1 = [49] := by rw [fmtUint]; rfl
  rw [h1, h2, h3, h4]
  rfl

end Verif.Id
