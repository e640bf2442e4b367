import Verif.GTree.RoomProps
import Verif.GTree.ExactProps

/-!
Property C120: a tree16 and a tree32 of the same length give the same replies.
-/

set_option linter.unusedSectionVars false
namespace Verif.GTree
open Verif.Id
open Verif.Tree (Tree Out newTree pfx)
variable {L : Type} [Labels L]

/-! ### The id of a tree32 that corresponds to one of a tree16 -/

/-- the same value -/
def wideV (x : BitVec 16) : BitVec 32 := x.setWidth 32

/-- the same value, with 16 more bits in the prefix -/
def wideI (i : MyId id16) : MyId id32 := ⟨wideV i.id, i.len + 16⟩

/-- the same labels -/
def wideE (e : Entry id16 L) : Entry id32 L := ⟨wideI e.id, e.labels⟩

/-- the same call; the text of `ClaimRange` stays -/
def wideO : Op id16 L → Op id32 L
  | .claim id l => .claim (wideI id) l
  | .update id l => .update (wideI id) l
  | .claimFree l => .claimFree l
  | .claimRange s l => .claimRange s l
  | .release id => .release (wideI id)
  | .releaseByLabel sel => .releaseByLabel sel

/-- the same result -/
def wideR : Result id16 L → Result id32 L
  | .done => .done
  | .err => .err
  | .got e => .got (wideE e)

/-- all queries have the same results -/
structure SameReplies (g : GTree tree16 L) (h : GTree tree32 L) : Prop where
  get : ∀ id : MyId id16, ∃ r, g.get id = .ok r ∧ h.get (wideI id) = .ok (r.map wideE)
  getAll : ∃ l : List (Entry id16 L), g.getAll = .ok (l.map some) ∧ h.getAll = .ok ((l.map wideE).map some)
  count : ∃ n, g.count = .ok n ∧ h.count = .ok n
  getByLabel : ∀ sel, ∃ l, g.getByLabel sel = .ok l ∧ h.getByLabel sel = .ok (l.map wideE)
  children : ∀ id : MyId id16, id.len ≤ 16 → ∃ l, g.children id = .ok l ∧ h.children (wideI id) = .ok (l.map wideE)
  parents : ∀ id : MyId id16, id.len ≤ 16 → ∃ l, g.parents id = .ok l ∧ h.parents (wideI id) = .ok (l.map wideE)

/-! ### Values -/

@[simp] theorem toNat_wideV (x : BitVec 16) : (wideV x).toNat = x.toNat := by
  unfold wideV
  rw [BitVec.toNat_setWidth]
  exact Nat.mod_eq_of_lt (by have := x.isLt; omega)

theorem wideV_inj {x y : BitVec 16} (h : wideV x = wideV y) : x = y := by
  have := congrArg BitVec.toNat h
  rw [toNat_wideV, toNat_wideV] at this
  exact BitVec.eq_of_toNat_eq this

theorem wideV_mono {x y : BitVec 16} (h : x ≤ y) : wideV x ≤ wideV y := by
  rw [BitVec.le_def, toNat_wideV, toNat_wideV]
  exact h

theorem wideV_lt {x : BitVec 16} {k : Nat} : (wideV x).toNat < k ↔ x.toNat < k := by
  rw [toNat_wideV]

theorem wideV_of_lt {y : BitVec 32} (h : y.toNat < 2 ^ 16) : ∃ x : BitVec 16, y = wideV x := by
  refine ⟨y.setWidth 16, BitVec.eq_of_toNat_eq ?_⟩
  rw [toNat_wideV, BitVec.toNat_setWidth]
  exact (Nat.mod_eq_of_lt h).symm

theorem wideI_inj {i j : MyId id16} (h : wideI i = wideI j) : i = j := by
  cases i; cases j
  have h1 := congrArg MyId.id h
  have h2 := congrArg MyId.len h
  simp only [wideI] at h1 h2
  have := wideV_inj h1
  subst this
  congr
  omega

/-- the 16 leading bits -/
def zeros : List Bool := List.replicate 16 false

theorem lsb_wide (x : BitVec 16) (k : Nat) : (wideV x).getLsbD k = (decide (k < 16) && x.getLsbD k) := by
  unfold wideV
  rw [BitVec.getLsbD_setWidth]
  by_cases h : k < 16
  · simp [h, show k < 32 by omega]
  · rw [BitVec.getLsbD_of_ge x k (by omega)]; simp

theorem lsb_high (k : Nat) (hk : k < 32) : (0xffff0000#32).getLsbD k = decide (16 ≤ k) := by
  have : ∀ k : Fin 32, (0xffff0000#32).getLsbD k.1 = decide (16 ≤ k.1) := by decide
  exact this ⟨k, hk⟩

theorem pre_wide (i : MyId id16) (hi : i.len ≤ 16) : pre (wideI i) = zeros ++ pre i := by
  rw [pre_eq i hi, pre_eq (wideI i) (by show i.len + 16 ≤ 32; omega)]
  apply List.ext_getElem?
  intro n
  rw [Verif.Tree.getElem?_bitsOf, List.getElem?_append, Verif.Tree.getElem?_bitsOf]
  show (if n < i.len + 16 then some ((wideV i.id).getLsbD (32 - 1 - n)) else none) = _
  have hw : (wideV i.id).getLsbD (32 - 1 - n) = _ := lsb_wide i.id (32 - 1 - n)
  refine (congrArg (fun z => if n < i.len + 16 then some z else none) hw).trans ?_
  simp only [zeros, List.length_replicate]
  by_cases h : n < 16
  · rw [if_pos (by omega), if_pos h, List.getElem?_replicate, if_pos h, decide_eq_false (by omega)]; rfl
  · rw [if_neg h]
    by_cases h2 : n < i.len + 16
    · rw [if_pos h2, if_pos (by omega), decide_eq_true (by omega)]
      show some (i.id.getLsbD _) = some (i.id.getLsbD (16 - 1 - (n - 16)))
      congr 2
      omega
    · rw [if_neg h2, if_neg (by omega)]

theorem mask_wide : ∀ c, c ≤ 16 → ∃ m : BitVec 16, mask16[c]? = some m ∧ mask32[c + 16]? = some (0xffff0000#32 ||| wideV m) := by
  intro c hc
  have : ∀ c : Fin 17, ∃ m : BitVec 16, mask16[c.1]? = some m ∧ mask32[c.1 + 16]? = some (0xffff0000#32 ||| wideV m) := by
    intro c
    have h := (by decide : ∀ c : Fin 17, mask32[c.1 + 16]? = (mask16[c.1]?).map (fun m => 0xffff0000#32 ||| wideV m) ∧ (mask16[c.1]?).isSome = true) c
    cases hm : mask16[c.1]? with
    | none => rw [hm] at h; exact absurd h.2 (by simp)
    | some m => exact ⟨m, rfl, by rw [h.1, hm]; rfl⟩
  exact this ⟨c, by omega⟩

theorem leadingZeros_wide (x : BitVec 16) : leadingZeros (wideV x) = leadingZeros x + 16 := by
  unfold leadingZeros
  rw [toNat_wideV]
  split
  · rfl
  · rename_i h
    have := (Nat.log2_lt h).2 x.isLt
    omega

theorem and_wide (a m : BitVec 16) : wideV a &&& (0xffff0000#32 ||| wideV m) = wideV (a &&& m) := by
  apply BitVec.eq_of_getLsbD_eq
  intro k hk
  simp only [BitVec.getLsbD_and, BitVec.getLsbD_or, lsb_wide, lsb_high k hk]
  by_cases h : k < 16
  · simp [h, show ¬ 16 ≤ k by omega]
  · simp [h]

theorem or_not_wide (a m : BitVec 16) : wideV a ||| ~~~(0xffff0000#32 ||| wideV m) = wideV (a ||| ~~~m) := by
  apply BitVec.eq_of_getLsbD_eq
  intro k hk
  simp only [BitVec.getLsbD_not, BitVec.getLsbD_or, lsb_wide, lsb_high k hk]
  by_cases h : k < 16
  · simp [h, hk, show ¬ 16 ≤ k by omega]
  · simp [h, show 16 ≤ k by omega]

theorem xor_wide (a b : BitVec 16) : wideV a ^^^ wideV b = wideV (a ^^^ b) := by
  apply BitVec.eq_of_getLsbD_eq
  intro k hk
  simp only [BitVec.getLsbD_xor, lsb_wide]
  by_cases h : k < 16 <;> simp [h]

theorem or_wide (a m : BitVec 16) : (wideV a ||| (0xffff0000#32 ||| wideV m) = BitVec.allOnes 32) ↔ a ||| m = BitVec.allOnes 16 := by
  constructor
  · intro h
    apply BitVec.eq_of_getLsbD_eq
    intro k hk
    have := congrArg (fun x => x.getLsbD k) h
    simp only [BitVec.getLsbD_or, lsb_wide, lsb_high k (show k < 32 by omega), BitVec.getLsbD_allOnes] at this ⊢
    simpa only [hk, show k < 32 by omega, show ¬ 16 ≤ k by omega, decide_true, decide_false, Bool.true_and, Bool.false_or] using this
  · intro h
    apply BitVec.eq_of_getLsbD_eq
    intro k hk
    simp only [BitVec.getLsbD_or, lsb_wide, lsb_high k hk, BitVec.getLsbD_allOnes]
    by_cases h1 : k < 16
    · have := congrArg (fun x => x.getLsbD k) h
      simp only [BitVec.getLsbD_or, BitVec.getLsbD_allOnes] at this
      simp [h1, hk, show ¬ 16 ≤ k by omega]
      simpa [h1] using this
    · simp [h1, hk, show 16 ≤ k by omega]

/-! ### Ranges -/

/-- `compareIDs` for a width -/
def compareW {W : Nat} (mask : List (BitVec W)) (a b : BitVec W) : Option (Nat × Bool) :=
  if leadingZeros (a ^^^ b) = W then some (leadingZeros (a ^^^ b), true)
  else
    match mask[leadingZeros (a ^^^ b)]? with
    | none => none
    | some m => some (leadingZeros (a ^^^ b), a ^^^ (a &&& m) == 0 && b ||| m == BitVec.allOnes W)

theorem compareIDs_eq {P : Pkg} (a b : BitVec P.W) : compareIDs a b = compareW P.mask6 a b := by
  unfold compareIDs compareW
  simp only
  split
  · rfl
  · cases P.mask6[leadingZeros (a ^^^ b)]? <;> rfl

theorem compareW_wide (a b : BitVec 16) : compareW mask32 (wideV a) (wideV b) =
    (compareW mask16 a b).map (fun p => (p.1 + 16, p.2)) := by
  unfold compareW
  simp only [xor_wide, leadingZeros_wide]
  have hle : leadingZeros (a ^^^ b) ≤ 16 := leadingZeros_le (a ^^^ b)
  obtain ⟨m, h1, h2⟩ := mask_wide _ hle
  by_cases h : leadingZeros (a ^^^ b) = 16
  · rw [if_pos (by omega), if_pos h]; rfl
  · rw [if_neg (by omega), if_neg h, h1, h2]
    simp only [Option.map_some]
    congr 2
    rw [Bool.eq_iff_iff]
    simp only [Bool.and_eq_true, beq_iff_eq]
    rw [and_wide, xor_wide]
    refine and_congr ?_ (or_wide b m)
    exact ⟨fun h => wideV_inj (h.trans (by decide)), fun h => by rw [h]; decide⟩

theorem append_true {P : Pkg} {fuel c : Nat} {dst : List (MyId P)} {a b : BitVec P.W} (h : compareIDs a b = some (c, true)) :
    appendRangeIDs (fuel + 1) dst a b = some (dst ++ [⟨a, c⟩]) := by
  rw [appendRangeIDs, h]

theorem append_false {P : Pkg} {fuel c : Nat} {dst d : List (MyId P)} {a b m : BitVec P.W} (h : compareIDs a b = some (c, false))
    (hm : P.mask6[c + 1]? = some m) (hd : appendRangeIDs fuel dst a (a ||| ~~~m) = some d) :
    appendRangeIDs (fuel + 1) dst a b = appendRangeIDs fuel d (b &&& m) b := by
  rw [appendRangeIDs, h]
  simp only [bitsSetFrom, bitsClearedFrom, hm, Option.map_some, hd]

theorem append_inv {P : Pkg} {fuel : Nat} {dst K : List (MyId P)} {a b : BitVec P.W} (h : appendRangeIDs (fuel + 1) dst a b = some K) :
    (∃ c, compareIDs a b = some (c, true) ∧ K = dst ++ [⟨a, c⟩]) ∨
    ∃ c m d, compareIDs a b = some (c, false) ∧ P.mask6[c + 1]? = some m ∧
      appendRangeIDs fuel dst a (a ||| ~~~m) = some d ∧ appendRangeIDs fuel d (b &&& m) b = some K := by
  rw [appendRangeIDs] at h
  cases he : compareIDs a b with
  | none => rw [he] at h; cases h
  | some p =>
    obtain ⟨c, z⟩ := p
    rw [he] at h
    cases z with
    | true => cases h; exact .inl ⟨c, rfl, rfl⟩
    | false =>
      cases hm : P.mask6[c + 1]? with
      | none => simp only [bitsSetFrom, bitsClearedFrom, hm, Option.map_none] at h; cases h
      | some m =>
        simp only [bitsSetFrom, bitsClearedFrom, hm, Option.map_some] at h
        cases hd : appendRangeIDs fuel dst a (a ||| ~~~m) with
        | none => rw [hd] at h; cases h
        | some d => rw [hd] at h; exact .inr ⟨c, m, d, rfl, hm, hd, h⟩

theorem appendRangeIDs_wide (fuel : Nat) : ∀ {dst K : List (MyId id16)} {a b : BitVec 16}, appendRangeIDs (P := id16) fuel dst a b = some K →
    ∃ J, K = dst ++ J ∧ ∀ dst', appendRangeIDs (P := id32) (fuel + 16) dst' (wideV a) (wideV b) = some (dst' ++ J.map wideI) := by
  induction fuel with
  | zero => intro dst K a b h; cases h
  | succ fuel ih =>
    intro dst K a b h
    have hc := compareW_wide a b
    rcases append_inv h with ⟨c, h1, rfl⟩ | ⟨c, m, d, h1, hm, hd, hK⟩
    · refine ⟨[⟨a, c⟩], rfl, fun dst' => ?_⟩
      have h2 : compareW mask16 a b = some (c, true) := (compareIDs_eq (P := id16) a b).symm.trans h1
      rw [h2] at hc
      exact append_true (P := id32) (fuel := fuel + 16) ((compareIDs_eq (P := id32) _ _).trans hc)
    · have h2 : compareW mask16 a b = some (c, false) := (compareIDs_eq (P := id16) a b).symm.trans h1
      rw [h2] at hc
      have hm' : mask16[c + 1]? = some m := hm
      have hle : c + 1 ≤ 16 := by
        rcases Nat.lt_or_ge 16 (c + 1) with hlt | hle
        · rw [List.getElem?_eq_none (show mask16.length ≤ c + 1 from hlt)] at hm'; cases hm'
        · exact hle
      obtain ⟨m', m1, m2⟩ := mask_wide (c + 1) hle
      have : m' = m := Option.some.inj (m1.symm.trans hm')
      subst this
      obtain ⟨J₁, rfl, f₁⟩ := ih hd
      obtain ⟨J₂, rfl, f₂⟩ := ih hK
      refine ⟨J₁ ++ J₂, List.append_assoc .., fun dst' => ?_⟩
      have e1 : appendRangeIDs (P := id32) (fuel + 16) dst' (wideV a) (wideV a ||| ~~~(0xffff0000#32 ||| wideV m')) = some (dst' ++ J₁.map wideI) := by
        rw [or_not_wide]; exact f₁ dst'
      have e2 := append_false (P := id32) (fuel := fuel + 16) (b := wideV b) ((compareIDs_eq (P := id32) _ _).trans hc)
        (show mask32[c + 16 + 1]? = _ by rw [show c + 16 + 1 = c + 1 + 16 by omega]; exact m2) e1
      refine e2.trans ?_
      have e3 : appendRangeIDs (P := id32) (fuel + 16) (dst' ++ J₁.map wideI) (wideV b &&& (0xffff0000#32 ||| wideV m')) (wideV b) =
          some (dst' ++ J₁.map wideI ++ J₂.map wideI) := by
        rw [and_wide]; exact f₂ (dst' ++ J₁.map wideI)
      refine e3.trans ?_
      rw [List.map_append, List.append_assoc]

theorem ids_wide {a b : BitVec 16} {ids : List (MyId id16)} (h : (rangeFrom a b : Rng id16).ids = some ids) :
    (rangeFrom (wideV a) (wideV b) : Rng id32).ids = some (ids.map wideI) := by
  obtain ⟨J, h1, h2⟩ := appendRangeIDs_wide 17 h
  rw [List.nil_append] at h1
  subst h1
  exact h2 []

/-- the text is not a range of ids, or one of ids of 16 bits -/
def Short (s : List UInt8) : Prop := ∀ a b, IsRange 32 s a b → a < 2 ^ 16 ∧ b < 2 ^ 16

theorem parse_wide {s : List UInt8} (hs : Short s) :
    ((parseRange s : Option (Rng id16)) = none ∧ (parseRange s : Option (Rng id32)) = none) ∨
    ∃ a b : BitVec 16, (parseRange s : Option (Rng id16)) = some (rangeFrom a b) ∧
      (parseRange s : Option (Rng id32)) = some (rangeFrom (wideV a) (wideV b)) := by
  have k16 := (C34_parseRange (P := id16) (.inl rfl)).2 s
  have k32 := (C34_parseRange (P := id32) (.inr (.inl rfl))).2 s
  cases h : (parseRange s : Option (Rng id32)) with
  | none =>
    left
    refine ⟨?_, rfl⟩
    cases h16 : (parseRange s : Option (Rng id16)) with
    | none => rfl
    | some r =>
      obtain ⟨u, v, a, b, h1, h2, h3, h4, ha, hb, rfl⟩ := (k16 _).1 h16
      have ha : a < 2 ^ 16 := ha
      have hb : b < 2 ^ 16 := hb
      have := (k32 (rangeFrom (BitVec.ofNat _ a) (BitVec.ofNat _ b))).2 ⟨u, v, a, b, h1, h2, h3, h4, by show a < 2 ^ 32; omega, by show b < 2 ^ 32; omega, rfl⟩
      rw [h] at this; cases this
  | some r =>
    right
    obtain ⟨u, v, a, b, h1, h2, h3, h4, ha, hb, rfl⟩ := (k32 _).1 h
    obtain ⟨ha', hb'⟩ := hs a b ⟨u, v, h1, h3, h4, ha, hb⟩
    refine ⟨BitVec.ofNat 16 a, BitVec.ofNat 16 b, (k16 _).2 ⟨u, v, a, b, h1, h2, h3, h4, ha', hb', rfl⟩, ?_⟩
    have e : ∀ n, n < 2 ^ 16 → BitVec.ofNat 32 n = wideV (BitVec.ofNat 16 n) := by
      intro n hn
      apply BitVec.eq_of_toNat_eq
      rw [toNat_wideV, BitVec.toNat_ofNat, BitVec.toNat_ofNat, Nat.mod_eq_of_lt hn, Nat.mod_eq_of_lt (by omega)]
    show some (rangeFrom (BitVec.ofNat 32 a) (BitVec.ofNat 32 b) : Rng id32) = _
    rw [e a ha', e b hb']

/-! ### Blocks -/

theorem covers_wide (p : MyId id16) (x : BitVec 16) : Covers (wideI p) (wideV x) ↔ Covers p x := by
  unfold Covers
  have h1 : (wideI p).id.toNat = p.id.toNat := toNat_wideV p.id
  have h2 : id32.W - (wideI p).len = id16.W - p.len := by
    show 32 - (p.len + 16) = 16 - p.len
    omega
  rw [h1, h2]
  exact Iff.of_eq (congrArg (fun z => z / 2 ^ (id16.W - p.len) = p.id.toNat / 2 ^ (id16.W - p.len)) (toNat_wideV x))

/-- all that a block covers is below `2^16` -/
theorem covers_low {p : MyId id16} (hp : p.len ≤ 16) {y : BitVec 32} (h : Covers (wideI p) y) : ∃ x, y = wideV x := by
  apply wideV_of_lt
  have h1 : y.toNat / 2 ^ 16 = (wideI p).id.toNat / 2 ^ 16 :=
    div_pow_mono (j := 32 - (p.len + 16)) (by omega) h
  have h2 : (wideI p).id.toNat = p.id.toNat := toNat_wideV p.id
  have h3 : p.id.toNat < 2 ^ 16 := p.id.isLt
  rw [h2] at h1
  omega

theorem inside_wide {S : BitVec 16 → Prop} {T : BitVec 32 → Prop} (hT : ∀ y, T y ↔ ∃ x, y = wideV x ∧ S x) (p : MyId id16)
    (h : Inside (P := id16) S p) : Inside (P := id32) T (wideI p) := by
  have hp : p.len ≤ 16 := h.1
  refine ⟨by show p.len + 16 ≤ 32; omega, fun y hy => ?_⟩
  obtain ⟨x, rfl⟩ := covers_low hp hy
  exact (hT _).2 ⟨x, rfl, h.2 x ((covers_wide p x).1 hy)⟩

theorem inside_narrow {S : BitVec 16 → Prop} {T : BitVec 32 → Prop} (hT : ∀ y, T y ↔ ∃ x, y = wideV x ∧ S x) (p' : MyId id32)
    (h : Inside (P := id32) T p') : ∃ p, p' = wideI p ∧ Inside (P := id16) S p := by
  obtain ⟨x, hx, _⟩ := (hT _).1 (h.2 _ (covers_self p'))
  have hle : p'.len ≤ 32 := h.1
  have hid : p'.id.toNat = x.toNat := (congrArg BitVec.toNat hx).trans (toNat_wideV x)
  have hx16 := x.isLt
  have hlen : 16 ≤ p'.len := by
    rcases Nat.lt_or_ge p'.len 16 with hlt | hge
    · exfalso
      have hc : Covers p' (65536#32) := by
        show (65536#32).toNat / 2 ^ (32 - p'.len) = p'.id.toNat / 2 ^ (32 - p'.len)
        have hp : 2 ^ 17 ≤ 2 ^ (32 - p'.len) := Nat.pow_le_pow_right (by decide) (by omega)
        rw [hid, Nat.div_eq_of_lt (show (65536#32).toNat < _ from Nat.lt_of_lt_of_le (by decide) hp), Nat.div_eq_of_lt (by omega)]
      obtain ⟨z, hz, _⟩ := (hT _).1 (h.2 _ hc)
      have := congrArg BitVec.toNat hz
      rw [toNat_wideV] at this
      have h1 := z.isLt
      have h2 : (65536#32).toNat = 65536 := rfl
      omega
    · exact hge
  have he : p' = wideI ⟨x, p'.len - 16⟩ := by
    cases p' with
    | mk id len =>
      show (⟨id, len⟩ : MyId id32) = ⟨wideV x, len - 16 + 16⟩
      congr
      exact (Nat.sub_add_cancel hlen).symm
  refine ⟨⟨x, p'.len - 16⟩, he, by show p'.len - 16 ≤ 16; omega, fun y hy => ?_⟩
  have := h.2 (wideV y) (by rw [he]; exact (covers_wide _ y).2 hy)
  obtain ⟨z, hz, hS⟩ := (hT _).1 this
  rw [wideV_inj hz]
  exact hS

theorem max_wide {S : BitVec 16 → Prop} {T : BitVec 32 → Prop} (hT : ∀ y, T y ↔ ∃ x, y = wideV x ∧ S x) {p : MyId id16}
    (h : MaxInside (P := id16) S p) : MaxInside (P := id32) T (wideI p) := by
  refine ⟨inside_wide hT p h.1, fun p' hp' hs => ?_⟩
  obtain ⟨p₁, rfl, h1⟩ := inside_narrow hT p' hp'
  have := h.2 p₁ h1 fun x hx => (covers_wide p₁ x).1 (hs _ ((covers_wide p x).2 hx))
  exact congrArg (· + 16) this

theorem max_narrow {S : BitVec 16 → Prop} {T : BitVec 32 → Prop} (hT : ∀ y, T y ↔ ∃ x, y = wideV x ∧ S x) {p : MyId id16}
    (h : MaxInside (P := id32) T (wideI p)) : MaxInside (P := id16) S p := by
  obtain ⟨p₁, h1, h2⟩ := inside_narrow hT _ h.1
  have := wideI_inj h1
  subst this
  refine ⟨h2, fun p' hp' hs => ?_⟩
  have := h.2 (wideI p') (inside_wide hT p' hp') fun y hy => by
    obtain ⟨x, rfl⟩ := covers_low h2.1 hy
    exact (covers_wide p' x).2 (hs x ((covers_wide p x).1 hy))
  have : p'.len + 16 = p.len + 16 := this
  omega

theorem best_wide {S : BitVec 16 → Prop} {T : BitVec 32 → Prop} (hT : ∀ y, T y ↔ ∃ x, y = wideV x ∧ S x) {x : BitVec 16}
    (h : BestIn (P := id16) S x) : BestIn (P := id32) T (wideV x) := by
  obtain ⟨p, h1, h2, rfl, h3⟩ := h
  refine ⟨wideI p, max_wide hT h1, ⟨(inside_wide hT p h1.1).1, ?_⟩, rfl, fun p' hp' => ?_⟩
  · have e1 : (wideI p).id.toNat = p.id.toNat := toNat_wideV p.id
    have e2 : id32.W - (wideI p).len = id16.W - p.len := by
      show 32 - (p.len + 16) = 16 - p.len
      omega
    rw [e1, e2]
    exact h2.2
  · obtain ⟨p₁, rfl, _⟩ := inside_narrow hT p' hp'.1
    obtain ⟨c1, c2⟩ := h3 p₁ (max_narrow hT hp')
    refine ⟨Nat.add_le_add_right c1 16, fun he => ?_⟩
    have he : p₁.len + 16 = p.len + 16 := he
    exact wideV_mono (c2 (by omega))

/-! ### Maps -/

/-- the entries of the tree32 are those of the tree16 -/
structure WideMap (M : Map id16 L) (N : Map id32 L) : Prop where
  fwd : ∀ q, N (zeros ++ q) = (M q).map wideE
  bwd : ∀ q, N q ≠ none → ∃ p, q = zeros ++ p

/-- every entry is stored under its own prefix -/
def Own {P : Pkg} (M : Map P L) : Prop := ∀ q e, M q = some e → q = pre e.id ∧ e.id.len ≤ P.W

theorem WideMap.inv {M : Map id16 L} {N : Map id32 L} (h : WideMap M N) {q : List Bool} {e : Entry id32 L} (he : N q = some e) :
    ∃ p e', q = zeros ++ p ∧ M p = some e' ∧ e = wideE e' := by
  obtain ⟨p, rfl⟩ := h.bwd q (by rw [he]; exact fun h => by cases h)
  rw [h.fwd] at he
  cases hm : M p with
  | none => rw [hm] at he; cases he
  | some e' => rw [hm] at he; cases he; exact ⟨p, e', rfl, hm, rfl⟩

theorem WideMap.empty : WideMap (Map.empty : Map id16 L) Map.empty := ⟨fun _ => rfl, fun _ h => absurd rfl h⟩

theorem WideMap.put {M : Map id16 L} {N : Map id32 L} (h : WideMap M N) {i : MyId id16} (hi : i.len ≤ 16) (l : L) :
    WideMap (put M i l) (put N (wideI i) l) := by
  constructor
  · intro q
    unfold GTree.put
    rw [pre_wide i hi]
    by_cases hq : q = pre i
    · rw [if_pos hq, if_pos (by rw [hq])]; rfl
    · rw [if_neg hq, if_neg (fun he => hq (List.append_cancel_left he))]; exact h.fwd q
  · intro q hq
    unfold GTree.put at hq
    split at hq
    · next h1 => exact ⟨pre i, h1.trans (pre_wide i hi)⟩
    · exact h.bwd q hq

theorem WideMap.puts (l : L) : ∀ {ids : List (MyId id16)} {M : Map id16 L} {N : Map id32 L}, WideMap M N → (∀ i ∈ ids, i.len ≤ 16) →
    WideMap (puts M l ids) (puts N l (ids.map wideI)) := by
  intro ids
  induction ids with
  | nil => intro M N h _; exact h
  | cons i ids ih =>
    intro M N h hi
    exact ih (h.put (hi i List.mem_cons_self) l) fun j hj => hi j (List.mem_cons_of_mem _ hj)

theorem WideMap.low {M : Map id16 L} {N : Map id32 L} (h : WideMap M N) (hM : Own M) : LowMap N := by
  intro q e he
  obtain ⟨p, e', rfl, h1, rfl⟩ := h.inv he
  obtain ⟨h2, h3⟩ := hM p e' h1
  have h3 : e'.id.len ≤ 16 := h3
  refine ⟨?_, by rw [h2]; exact (pre_wide e'.id h3).symm, by show e'.id.len + 16 ≤ 32; omega⟩
  have : (wideE e').id.id.toNat = e'.id.id.toNat := toNat_wideV e'.id.id
  rw [this]
  exact Nat.lt_trans e'.id.id.isLt (by decide)

theorem WideMap.covered {M : Map id16 L} {N : Map id32 L} (h : WideMap M N) (x : BitVec 16) :
    Covered (P := id32) N (wideV x) ↔ Covered (P := id16) M x := by
  constructor
  · rintro ⟨q, e, he, hc⟩
    obtain ⟨p, e', rfl, h1, rfl⟩ := h.inv he
    exact ⟨p, e', h1, (covers_wide e'.id x).1 hc⟩
  · rintro ⟨p, e', he, hc⟩
    exact ⟨zeros ++ p, wideE e', by rw [h.fwd, he]; rfl, (covers_wide e'.id x).2 hc⟩

theorem Listing.wide {M : Map id16 L} {N : Map id32 L} (h : WideMap M N) (hM : Own M) {l : List (Entry id16 L)} (hl : Listing l M) :
    Listing (l.map wideE) N := by
  have hmem : ∀ e ∈ l, e.id.len ≤ 16 := fun e he => (hM _ _ ((hl.mem fun q e he => (hM q e he).1).1 he)).2
  constructor
  · rw [List.map_map, List.pairwise_map]
    have := hl.sorted
    rw [List.pairwise_map] at this
    refine this.imp_of_mem ?_
    intro a b ha hb hab
    show pre (wideI a.id) < pre (wideI b.id)
    rw [pre_wide _ (hmem a ha), pre_wide _ (hmem b hb)]
    exact List.append_left_lt hab
  · intro q v
    rw [List.map_map, List.mem_map]
    constructor
    · rintro ⟨e, he, hq⟩
      cases hq
      show N (pre (wideI e.id)) = _
      rw [pre_wide _ (hmem e he), h.fwd, (hl.mem fun q e he => (hM q e he).1).1 he]
      rfl
    · intro hq
      obtain ⟨p, e', rfl, h1, rfl⟩ := h.inv hq
      have h2 := hM p e' h1
      refine ⟨e', (hl.mem fun q e he => (hM q e he).1).2 (by rw [← h2.1]; exact h1), ?_⟩
      show (pre (wideI e'.id), wideE e') = _
      rw [pre_wide _ h2.2, ← h2.1]

/-! ### Queries -/

theorem find_wide (l : List (Entry id16 L)) (id : MyId id16) :
    (l.map wideE).find? (fun e => decide (e.id = wideI id)) = (l.find? (fun e => decide (e.id = id))).map wideE := by
  rw [List.find?_map]
  congr 1
  refine congrArg (fun f => l.find? f) (funext fun e => ?_)
  show decide (wideI e.id = wideI id) = decide (e.id = id)
  rw [decide_eq_decide]
  exact ⟨wideI_inj, fun h => by rw [h]⟩

theorem label_wide (l : List (Entry id16 L)) (sel : L → Bool) :
    (l.map wideE).filter (fun e => sel e.labels) = (l.filter (fun e => sel e.labels)).map wideE := by
  rw [List.filter_map]; rfl

theorem children_wide {l : List (Entry id16 L)} (hl : ∀ e ∈ l, e.id.len ≤ 16) {id : MyId id16} (hid : id.len ≤ 16) :
    (l.map wideE).filter (fun e => decide (pre (wideI id) <+: pre e.id ∧ pre (wideI id) ≠ pre e.id)) =
      (l.filter (fun e => decide (pre id <+: pre e.id ∧ pre id ≠ pre e.id))).map wideE := by
  rw [List.filter_map]
  congr 1
  apply List.filter_congr
  intro e he
  show decide (pre (wideI id) <+: pre (wideI e.id) ∧ pre (wideI id) ≠ pre (wideI e.id)) = _
  rw [pre_wide _ hid, pre_wide _ (hl e he), decide_eq_decide, List.prefix_append_right_inj]
  exact and_congr_right fun _ => not_congr (List.append_right_inj _)

theorem parents_wide {l : List (Entry id16 L)} (hl : ∀ e ∈ l, e.id.len ≤ 16) {id : MyId id16} (hid : id.len ≤ 16) :
    (l.map wideE).filter (fun e => decide ((pre e.id <+: pre (wideI id) ∨ pre (wideI id) <+: pre e.id) ∧ e.id.len < 32)) =
      (l.filter (fun e => decide ((pre e.id <+: pre id ∨ pre id <+: pre e.id) ∧ e.id.len < 16))).map wideE := by
  rw [List.filter_map]
  congr 1
  apply List.filter_congr
  intro e he
  show decide ((pre (wideI e.id) <+: pre (wideI id) ∨ pre (wideI id) <+: pre (wideI e.id)) ∧ e.id.len + 16 < 32) = _
  rw [pre_wide _ hid, pre_wide _ (hl e he), decide_eq_decide, List.prefix_append_right_inj, List.prefix_append_right_inj]
  exact and_congr_right fun _ => by omega

theorem same_replies {n : Nat} {g : GTree tree16 L} {h : GTree tree32 L} {M : Map tree16.P L} {N : Map tree32.P L}
    (hg : GInv n g M) (hh : GInv n h N) (hw : WideMap M N) : SameReplies g h := by
  obtain ⟨l, l1, l2, l3⟩ := entries_spec hg
  obtain ⟨k, k1, k2, k3⟩ := entries_spec hh
  have hk : k = l.map wideE := k1.unique (Listing.wide hw hg.wf l1)
  subst hk
  have hmem : ∀ e ∈ l, e.id.len ≤ 16 := fun e he => (hg.wf _ _ ((l1.mem fun q e he => (hg.wf q e he).1).1 he)).2
  refine ⟨fun id => ?_, ⟨l, l2, k2⟩, ⟨l.length, l3, k3.trans (congrArg Out.ok (List.length_map (as := l) wideE))⟩, fun sel => ?_, fun id hid => ?_, fun id hid => ?_⟩
  · have e1 : g.get id = _ := (show g.get id = getLoop (P := id16) id (l.map some) by unfold GTree.get; rw [l2]; rfl).trans
      (getLoop_spec (P := id16) id l)
    refine ⟨_, e1, ?_⟩
    unfold GTree.get
    rw [k2]
    exact (getLoop_spec (wideI id) (l.map wideE)).trans (congrArg Out.ok (find_wide l id))
  · refine ⟨l.filter (fun e => sel e.labels), ?_, ?_⟩
    · unfold GTree.getByLabel; rw [l2]; exact labelLoop_spec sel l
    · unfold GTree.getByLabel; rw [k2]
      exact (labelLoop_spec sel (l.map wideE)).trans (congrArg Out.ok (label_wide l sel))
  · obtain ⟨l', a1, a2, a3⟩ := children_ginv (.inl rfl) hg id hid
    obtain ⟨k', b1, b2, b3⟩ := children_ginv (.inr rfl) hh (wideI id) (by show id.len + 16 ≤ 32; omega)
    have : l' = l := a1.unique l1
    subst this
    have : k' = l'.map wideE := b1.unique k1
    subst this
    exact ⟨_, a3, b3.trans (congrArg Out.ok (children_wide hmem hid))⟩
  · obtain ⟨l', a1, a2, a3, _⟩ := parents_ginv (.inl rfl) hg id hid
    obtain ⟨k', b1, b2, b3, _⟩ := parents_ginv (.inr rfl) hh (wideI id) (by show id.len + 16 ≤ 32; omega)
    have : l' = l := a1.unique l1
    subst this
    have : k' = l'.map wideE := b1.unique k1
    subst this
    exact ⟨_, a3, b3.trans (congrArg Out.ok (parents_wide hmem hid))⟩

/-! ### Calls -/

/-- a text of `ClaimRange` is short -/
def Op.Short : Op id16 L → Prop
  | .claimRange s _ => GTree.Short s
  | _ => True

theorem fits_wide {o : Op id16 L} (h : o.Fits) : (wideO o).Fits := by
  cases o with
  | claim id l | update id l | release id =>
    have h : id.len ≤ 16 := h
    show id.len + 16 ≤ 32
    omega
  | claimFree l | claimRange s l | releaseByLabel sel => trivial

theorem effect_wide {n : Nat} {M M' : Map id16 L} {N : Map id32 L} (hw : WideMap M N) {o : Op id16 L} {r : Result id16 L}
    (hf : o.Fits) (hs : o.Short) (ho : ∀ l, o ≠ .claimFree l) (he : Effect n M o r M') :
    ∃ N', Effect n N (wideO o) (wideR r) N' ∧ WideMap M' N' := by
  have hclaim : ∀ (id : MyId id16) (l : L), id.len ≤ 16 →
      (if id.id.toNat < 2 ^ n then r = .done ∧ M' = put M id l else r = .err ∧ M' = M) →
      ∃ N', (if (wideI id).id.toNat < 2 ^ n then wideR r = .done ∧ N' = put N (wideI id) l else wideR r = .err ∧ N' = N) ∧ WideMap M' N' := by
    intro id l hid he
    have e1 : (wideI id).id.toNat = id.id.toNat := toNat_wideV id.id
    rw [e1]
    split at he
    · rename_i hc
      obtain ⟨rfl, rfl⟩ := he
      exact ⟨put N (wideI id) l, by rw [if_pos hc]; exact ⟨rfl, rfl⟩, hw.put hid l⟩
    · rename_i hc
      obtain ⟨rfl, rfl⟩ := he
      exact ⟨N, by rw [if_neg hc]; exact ⟨rfl, rfl⟩, hw⟩
  have hfilter : ∀ (p : Entry id16 L → Bool) (p' : Entry id32 L → Bool), (∀ e, p' (wideE e) = p e) →
      ∀ q, (N (zeros ++ q)).filter p' = ((M q).filter p).map wideE := by
    intro p p' hp q
    rw [hw.fwd]
    cases M q with
    | none => rfl
    | some e =>
      show (some (wideE e)).filter p' = _
      rw [Option.filter_some, Option.filter_some, hp]
      split <;> rfl
  have hsome : ∀ (p' : Entry id32 L → Bool) (q : List Bool), (N q).filter p' ≠ none → ∃ p, q = zeros ++ p := by
    intro p' q hq
    refine hw.bwd q fun hn => hq ?_
    rw [hn]; rfl
  cases o with
  | claim id l => exact hclaim id l hf he
  | update id l => exact hclaim id l hf he
  | claimFree l => exact absurd rfl (ho l)
  | claimRange s l =>
    rcases parse_wide hs with ⟨p1, p2⟩ | ⟨a, b, p1, p2⟩
    · rcases he with ⟨_, rfl, rfl⟩ | ⟨x, ids, h1, _⟩
      · exact ⟨N, .inl ⟨(by rintro ⟨x, hx⟩; rw [p2] at hx; cases hx), rfl, rfl⟩, hw⟩
      · rw [p1] at h1; cases h1
    · rcases he with ⟨h1, _⟩ | ⟨x, ids, h1, h2, rfl, rfl⟩
      · exact absurd ⟨_, p1⟩ h1
      · rw [p1] at h1; cases h1
        obtain ⟨ids', i1, i2⟩ := ids_total (good_of (.inl rfl)) (rangeFrom a b : Rng id16)
        rw [h2] at i1; cases i1
        exact ⟨_, .inr ⟨_, _, p2, ids_wide h2, rfl, rfl⟩, hw.puts l i2⟩
  | release id =>
    have e1 : (wideI id).id.toNat = id.id.toNat := toNat_wideV id.id
    have hid : id.len ≤ 16 := hf
    have he : (if id.id.toNat < 2 ^ n then
      r = .done ∧ (∀ q, M' q = if q = pre id then (M q).filter (fun e => decide (e.id ≠ id)) else M q)
      else r = .err ∧ M' = M) := he
    split at he
    · rename_i hc
      obtain ⟨rfl, he2⟩ := he
      refine ⟨fun q => if q = pre (wideI id) then (N q).filter (fun e => decide (e.id ≠ wideI id)) else N q, ?_, ?_⟩
      · show (if (wideI id).id.toNat < 2 ^ n then _ else _)
        rw [if_pos (by rw [e1]; exact hc)]
        exact ⟨rfl, fun q => rfl⟩
      · constructor
        · intro q
          rw [he2 q, pre_wide id hid]
          by_cases hq : q = pre id
          · rw [if_pos hq, if_pos (by rw [hq])]
            refine hfilter _ _ (fun e => ?_) q
            show decide (wideI e.id ≠ wideI id) = _
            rw [decide_eq_decide]
            exact not_congr ⟨wideI_inj, fun h => by rw [h]⟩
          · rw [if_neg hq, if_neg (fun he => hq (List.append_cancel_left he))]; exact hw.fwd q
        · intro q hq
          split at hq
          · exact hsome _ q hq
          · exact hw.bwd q hq
    · rename_i hc
      obtain ⟨rfl, rfl⟩ := he
      refine ⟨N, ?_, hw⟩
      show (if (wideI id).id.toNat < 2 ^ n then _ else _)
      rw [if_neg (by rw [e1]; exact hc)]
      exact ⟨rfl, rfl⟩
  | releaseByLabel sel =>
    obtain ⟨rfl, he⟩ := he
    refine ⟨fun q => (N q).filter (fun e => !sel e.labels), ⟨rfl, fun q => rfl⟩, ?_, ?_⟩
    · intro q
      rw [he q]
      exact hfilter _ _ (fun e => rfl) q
    · intro q hq
      exact hsome _ q hq

/-- what `ClaimFree` chooses from: all ids of the tree; for lengths below 16, no entry contains all of them, and none
lies outside -/
def Tidy (n : Nat) (M : Map id16 L) : Prop := n = 16 ∨ NoneAbove (16 - n) M ∧ Within n M

theorem free_wide {n : Nat} {g : GTree tree16 L} {h : GTree tree32 L} {M : Map tree16.P L} {N : Map tree32.P L}
    (hg : Reach tree16 n g M) (hh : Reach tree32 n h N) (hw : WideMap M N) (ht : Tidy n M) (l : L) :
    (g.exec (.claimFree l) = .ok (.err, g) ∧ h.exec (.claimFree l) = .ok (.err, h)) ∨
    ∃ (x : BitVec 16) (g' : GTree tree16 L) (h' : GTree tree32 L), x.toNat < 2 ^ n ∧
      g.exec (.claimFree l) = .ok (.got ⟨⟨x, 16⟩, l⟩, g') ∧ h.exec (.claimFree l) = .ok (.got ⟨⟨wideV x, 32⟩, l⟩, h') := by
  have gi := hg.ginv (.inl rfl)
  have hle : n ≤ 16 := gi.le
  have hr16 : ∀ K : Map tree16.P L, Room K := fun K hW => absurd hW (by decide)
  have hr32 : ∀ x : BitVec 16, Room (P := tree32.P) (put N ⟨wideV x, 32⟩ l) := by
    intro x
    have hp : Own (put M ⟨x, 16⟩ l) := by
      intro q e he
      unfold put at he
      split at he
      · next hq => cases he; exact ⟨hq, Nat.le_refl _⟩
      · exact gi.wf q e he
    exact LowMap.room ((hw.put (i := ⟨x, 16⟩) (Nat.le_refl _) l).low hp)
  rcases ht with rfl | ⟨hn, hin⟩
  · -- all values
    have hT : ∀ y : BitVec 32, Avail (P := id32) 16 N y ↔ ∃ x : BitVec 16, y = wideV x ∧ Avail (P := id16) 0 M x := by
      intro y
      constructor
      · rintro ⟨h1, h2⟩
        obtain ⟨x, rfl⟩ := wideV_of_lt h1
        refine ⟨x, rfl, x.isLt, fun q e he hl hc => ?_⟩
        exact h2 (zeros ++ q) (wideE e) (by rw [hw.fwd, he]; rfl) (by show 16 < e.id.len + 16; omega) ((covers_wide _ _).2 hc)
      · rintro ⟨x, rfl, h1, h2⟩
        refine ⟨wideV_lt.2 x.isLt, fun q e he hl hc => ?_⟩
        obtain ⟨p, e', rfl, he', rfl⟩ := hw.inv he
        have hl : 16 < e'.id.len + 16 := hl
        exact h2 p e' he' (by omega) ((covers_wide _ _).1 hc)
    rcases C91_claimFree_partial (rl := 0) (.inl ⟨rfl, rfl⟩) hg l with ⟨a1, a2⟩ | ⟨x, a1, a2, _, a3, _⟩
    · left
      refine ⟨a2, ?_⟩
      rcases C91_claimFree_partial (rl := 16) (.inr ⟨rfl, rfl⟩) hh l with ⟨_, b2⟩ | ⟨y, b1, _⟩
      · exact b2
      · obtain ⟨x, _, hx⟩ := (hT y).1 b1
        exact absurd hx (a1 x)
    · right
      obtain ⟨g', e1, _⟩ := a3 x.isLt (hr16 _)
      rcases C91_claimFree_partial (rl := 16) (.inr ⟨rfl, rfl⟩) hh l with ⟨b1, _⟩ | ⟨y, b1, b2, b3, b4, _⟩
      · exact absurd ((hT _).2 ⟨x, rfl, a1⟩) (b1 _)
      · have hy : wideV x = y := b3 _ (best_wide hT a2)
        subst hy
        obtain ⟨h', e2, _⟩ := b4 (wideV_lt.2 x.isLt) (hr32 x)
        exact ⟨x, g', h', x.isLt, e1, e2⟩
  · -- the ids of the tree
    have hn32 : NoneAbove n N := by
      intro q e he hc
      obtain ⟨p, e', rfl, he', rfl⟩ := hw.inv he
      have := hn p e' he' ((covers_wide e'.id 0).1 hc)
      show n < e'.id.len + 16
      omega
    have hin32 : Within n N := by
      intro q e he
      obtain ⟨p, e', rfl, he', rfl⟩ := hw.inv he
      exact wideV_lt.2 (hin p e' he')
    have hp16 : 2 ^ n ≤ 2 ^ 16 := Nat.pow_le_pow_right (by decide) hle
    rcases C57_claimFree_partial (.inl rfl) hg hn l with ⟨x, a1, a2, a3⟩ | ⟨a1, a2⟩
    · right
      obtain ⟨g', e1, _⟩ := a3 (hr16 _)
      obtain ⟨x', ex, best⟩ := C83_bestFit_partial (.inl rfl) hg (by
        rw [show tree16.rootLen n = 16 - n from Verif.Tree.sub8_eq hle (by decide)]; exact hn) l _ e1
      have hx : x' = x := (congrArg (fun e : Entry tree16.P L => e.id.id) ex).symm
      subst hx
      rcases C57_claimFree32_partial hle hh hn32 hin32 l with ⟨y, b1, b2, b3⟩ | ⟨_, b2⟩
      · obtain ⟨x₂, rfl⟩ := wideV_of_lt (Nat.lt_of_lt_of_le b1 hp16)
        obtain ⟨h', e2, _⟩ := b3 (hr32 x₂)
        obtain ⟨y', ey, best2⟩ := C83_bestFit_partial (.inr ⟨rfl, hle⟩) hh hn32 l _ e2
        have hy : y' = wideV x₂ := (congrArg (fun e : Entry tree32.P L => e.id.id) ey).symm
        subst hy
        have hT : ∀ y : BitVec 32, (y.toNat < 2 ^ n ∧ ¬ Covered (P := id32) N y) ↔
            ∃ x : BitVec 16, y = wideV x ∧ (x.toNat < 2 ^ n ∧ ¬ Covered (P := id16) M x) := by
          intro y
          constructor
          · rintro ⟨c1, c2⟩
            obtain ⟨z, rfl⟩ := wideV_of_lt (Nat.lt_of_lt_of_le c1 hp16)
            exact ⟨z, rfl, wideV_lt.1 c1, fun hc => c2 ((hw.covered z).2 hc)⟩
          · rintro ⟨z, rfl, c1, c2⟩
            exact ⟨wideV_lt.2 c1, fun hc => c2 ((hw.covered z).1 hc)⟩
        have := best_wide (S := fun x => x.toNat < 2 ^ n ∧ ¬ Covered (P := id16) M x)
          (T := fun y => y.toNat < 2 ^ n ∧ ¬ Covered (P := id32) N y) hT best
        have := wideV_inj (BestIn.unique (P := id32) this best2)
        subst this
        exact ⟨x', g', h', a1, e1, e2⟩
      · exact absurd ((hw.covered x').1 (b2 _ (wideV_lt.2 a1))) a2
    · left
      refine ⟨a1, ?_⟩
      rcases C57_claimFree32_partial hle hh hn32 hin32 l with ⟨y, b1, b2, _⟩ | ⟨b1, _⟩
      · obtain ⟨x, rfl⟩ := wideV_of_lt (Nat.lt_of_lt_of_le b1 hp16)
        exact absurd ((hw.covered x).2 (a2 x (wideV_lt.1 b1))) b2
      · exact b1

/-- the calls are made in tidy states where this matters: for a length below 16 no entry, when `ClaimFree` is called,
contains all ids of the tree or lies outside; `ClaimRange` names ids of 16 bits only -/
def TidySteps (n : Nat) (g₀ : GTree tree16 L) (hs : List (Op id16 L × Result id16 L)) : Prop :=
  (∀ p ∈ hs, p.1.Short) ∧
  ∀ (hs₁ hs₂ : List (Op id16 L × Result id16 L)) (l : L) (r : Result id16 L) (g : GTree tree16 L) (M : Map tree16.P L),
    hs = hs₁ ++ (.claimFree l, r) :: hs₂ → Steps tree16 n g₀ Map.empty hs₁ g M → Tidy n M

theorem step_wide {n : Nat} {g g' : GTree tree16 L} {h : GTree tree32 L} {M M' : Map tree16.P L} {N : Map tree32.P L}
    (hg : Reach tree16 n g M) (hh : Reach tree32 n h N) (hw : WideMap M N) {o : Op tree16.P L} {r : Result tree16.P L}
    (hf : o.Fits) (hs : Op.Short o) (ht : ∀ l, o = .claimFree l → Tidy n M) (hx : g.exec o = .ok (r, g')) (he : Effect n M o r M') :
    ∃ (h' : GTree tree32 L) (N' : Map tree32.P L), h.exec (wideO o) = .ok (wideR r, h') ∧ Effect n N (wideO o) (wideR r) N' ∧
      Room N' ∧ WideMap M' N' := by
  have hg' : Reach tree16 n g' M' := hg.step hf hx he (fun hW => absurd hW (by decide))
  have hroom : ∀ N' : Map id32 L, WideMap M' N' → Room (P := tree32.P) N' := fun N' h' =>
    LowMap.room (h'.low (hg'.ginv (.inl rfl)).wf)
  by_cases hc : ∃ l, o = .claimFree l
  · obtain ⟨l, rfl⟩ := hc
    rcases free_wide hg hh hw (ht l rfl) l with ⟨h1, h2⟩ | ⟨x, g₁, h₁, hlt, h1, h2⟩
    · rw [h1] at hx
      cases hx
      have he : (Result.err = Result.err ∧ M' = M) ∨ ∃ x : BitVec 16, x.toNat < 2 ^ n ∧
        (Result.err : Result id16 L) = .got ⟨⟨x, 16⟩, l⟩ ∧ M' = put M ⟨x, 16⟩ l := he
      rcases he with ⟨_, rfl⟩ | ⟨x, _, hx, _⟩
      · exact ⟨h, N, h2, .inl ⟨rfl, rfl⟩, hroom N hw, hw⟩
      · cases hx
    · rw [h1] at hx
      cases hx
      have he : ((Result.got ⟨⟨x, 16⟩, l⟩ : Result id16 L) = Result.err ∧ M' = M) ∨ ∃ y : BitVec 16, y.toNat < 2 ^ n ∧
        (Result.got ⟨⟨x, 16⟩, l⟩ : Result id16 L) = .got ⟨⟨y, 16⟩, l⟩ ∧ M' = put M ⟨y, 16⟩ l := he
      rcases he with ⟨hx, _⟩ | ⟨y, hy, hx, rfl⟩
      · cases hx
      · cases hx
        have hp : WideMap (put M ⟨x, 16⟩ l) (put N ⟨wideV x, 32⟩ l) := hw.put (i := ⟨x, 16⟩) (Nat.le_refl _) l
        exact ⟨h₁, put N ⟨wideV x, 32⟩ l, h2, .inr ⟨wideV x, wideV_lt.2 hlt, rfl, rfl⟩, hroom _ hp, hp⟩
  · have ho : ∀ l, o ≠ .claimFree l := fun l h => hc ⟨l, h⟩
    obtain ⟨N', e1, e2⟩ := effect_wide hw hf hs ho he
    obtain ⟨h', e3⟩ := exec_of_effect (I := tree32) (.inr rfl) hh (fits_wide hf) (by
      intro l hl
      cases o <;> first | exact ho _ rfl | cases hl) e1 (hroom N' e2)
    exact ⟨h', N', e3, e1, hroom N' e2, e2⟩

/-- **C120, partial** (tree16 and tree32 of the same length up to 16) A history of calls on a new tree16 and the same
history on a new tree32 (ids with the same values, prefixes 16 bits longer) have the same results, and so have all
queries afterwards: whatever is claimed, updated and released, by id, by label or by a text with ids of 16 bits, also
one with the larger id first. `ClaimFree` may be called at any time if the length is 16; for smaller lengths, when no
entry contains all ids of the tree and all entries lie within it. Missing: other states for `ClaimFree` (violated
below), and tree64 (violated below). -/
theorem C120_widths_partial {n : Nat} (hn : n ≤ 16) :
    ∃ (g₀ : GTree tree16 L) (h₀ : GTree tree32 L), new tree16 L n = some g₀ ∧ new tree32 L n = some h₀ ∧
      ∀ (hs : List (Op tree16.P L × Result tree16.P L)) (g : GTree tree16 L) (M : Map tree16.P L),
        Steps tree16 n g₀ Map.empty hs g M → TidySteps n g₀ hs →
        ∃ (h : GTree tree32 L) (N : Map tree32.P L),
          Steps tree32 n h₀ Map.empty (hs.map fun p => (wideO p.1, wideR p.2)) h N ∧ SameReplies g h := by
  obtain ⟨g₀, hg₀⟩ : ∃ g₀, new tree16 L n = some g₀ := by
    unfold new
    rw [if_neg (show ¬ n > tree16.P.W from Nat.not_lt.2 hn)]
    exact ⟨_, rfl⟩
  obtain ⟨h₀, hh₀⟩ : ∃ h₀, new tree32 L n = some h₀ := by
    unfold new
    rw [if_neg (show ¬ n > tree32.P.W from Nat.not_lt.2 (Nat.le_trans hn (by decide)))]
    exact ⟨_, rfl⟩
  refine ⟨g₀, h₀, hg₀, hh₀, ?_⟩
  intro hs g M hst ht
  have key : ∀ (hs : List (Op tree16.P L × Result tree16.P L)) (g₁ : GTree tree16 L) (h₁ : GTree tree32 L) (M₁ : Map tree16.P L) (N₁ : Map tree32.P L),
      Reach tree16 n g₁ M₁ → Reach tree32 n h₁ N₁ → WideMap M₁ N₁ →
      Steps tree16 n g₁ M₁ hs g M → (∀ p ∈ hs, Op.Short p.1) →
      (∀ (hs₁ hs₂ : List (Op id16 L × Result id16 L)) (l : L) (r : Result id16 L) (g : GTree tree16 L) (M : Map tree16.P L),
        hs = hs₁ ++ (.claimFree l, r) :: hs₂ → Steps tree16 n g₁ M₁ hs₁ g M → Tidy n M) →
      ∃ (h : GTree tree32 L) (N : Map tree32.P L),
        Steps tree32 n h₁ N₁ (hs.map fun p => (wideO p.1, wideR p.2)) h N ∧ SameReplies g h := by
    intro hs
    induction hs with
    | nil =>
      intro g₁ h₁ M₁ N₁ a1 a2 a3 hst _ _
      cases hst
      exact ⟨h₁, N₁, .nil, same_replies (a1.ginv (.inl rfl)) (a2.ginv (.inr rfl)) a3⟩
    | cons p hs ih =>
      intro g₁ h₁ M₁ N₁ a1 a2 a3 hst hsh htd
      cases hst with
      | @cons _ _ o r g₂ M₂ _ _ _ hf hx he hr hst =>
        obtain ⟨h₂, N₂, e1, e2, e3, e4⟩ := step_wide a1 a2 a3 hf (hsh _ List.mem_cons_self)
          (fun l hl => by subst hl; exact htd [] hs l r g₁ M₁ rfl .nil) hx he
        obtain ⟨h', N', k1, k2⟩ := ih g₂ h₂ M₂ N₂ (a1.step hf hx he hr) (a2.step (fits_wide hf) e1 e2 e3) e4 hst
          (fun p hp => hsh p (List.mem_cons_of_mem _ hp)) (fun hs₁ hs₂ l r' g₃ M₃ hh hst' =>
            htd ((o, r) :: hs₁) hs₂ l r' g₃ M₃ (by rw [hh]; rfl) (.cons hf hx he hr hst'))
        exact ⟨h', N', .cons (fits_wide hf) e1 e2 e3 k1, k2⟩
  exact key hs g₀ h₀ _ _ (.new hg₀) (.new hh₀) WideMap.empty hst ht.1 ht.2

/-- **C120, violated** (tree16 and tree32 of every length below 16) After `ClaimID` of the prefix that contains all ids
of the tree, `ClaimFree` of the tree16 returns 0, `ClaimFree` of the tree32 fails. -/
theorem C120_claimFree_violated {n : Nat} (hn : n < 16) (l : L) :
    ∃ (g₀ g₁ g : GTree tree16 L) (h₀ h₁ : GTree tree32 L), new tree16 L n = some g₀ ∧ new tree32 L n = some h₀ ∧
      g₀.exec (.claim ⟨0, 16 - n⟩ l) = .ok (.done, g₁) ∧ h₀.exec (wideO (.claim ⟨0, 16 - n⟩ l)) = .ok (.done, h₁) ∧
      g₁.exec (.claimFree l) = .ok (.got ⟨⟨0, 16⟩, l⟩, g) ∧ h₁.exec (.claimFree l) = .ok (.err, h₁) := by
  have hr16 : ∀ K : Map tree16.P L, Room K := fun K hW => absurd hW (by decide)
  have hg₀ : new tree16 L n = some ⟨newTree tree16.P, ((1 : BitVec tree16.P.W) <<< n) - 1, n⟩ := by
    unfold new
    rw [if_neg (show ¬ n > tree16.P.W from Nat.not_lt.2 (Nat.le_of_lt hn))]
  have hh₀ : new tree32 L n = some ⟨newTree tree32.P, ((1 : BitVec tree32.P.W) <<< n) - 1, n⟩ := by
    unfold new
    rw [if_neg (show ¬ n > tree32.P.W from Nat.not_lt.2 (Nat.le_trans (Nat.le_of_lt hn) (by decide)))]
  have h0 : (0 : BitVec 16).toNat < 2 ^ n := Nat.two_pow_pos n
  have hf : Op.Fits (.claim ⟨0, 16 - n⟩ l : Op tree16.P L) := by
    show 16 - n ≤ 16
    omega
  have e16 : Effect n (Map.empty : Map tree16.P L) (.claim ⟨0, 16 - n⟩ l) .done (put Map.empty ⟨0, 16 - n⟩ l) := by
    show (if (0 : BitVec 16).toNat < 2 ^ n then _ else _)
    rw [if_pos h0]; exact ⟨rfl, rfl⟩
  obtain ⟨g₁, hg₁⟩ := exec_of_effect (.inl rfl) (.new hg₀) hf (fun l h => by cases h) e16 (hr16 _)
  have r16 : Reach tree16 n g₁ _ := (Reach.new hg₀).step hf hg₁ e16 (hr16 _)
  obtain ⟨h₁, N, a1, a2, a3, a4⟩ := step_wide (.new hg₀) (.new hh₀) WideMap.empty hf trivial (fun l h => by cases h) hg₁ e16
  have r32 : Reach tree32 n h₁ N := (Reach.new hh₀).step (fits_wide hf) a1 a2 a3
  have hroot : tree16.rootLen n = 16 - n := Verif.Tree.sub8_eq (Nat.le_of_lt hn) (by decide)
  have hone : ∀ q e, put (Map.empty : Map tree16.P L) ⟨0, 16 - n⟩ l q = some e → e = ⟨⟨0, 16 - n⟩, l⟩ := by
    intro q e he
    unfold put at he
    split at he
    · cases he; rfl
    · cases he
  have hff : g₁.findFree = .ok (.ok 0) := by
    refine find_zero (.inl rfl) r16 ?_
    rintro x _ ⟨q, e, he, hlt, _⟩
    rw [hone q e he, hroot] at hlt
    exact absurd hlt (Nat.lt_irrefl _)
  obtain ⟨g, hg, _⟩ := claimFree_ok (.inl rfl) r16 hff h0 l (hr16 _)
  refine ⟨_, g₁, g, _, h₁, hg₀, hh₀, hg₁, a1, hg, ?_⟩
  have hN : ∀ q e, N q = some e → e = wideE ⟨⟨0, 16 - n⟩, l⟩ := by
    intro q e he
    obtain ⟨p, e', _, h1, rfl⟩ := a4.inv he
    exact congrArg wideE (hone p e' h1)
  have hcov : ∀ x : BitVec 16, x.toNat < 2 ^ n → Covered (P := id16) (put (Map.empty : Map id16 L) ⟨0, 16 - n⟩ l) x := by
    intro x hx
    refine ⟨pre (⟨0, 16 - n⟩ : MyId id16), ⟨⟨0, 16 - n⟩, l⟩, by unfold put; rw [if_pos rfl], covers_zero.2 ?_⟩
    show x.toNat < 2 ^ (16 - (16 - n))
    rw [show 16 - (16 - n) = n by omega]
    exact hx
  have hp16 : 2 ^ n ≤ 2 ^ 16 := Nat.pow_le_pow_right (by decide) (Nat.le_of_lt hn)
  rcases C57_claimFree32_partial (Nat.le_of_lt hn) r32 (by
      intro q e he _
      rw [hN q e he]
      show n < 16 - n + 16
      omega) (by
      intro q e he
      rw [hN q e he]
      exact wideV_lt.2 h0) l with ⟨y, b1, b2, _⟩ | ⟨b1, _⟩
  · obtain ⟨x, rfl⟩ := wideV_of_lt (Nat.lt_of_lt_of_le b1 hp16)
    exact absurd ((a4.covered x).2 (hcov x (wideV_lt.1 b1))) b2
  · exact b1

/-- **C120, violated** (tree64) After two claims a tree16 and a tree32 of length 16 list two entries with different
labels, a tree64 lists the second one twice. -/
theorem C120_tree64_violated :
    (fresh tree16 16).labels [.claim ⟨0, 16⟩ true, .claim ⟨1, 16⟩ false] = some [some true, some false] ∧
    (fresh tree32 16).labels [.claim ⟨0, 32⟩ true, .claim ⟨1, 32⟩ false] = some [some true, some false] ∧
    (fresh tree64 16).labels [.claim ⟨0, 64⟩ true, .claim ⟨1, 64⟩ false] = some [some false, some false] := by
  decide

theorem short_5_18 : Short [53, 45, 49, 56] := by
  rintro a b ⟨u, v, h1, h2, h3, h4, h5⟩
  have k := ((C34_parseRange (P := id32) (.inr (.inl rfl))).2 [53, 45, 49, 56] (rangeFrom (BitVec.ofNat _ a) (BitVec.ofNat _ b))).2
    ⟨u, v, a, b, h1, h2.no_hyphen, h2, h3, h4, h5, rfl⟩
  have hx : (parseRange [53, 45, 49, 56] : Option (Rng id32)) = some (rangeFrom (5#32) (18#32)) := by decide
  rw [hx] at k
  have e1 : 5#32 = BitVec.ofNat 32 a := congrArg (fun r : Rng id32 => r.lo.id) (Option.some.inj k)
  have e2 : 18#32 = BitVec.ofNat 32 b := congrArg (fun r : Rng id32 => r.hi.id) (Option.some.inj k)
  have e1 := congrArg BitVec.toNat e1
  have e2 := congrArg BitVec.toNat e2
  rw [BitVec.toNat_ofNat, BitVec.toNat_ofNat, Nat.mod_eq_of_lt h4] at e1
  rw [BitVec.toNat_ofNat, BitVec.toNat_ofNat, Nat.mod_eq_of_lt h5] at e2
  omega

-- 4/14 claimed, "5-18" claimed, then the next free id, then 5 released
example : ∃ (g₀ : GTree tree16 Bool) (hs : List (Op id16 Bool × Result id16 Bool)) (g : GTree tree16 Bool) (M : Map tree16.P Bool),
    new tree16 Bool 16 = some g₀ ∧ Steps tree16 16 g₀ Map.empty hs g M ∧ TidySteps 16 g₀ hs ∧
      hs.map Prod.fst = [.claim ⟨4, 14⟩ true, .claimRange [53, 45, 49, 56] false, .claimFree true, .release ⟨5, 16⟩] := by
  have h0 : new tree16 Bool 16 = some (fresh tree16 16) := rfl
  have hr : ∀ K : Map tree16.P Bool, Room K := fun K hW => absurd hW (by decide)
  have f1 : Op.Fits (.claim ⟨4, 14⟩ true : Op tree16.P Bool) := by show 14 ≤ 16; omega
  have f2 : Op.Fits (.claimRange [53, 45, 49, 56] false : Op tree16.P Bool) := trivial
  have f3 : Op.Fits (.claimFree true : Op tree16.P Bool) := trivial
  have f4 : Op.Fits (.release ⟨5, 16⟩ : Op tree16.P Bool) := Nat.le_refl 16
  obtain ⟨r₁, g₁, M₁, a1, a2, a3⟩ := C70_no_panic16 (.new h0) f1
  obtain ⟨r₂, g₂, M₂, b1, b2, b3⟩ := C70_no_panic16 a3 f2
  obtain ⟨r₃, g₃, M₃, c1, c2, c3⟩ := C70_no_panic16 b3 f3
  obtain ⟨r₄, g₄, M₄, d1, d2, d3⟩ := C70_no_panic16 c3 f4
  refine ⟨fresh tree16 16, _, g₄, M₄, h0,
    .cons f1 a1 a2 (hr _) (.cons f2 b1 b2 (hr _) (.cons f3 c1 c2 (hr _) (.cons f4 d1 d2 (hr _) .nil))),
    ⟨?_, fun _ _ _ _ _ _ _ _ => .inl rfl⟩, rfl⟩
  intro p hp
  rcases List.mem_cons.1 hp with rfl | hp
  · trivial
  rcases List.mem_cons.1 hp with rfl | hp
  · exact short_5_18
  rcases List.mem_cons.1 hp with rfl | hp
  · trivial
  rcases List.mem_cons.1 hp with rfl | hp
  · trivial
  · cases hp

example : Tidy 8 (put Map.empty ⟨0, 16⟩ true : Map id16 Bool) := by
  refine .inr ⟨fun q e he _ => ?_, fun q e he => ?_⟩
  all_goals
    unfold put Map.empty at he
    split at he
    · cases he; decide
    · cases he

end Verif.GTree
