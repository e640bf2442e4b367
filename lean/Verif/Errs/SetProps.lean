import Verif.Errs.SetModel
import Verif.Errs.TreeProps
import Verif.Id.FreeProps

/-! C111: the error texts of `ParseRange` and of the set builder. -/

namespace Verif.Id
open Verif.IdxTable (Text Spells spells1)
open Verif.GTree (ascii)
variable {P : Pkg}

/-! ### Specification -/

/-- the text is a decimal numeral of an id -/
def IsId (P : Pkg) (u : Text) : Prop := ∃ a, Numeral u a ∧ a < 2 ^ P.W

instance (r : Rng P) : Decidable r.Valid := inferInstanceAs (Decidable (_ ∧ _))

/-- the ranges that a call passes and that are no ranges, each with the method that rejects it -/
def rejected : Op P → List (String × Rng P)
  | .addRange r => if r.Valid then [] else [("addRange", r)]
  | .removeRange r => if r.Valid then [] else [("removeRange", r)]
  | .addSet rr => (rr.filter fun r => decide ¬ r.Valid).map fun r => ("addRange", r)
  | _ => []

/-- the text of a line: the method, and the ends of the range with their lengths -/
def SaysRejected (t : Text) (x : String × Rng P) : Prop :=
  Spells t [x.1 ++ "(", "/", "-", "/", ")"] [x.2.lo.id.toNat, x.2.lo.len, x.2.hi.id.toNat, x.2.hi.len]

/-- a text made of lines, with a newline between them -/
inductive Lines : Text → List Text → Prop
  | one {l} : (10 : UInt8) ∉ l → Lines l [l]
  | more {l m ls} : (10 : UInt8) ∉ l → Lines m ls → Lines (l ++ 10 :: m) (l :: ls)

/-! ### `ParseRange` -/

/-- **C111** (`ParseRange`, all packages) A text is returned exactly if the call fails. It says what is wrong first, and
this is true: there is no hyphen; or what is before the first hyphen is no id; or that is an id and what is after it is
none. The text contains the argument as `%q` writes it. -/
theorem C111_parseRange (hP : P = id16 ∨ P = id32 ∨ P = id64) (q : Text → Text) (s : Text) :
    ((∃ m, parseRangeMsg P q s = some m) ↔ (parseRange s : Option (Rng P)) = none) ∧
    ∀ m, parseRangeMsg P q s = some m →
      (m = ascii "no hyphen in range " ++ q s ∧ (45 : UInt8) ∉ s) ∨
      ∃ u v, s = u ++ 45 :: v ∧ (45 : UInt8) ∉ u ∧
        ((m = ascii "invalid from id " ++ q u ++ ascii " in range " ++ q s ∧ ¬ IsId P u) ∨
         (m = ascii "invalid to id " ++ q v ++ ascii " in range " ++ q s ∧ IsId P u ∧ ¬ IsId P v)) := by
  have h1 : 0 < P.W := by rcases hP with rfl | rfl | rfl <;> decide
  have h2 : P.W ≤ 64 := by rcases hP with rfl | rfl | rfl <;> decide
  have isId : ∀ u, IsId P u ↔ ∃ v, parseUint u P.W = some v := by
    intro u
    constructor
    · rintro ⟨a, ha, hl⟩
      have : a < 2 ^ 64 := Nat.lt_of_lt_of_le hl (Nat.pow_le_pow_right (by decide) h2)
      refine ⟨BitVec.ofNat 64 a, (parseUint_iff h1 h2 u _).2 ?_⟩
      rw [BitVec.toNat_ofNat, Nat.mod_eq_of_lt this]
      exact ⟨ha, hl⟩
    · rintro ⟨v, hv⟩
      exact ⟨_, (parseUint_iff h1 h2 u v).1 hv⟩
  have nohyphen : indexByte s 45 = none → (45 : UInt8) ∉ s := by
    intro hn hm
    obtain ⟨u, v, hs, hu⟩ := List.eq_append_cons_of_mem hm
    have := indexByte_eq_some.2 ⟨u, v, hs, hu, rfl⟩
    rw [hn] at this
    cases this
  unfold parseRangeMsg parseRange
  cases hi : indexByte s 45 with
  | none => exact ⟨by simp, fun m hm => by cases hm; exact .inl ⟨rfl, nohyphen hi⟩⟩
  | some h =>
    obtain ⟨u, v, hs, hu, hl⟩ := indexByte_eq_some.1 hi
    have e1 : s.take h = u := by rw [hs, ← hl]; simp
    have e2 : s.drop (h + 1) = v := by rw [hs, ← hl]; simp
    simp only [e1, e2]
    cases ha : parseUint u P.W with
    | none =>
      refine ⟨by simp, fun m hm => ?_⟩
      cases hm
      refine .inr ⟨u, v, hs, hu, .inl ⟨rfl, fun h => ?_⟩⟩
      obtain ⟨x, hx⟩ := (isId u).1 h
      rw [ha] at hx; cases hx
    | some a =>
      cases hb : parseUint v P.W with
      | none =>
        refine ⟨by simp, fun m hm => ?_⟩
        cases hm
        refine .inr ⟨u, v, hs, hu, .inr ⟨rfl, (isId u).2 ⟨a, ha⟩, fun h => ?_⟩⟩
        obtain ⟨x, hx⟩ := (isId v).1 h
        rw [hb] at hx; cases hx
      | some b => exact ⟨by simp, fun m hm => by cases hm⟩

-- "5", "x-5", "5-65536"
example : parseRangeMsg id16 (fun s => 34 :: s ++ [34]) (ascii "5") = some (ascii "no hyphen in range \"5\"") := by decide
example : parseRangeMsg id16 (fun s => 34 :: s ++ [34]) (ascii "x-5") =
    some (ascii "invalid from id \"x\" in range \"x-5\"") := by decide
example : parseRangeMsg id16 (fun s => 34 :: s ++ [34]) (ascii "5-65536") =
    some (ascii "invalid to id \"65536\" in range \"5-65536\"") := by decide

/-! ### The set builder -/

theorem rangeOfID_isValid (hP : P = id16 ∨ P = id32 ∨ P = id64) {i : MyId P} {r : Rng P} (h : rangeOfID i = some r) :
    r.isValid = true := by
  unfold rangeOfID at h
  cases hm : i.mask i.len with
  | ok m =>
    rw [hm] at h
    cases h
    have hlen : m.len ≤ P.W := by
      unfold MyId.mask at hm
      split at hm
      · cases hm
      · rename_i hle
        have hmm : P.maskMax ≤ P.W := by rcases hP with rfl | rfl | rfl <;> decide
        split at hm
        · cases hm
        · cases hm
          exact Nat.le_trans (Nat.not_lt.1 hle) hmm
    rw [isValid_iff]
    exact ⟨rfl, (C31_lastID hP m hlen).2.2 m.id rfl⟩
  | err => rw [hm] at h; cases h
  | panic => rw [hm] at h; cases h

theorem addRangeLines_eq (r : Rng P) :
    addRangeLines r = if r.Valid then [] else [rangeLine "addRange" r] := by
  unfold addRangeLines
  by_cases h : r.Valid
  · rw [if_pos h, isValid_iff.2 h]; rfl
  · rw [if_neg h, show r.isValid = false by rw [← Bool.not_eq_true, isValid_iff]; exact h]; rfl

theorem removeRangeLines_eq (r : Rng P) :
    removeRangeLines r = if r.Valid then [] else [rangeLine "removeRange" r] := by
  unfold removeRangeLines
  by_cases h : r.Valid
  · rw [if_pos h, isValid_iff.2 h]; rfl
  · rw [if_neg h, show r.isValid = false by rw [← Bool.not_eq_true, isValid_iff]; exact h]; rfl

/-- the lines a call adds are those for the ranges it rejects -/
theorem errLines_eq (hP : P = id16 ∨ P = id32 ∨ P = id64) (op : Op P) :
    errLines op = (rejected op).map fun x => rangeLine x.1 x.2 := by
  cases op with
  | addRange r =>
    simp only [errLines, rejected, addRangeLines_eq]
    split <;> rfl
  | removeRange r =>
    simp only [errLines, rejected, removeRangeLines_eq]
    split <;> rfl
  | addId i =>
    simp only [errLines, rejected, List.map_nil]
    cases h : rangeOfID i with
    | none => rfl
    | some r =>
      simp only [rangeOfID_isValid hP h, if_true, addRangeLines_eq, isValid_iff.1 (rangeOfID_isValid hP h)]
  | removeId i =>
    simp only [errLines, rejected, List.map_nil]
    cases h : rangeOfID i with
    | none => rfl
    | some r =>
      simp only [rangeOfID_isValid hP h, if_true, removeRangeLines_eq, isValid_iff.1 (rangeOfID_isValid hP h)]
  | addSet rr =>
    simp only [errLines, rejected, List.map_map]
    induction rr with
    | nil => rfl
    | cons r rr ih =>
      rw [List.flatMap_cons, ih, addRangeLines_eq]
      by_cases h : r.Valid <;> simp [h]
  | ipSet => rfl

theorem says_rangeLine {w : String} (r : Rng P) : SaysRejected (rangeLine w r) (w, r) := by
  unfold SaysRejected rangeLine MyId.string
  have happ : ascii (w ++ "(") = ascii w ++ ascii "(" := by simp [ascii, String.toList_append]
  have := Spells.more (w := w ++ "(") (numeral_fmtUint r.lo.id.toNat) (Spells.more (w := "/") (numeral_fmtUint r.lo.len)
    (Spells.more (w := "-") (numeral_fmtUint r.hi.id.toNat) (spells1 (w := "/") (v := ")") (numeral_fmtUint r.hi.len))))
  rw [happ] at this
  have e47 : ascii "/" = [47] := by decide
  have e45 : ascii "-" = [45] := by decide
  rw [e47, e45] at this
  rw [e45]
  simpa only [List.append_assoc, List.cons_append, List.nil_append] using this

theorem numeral_no10 {s : Text} {n : Nat} (h : Numeral s n) : (10 : UInt8) ∉ s := by
  induction h with
  | digit hd =>
    intro hm
    rw [List.mem_singleton] at hm
    obtain ⟨h1, h2⟩ := hd
    rw [← hm] at h1
    have : (10 : UInt8).toNat = 10 := rfl
    omega
  | more _ hd ih =>
    intro hm
    rcases List.mem_append.1 hm with hm | hm
    · exact ih hm
    · rw [List.mem_singleton] at hm
      obtain ⟨h1, h2⟩ := hd
      rw [← hm] at h1
      have : (10 : UInt8).toNat = 10 := rfl
      omega

theorem rangeLine_no10 {w : String} (hw : (10 : UInt8) ∉ ascii w) (r : Rng P) : (10 : UInt8) ∉ rangeLine w r := by
  have h1 := numeral_no10 (numeral_fmtUint r.lo.id.toNat)
  have h2 := numeral_no10 (numeral_fmtUint r.lo.len)
  have h3 := numeral_no10 (numeral_fmtUint r.hi.id.toNat)
  have h4 := numeral_no10 (numeral_fmtUint r.hi.len)
  have a1 : (10 : UInt8) ∉ ascii "(" := by decide
  have a2 : (10 : UInt8) ∉ ascii "-" := by decide
  have a3 : (10 : UInt8) ∉ ascii ")" := by decide
  have a4 : (10 : UInt8) ≠ 47 := by decide
  unfold rangeLine MyId.string
  simp only [List.mem_append, List.mem_cons, not_or]
  exact ⟨⟨⟨⟨⟨hw, a1⟩, h1, a4, h2⟩, a2⟩, h3, a4, h4⟩, a3⟩

theorem lines_join : ∀ {ls : List Text}, ls ≠ [] → (∀ l ∈ ls, (10 : UInt8) ∉ l) → Lines (joinLines ls) ls
  | [], h, _ => absurd rfl h
  | [l], _, h => .one (h l (by simp))
  | l :: l' :: ls, _, h => .more (h l (by simp)) (lines_join (by simp) (fun x hx => h x (by simp [hx])))

/-- without `IPSet`, nothing is returned and the lines accumulate -/
theorem run_lines (hP : P = id16 ∨ P = id32 ∨ P = id64) : ∀ (ops : List (Op P)) (s s' : LBuilder P) ts,
    Op.ipSet ∉ ops → s.run ops = .ok (s', ts) →
      s'.lines = s.lines ++ (ops.flatMap rejected).map (fun x => rangeLine x.1 x.2) ∧ ∀ t ∈ ts, t = none
  | [], s, s', ts, _, h => by cases h; simp
  | op :: ops, s, s', ts, hi, h => by
    unfold LBuilder.run at h
    have hop : op ≠ .ipSet := fun e => hi (by rw [e]; simp)
    have hstep : ∀ s1 t, s.step op = .ok (s1, t) → s1.lines = s.lines ++ errLines op ∧ t = none := by
      intro s1 t hst
      unfold LBuilder.step at hst
      cases hb : s.b.step op with
      | ok b =>
        rw [hb] at hst
        cases op with
        | ipSet => exact absurd rfl hop
        | _ => cases hst; exact ⟨rfl, rfl⟩
      | _ => rw [hb] at hst; cases hst
    cases hst : s.step op with
    | ok p =>
      obtain ⟨s1, t⟩ := p
      rw [hst] at h
      simp only at h
      cases hr : s1.run ops with
      | ok p =>
        obtain ⟨s2, ts'⟩ := p
        rw [hr] at h
        cases h
        obtain ⟨h1, h2⟩ := hstep s1 t hst
        obtain ⟨h3, h4⟩ := run_lines hP ops s1 s' ts' (fun hm => hi (List.mem_cons_of_mem _ hm)) hr
        refine ⟨?_, ?_⟩
        · rw [h3, h1, errLines_eq hP, List.flatMap_cons, List.map_append, List.append_assoc]
        · intro x hx
          rcases List.mem_cons.1 hx with rfl | hx
          · exact h2
          · exact h4 x hx
      | _ => rw [hr] at h; cases h
    | _ => rw [hst] at h; cases h

theorem rejected_names (op : Op P) : ∀ x ∈ rejected op, x.1 = "addRange" ∨ x.1 = "removeRange" := by
  cases op with
  | addRange r => intro x hx; simp only [rejected] at hx; split at hx <;> simp_all
  | removeRange r => intro x hx; simp only [rejected] at hx; split at hx <;> simp_all
  | addSet rr =>
    intro x hx
    simp only [rejected, List.mem_map] at hx
    obtain ⟨r, _, rfl⟩ := hx
    exact .inl rfl
  | _ => intro x hx; cases hx

theorem trun_append (s : LBuilder P) (a b : List (Op P)) (s2 : LBuilder P) (ts : List (Option Text))
    (h : s.run (a ++ b) = .ok (s2, ts)) :
    ∃ s1 t1 t2, s.run a = .ok (s1, t1) ∧ s1.run b = .ok (s2, t2) ∧ ts = t1 ++ t2 := by
  induction a generalizing s ts with
  | nil => exact ⟨s, [], ts, rfl, h, rfl⟩
  | cons op a ih =>
    simp only [List.cons_append] at h
    unfold LBuilder.run at h
    cases hst : s.step op with
    | ok p =>
      obtain ⟨s', t⟩ := p
      rw [hst] at h
      simp only at h
      cases hr : s'.run (a ++ b) with
      | ok p =>
        obtain ⟨s3, ts'⟩ := p
        rw [hr] at h
        cases h
        obtain ⟨s1, t1, t2, h1, h2, h3⟩ := ih s' ts' hr
        exact ⟨s1, t :: t1, t2, by rw [LBuilder.run, hst]; simp only [h1], h2, by rw [h3]; rfl⟩
      | _ => rw [hr] at h; cases h
    | _ => rw [hst] at h; cases h

/-- `IPSet` returns the lines and forgets them -/
theorem run_ipSet {s s' : LBuilder P} {ts} (h : s.run [.ipSet] = .ok (s', ts)) :
    s'.lines = [] ∧ ts = [if s.lines = [] then none else some (joinLines s.lines)] := by
  simp only [LBuilder.run, LBuilder.step] at h
  cases hb : s.b.step .ipSet with
  | ok b => rw [hb] at h; cases h; exact ⟨rfl, rfl⟩
  | _ => rw [hb] at h; cases h

/-- **C111** (set builder, all packages) The text that `IPSet` returns names, line by line and in the order of the calls,
exactly the ranges that were rejected since the last `IPSet` (or since the builder was made), each with the method that rejected it; it
returns no error if there are none. -/
theorem C111_builder (hP : P = id16 ∨ P = id32 ∨ P = id64) {pre mid : List (Op P)}
    (hpre : pre = [] ∨ ∃ l, pre = l ++ [.ipSet]) (hmid : Op.ipSet ∉ mid) {s : LBuilder P} {ts : List (Option Text)}
    (h : LBuilder.empty.run (pre ++ mid ++ [.ipSet]) = .ok (s, ts)) :
    ∃ t, ts.getLast? = some t ∧ (t = none ↔ mid.flatMap rejected = []) ∧
      ∀ m, t = some m → ∃ ls, Lines m ls ∧ List.Forall₂ SaysRejected ls (mid.flatMap rejected) := by
  obtain ⟨s2, t1, t2, h1, h2, rfl⟩ := trun_append _ _ _ _ _ h
  obtain ⟨s1, u1, u2, g1, g2, rfl⟩ := trun_append _ _ _ _ _ h1
  have hl1 : s1.lines = [] := by
    rcases hpre with rfl | ⟨l, rfl⟩
    · cases g1; rfl
    · obtain ⟨s0, v1, v2, _, k2, _⟩ := trun_append _ _ _ _ _ g1
      exact (run_ipSet k2).1
  obtain ⟨hl2, _⟩ := run_lines hP mid s1 s2 u2 hmid g2
  rw [hl1, List.nil_append] at hl2
  obtain ⟨_, rfl⟩ := run_ipSet h2
  refine ⟨_, List.getLast?_concat, ?_, ?_⟩
  · rw [hl2]
    by_cases he : mid.flatMap rejected = []
    · simp [he]
    · rw [if_neg (by simpa using he)]
      simp [he]
  · intro m hm
    split at hm
    · cases hm
    · rename_i hne
      cases hm
      refine ⟨_, lines_join hne ?_, ?_⟩
      · rw [hl2]
        intro l hl
        obtain ⟨x, hx, rfl⟩ := List.mem_map.1 hl
        obtain ⟨op, _, hx⟩ := List.mem_flatMap.1 hx
        rcases rejected_names op x hx with e | e <;> rw [e] <;> exact rangeLine_no10 (by decide) _
      · rw [hl2]
        generalize mid.flatMap rejected = l
        induction l with
        | nil => exact .nil
        | cons x l ih => exact .cons (says_rangeLine x.2) ih

theorem lines_unique {m : Text} {a b : List Text} (h1 : Lines m a) (h2 : Lines m b) : a = b := by
  induction h1 generalizing b with
  | one hn =>
    cases h2 with
    | one _ => rfl
    | more _ _ => exact absurd (by simp) hn
  | @more l m ls hn _ ih =>
    generalize hx : l ++ 10 :: m = x at h2
    cases h2 with
    | one hn' => exact absurd (by rw [← hx]; simp) hn'
    | @more l' m' ls' hn' h' =>
      have key : ∀ (l l' : Text), (10 : UInt8) ∉ l → (10 : UInt8) ∉ l' → l ++ 10 :: m = l' ++ 10 :: m' → l = l' ∧ m = m' := by
        intro l
        induction l with
        | nil =>
          intro l' _ hn' he
          cases l' with
          | nil => cases he; exact ⟨rfl, rfl⟩
          | cons c l' => cases he; exact absurd (by simp) hn'
        | cons c l ih =>
          intro l' hn hn' he
          cases l' with
          | nil => cases he; exact absurd (by simp) hn
          | cons c' l' =>
            simp only [List.cons_append, List.cons.injEq] at he
            obtain ⟨e1, e2⟩ := ih l' (fun h => hn (List.mem_cons_of_mem _ h)) (fun h => hn' (List.mem_cons_of_mem _ h)) he.2
            exact ⟨by rw [he.1, e1], e2⟩
      obtain ⟨rfl, rfl⟩ := key l l' hn hn' hx
      rw [ih h']

theorem saysRejected_unique {t : Text} {x y : String × Rng P} (hx : x.1 = "addRange" ∨ x.1 = "removeRange")
    (hy : y.1 = "addRange" ∨ y.1 = "removeRange") (h1 : SaysRejected t x) (h2 : SaysRejected t y) : x = y := by
  obtain ⟨w, ⟨⟨a, b⟩, ⟨c, d⟩⟩⟩ := x
  obtain ⟨w', ⟨⟨a', b'⟩, ⟨c', d'⟩⟩⟩ := y
  simp only at hx hy
  have hw : w = w' := by
    obtain ⟨u, e1, _⟩ := Verif.IdxTable.spells_start h1
    obtain ⟨u', e2, _⟩ := Verif.IdxTable.spells_start h2
    rw [e1] at e2
    rcases hx with rfl | rfl <;> rcases hy with rfl | rfl
    · rfl
    · exact absurd (congrArg List.head? e2) (by
        rw [List.head?_append, List.head?_append, show (ascii ("addRange" ++ "(")).head? = some 97 by decide,
          show (ascii ("removeRange" ++ "(")).head? = some 114 by decide]
        simp)
    · exact absurd (congrArg List.head? e2) (by
        rw [List.head?_append, List.head?_append, show (ascii ("addRange" ++ "(")).head? = some 97 by decide,
          show (ascii ("removeRange" ++ "(")).head? = some 114 by decide]
        simp)
    · rfl
  subst hw
  have := Verif.IdxTable.spells_unique (by decide) h1 h2
  simp only [List.cons.injEq, and_true] at this
  obtain ⟨e1, e2, e3, e4⟩ := this
  rw [BitVec.eq_of_toNat_eq e1, BitVec.eq_of_toNat_eq e3, e2, e4]

/-- **C111** The text can be read in one way only: two texts that name ranges in this way and are equal name the same
ranges. -/
theorem C111_one_reading {m : Text} {ls ls' : List Text} {xs ys : List (String × Rng P)}
    (hx : ∀ x ∈ xs, x.1 = "addRange" ∨ x.1 = "removeRange") (hy : ∀ x ∈ ys, x.1 = "addRange" ∨ x.1 = "removeRange")
    (h1 : Lines m ls) (h2 : Lines m ls') (h3 : List.Forall₂ SaysRejected ls xs) (h4 : List.Forall₂ SaysRejected ls' ys) :
    xs = ys := by
  have := lines_unique h1 h2
  subst this
  clear h1 h2
  induction h3 generalizing ys with
  | nil => cases h4; rfl
  | cons a _ ih =>
    cases h4 with
    | cons b h4 =>
      rw [saysRejected_unique (hx _ (by simp)) (hy _ (by simp)) a b,
        ih (fun x h => hx x (by simp [h])) (fun x h => hy x (by simp [h])) h4]

/-- 5-3 is rejected, 1-4 is not -/
example : errLines (.addRange (rangeFrom 5 3 : Rng id16)) = [ascii "addRange(5/16-3/16)"] ∧
    errLines (.addRange (rangeFrom 1 4 : Rng id16)) = [] := by
  constructor
  · show [rangeLine "addRange" (rangeFrom 5 3 : Rng id16)] = _
    unfold rangeLine MyId.string
    rw [show fmtUint ((rangeFrom 5 3 : Rng id16).lo.id.toNat) = [53] by unfold fmtUint; rfl,
      show fmtUint ((rangeFrom 5 3 : Rng id16).hi.id.toNat) = [51] by unfold fmtUint; rfl,
      show fmtUint ((rangeFrom 5 3 : Rng id16).lo.len) = [49, 54] by unfold fmtUint; unfold fmtUint; rfl,
      show fmtUint ((rangeFrom 5 3 : Rng id16).hi.len) = [49, 54] by unfold fmtUint; unfold fmtUint; rfl]
    decide
  · rfl

/-- of 5-3, 1-4 and 9-8 `IPSet` then returns two lines -/
example (s : LBuilder id16) (ts : List (Option Text)) (h : (LBuilder.empty : LBuilder id16).run
      ([] ++ [.addRange (rangeFrom 5 3), .addRange (rangeFrom 1 4), .removeRange (rangeFrom 9 8)] ++ [.ipSet]) = .ok (s, ts)) :
    ∃ m ls, ts.getLast? = some (some m) ∧ Lines m ls ∧
      List.Forall₂ SaysRejected ls [("addRange", (rangeFrom 5 3 : Rng id16)), ("removeRange", rangeFrom 9 8)] := by
  obtain ⟨t, h1, h2, h3⟩ := C111_builder (.inl rfl) (.inl rfl) (by simp) h
  have e : List.flatMap rejected [Op.addRange (rangeFrom 5 3 : Rng id16), .addRange (rangeFrom 1 4), .removeRange (rangeFrom 9 8)] =
    [("addRange", (rangeFrom 5 3 : Rng id16)), ("removeRange", rangeFrom 9 8)] := rfl
  cases t with
  | none => rw [e] at h2; cases h2.1 rfl
  | some m => obtain ⟨ls, h4, h5⟩ := h3 m rfl; exact ⟨m, ls, h1, h4, e ▸ h5⟩

/-! ### The text and the result of the model without texts -/

theorem normalize_ok_errs {s s' : Builder P} (h : s.normalize = .ok s') : s'.errs = s.errs := by
  unfold Builder.normalize at h
  split at h
  · split at h <;> cases h <;> rfl
  · cases h; rfl
  · cases h; rfl

theorem addRange_errs {s s' : Builder P} {r : Rng P} (h : s.addRange r = .ok s') :
    s'.errs = (s.errs || !(addRangeLines r).isEmpty) := by
  unfold Builder.addRange at h
  unfold addRangeLines
  cases hv : r.isValid <;> rw [hv] at h
  · cases h; simp
  · simp only [Bool.not_true, Bool.false_eq_true, if_false] at h ⊢
    split at h
    · cases hn : s.normalize with
      | ok s1 =>
        rw [hn] at h
        cases h
        simp [normalize_ok_errs hn]
      | _ => rw [hn] at h; cases h
    · cases h; simp

theorem removeRange_errs {s s' : Builder P} {r : Rng P} (h : s.removeRange r = .ok s') :
    s'.errs = (s.errs || !(removeRangeLines r).isEmpty) := by
  unfold Builder.removeRange at h
  unfold removeRangeLines
  cases hv : r.isValid <;> rw [hv] at h <;> cases h <;> simp

theorem addSet_errs : ∀ {rr : List (Rng P)} {s s' : Builder P}, s.addSet rr = .ok s' →
    s'.errs = (s.errs || !(rr.flatMap addRangeLines).isEmpty)
  | [], s, s', h => by cases h; simp
  | r :: rr, s, s', h => by
    unfold Builder.addSet at h
    cases hr : s.addRange r with
    | ok s1 =>
      rw [hr] at h
      rw [addSet_errs h, addRange_errs hr, List.flatMap_cons]
      cases addRangeLines r <;> cases rr.flatMap addRangeLines <;> simp
    | _ => rw [hr] at h; cases h

theorem step_errs {s s' : Builder P} {op : Op P} (hop : op ≠ .ipSet) (h : s.step op = .ok s') :
    s'.errs = (s.errs || !(errLines op).isEmpty) := by
  cases op with
  | addRange r => exact addRange_errs h
  | removeRange r => exact removeRange_errs h
  | addId i =>
    change s.addId i = .ok s' at h
    unfold Builder.addId at h
    unfold errLines
    cases hr : rangeOfID i with
    | none => rw [hr] at h; cases h
    | some r =>
      rw [hr] at h
      simp only [hr] at h ⊢
      cases hv : r.isValid <;> rw [hv] at h
      · cases h; simp
      · exact addRange_errs h
  | removeId i =>
    change s.removeId i = .ok s' at h
    unfold Builder.removeId at h
    unfold errLines
    cases hr : rangeOfID i with
    | none => rw [hr] at h; cases h
    | some r =>
      rw [hr] at h
      simp only [hr] at h ⊢
      cases hv : r.isValid <;> rw [hv] at h
      · cases h; simp
      · exact removeRange_errs h
  | addSet rr => exact addSet_errs h
  | ipSet => exact absurd rfl hop

theorem ipSet_errs {s s' : Builder P} {set : IDSet P} {e : Bool} (h : s.ipSet = .ok (s', set, e)) :
    s'.errs = false ∧ e = s.errs := by
  unfold Builder.ipSet at h
  cases hn : s.normalize with
  | ok s1 => rw [hn] at h; cases h; exact ⟨rfl, normalize_ok_errs hn⟩
  | _ => rw [hn] at h; cases h

/-- the lines are those of an error exactly if the model without texts has one -/
theorem run_errs : ∀ (ops : List (Op P)) (s s' : LBuilder P) ts, s.b.errs = !s.lines.isEmpty → s.run ops = .ok (s', ts) →
    s'.b.errs = !s'.lines.isEmpty
  | [], s, s', ts, hs, h => by cases h; exact hs
  | op :: ops, s, s', ts, hs, h => by
    unfold LBuilder.run at h
    cases hst : s.step op with
    | ok p =>
      obtain ⟨s1, t⟩ := p
      rw [hst] at h
      simp only at h
      cases hr : s1.run ops with
      | ok p =>
        obtain ⟨s2, ts'⟩ := p
        rw [hr] at h
        cases h
        refine run_errs ops s1 _ ts' ?_ hr
        unfold LBuilder.step at hst
        cases hb : s.b.step op with
        | ok b =>
          rw [hb] at hst
          by_cases hop : op = .ipSet
          · subst hop
            cases hst
            simp only [Builder.step] at hb
            cases hi : s.b.ipSet with
            | ok p =>
              obtain ⟨b', set, e⟩ := p
              rw [hi] at hb
              cases hb
              exact (ipSet_errs hi).1
            | _ => rw [hi] at hb; cases hb
          · have he := step_errs hop hb
            have : s1 = ⟨b, s.lines ++ errLines op⟩ := by
              cases op with
              | ipSet => exact absurd rfl hop
              | _ => cases hst; rfl
            rw [this]
            show b.errs = _
            rw [he, hs]
            cases s.lines <;> cases errLines op <;> rfl
        | _ => rw [hb] at hst; cases hst
      | _ => rw [hr] at h; cases h
    | _ => rw [hst] at h; cases h

/-- **C111** (set builder, all packages) `IPSet` has an error text exactly if it returns an error (`C39` says when). -/
theorem C111_builder_fails {ops : List (Op P)} {s s' : LBuilder P} {ts : List (Option Text)} {t : Option Text}
    (h : LBuilder.empty.run ops = .ok (s, ts)) (hi : s.step .ipSet = .ok (s', t)) :
    ∃ b set e, s.b.ipSet = .ok (b, set, e) ∧ (e = true ↔ ∃ m, t = some m) := by
  have he := run_errs ops _ _ _ rfl h
  unfold LBuilder.step at hi
  simp only [Builder.step] at hi
  cases hb : s.b.ipSet with
  | ok p =>
    obtain ⟨b, set, e⟩ := p
    rw [hb] at hi
    cases hi
    refine ⟨b, set, e, rfl, ?_⟩
    rw [(ipSet_errs hb).2, he]
    cases s.lines <;> simp
  | _ => rw [hb] at hi; cases hi

/-! ### Ids -/

/-- **C111** (all packages) `AddId` and `RemoveId` never add a line: their texts cannot be seen. What is not the id of a range makes
them panic, see `C66`. -/
theorem C111_ids_silent (hP : P = id16 ∨ P = id32 ∨ P = id64) (i : MyId P) :
    errLines (.addId i) = [] ∧ errLines (.removeId i) = [] :=
  ⟨by rw [errLines_eq hP]; rfl, by rw [errLines_eq hP]; rfl⟩

/-- **C111** (id16, id32) `IsZero` tells whether a range is the one that `RangeOfID` yields for a prefix longer than the
width. -/
theorem C111_isZero (hP : P = id16 ∨ P = id32) (i : MyId P) : isZero (rangeOfID i) = true ↔ P.W < i.len := by
  unfold isZero
  rw [Option.isNone_iff_eq_none]
  constructor
  · intro h
    rcases Nat.lt_or_ge P.W i.len with hl | hl
    · exact hl
    · obtain ⟨r, hr, _⟩ := C31_rangeOfID hP i hl
      rw [hr] at h; cases h
  · intro h
    unfold rangeOfID
    rw [(C30_mask hP i i.len).1 h]

/-- **C111, violated** (id64) The range of a valid prefix of more than 32 bits is zero. -/
theorem C111_isZero64_violated (i : MyId id64) (h : 32 < i.len) : isZero (rangeOfID i) = true := by
  unfold isZero rangeOfID
  rw [C30_mask64_violated.1 i i.len h]
  rfl

end Verif.Id

namespace Verif.GTree
open Verif.Id
open Verif.Tree (Out)
open Verif.IdxTable (Text)
variable {I : Impl} {L : Type} [Labels L]

omit [Labels L] in
/-- **C111** (`ClaimRange` of tree16, tree32, tree64; every state) It has an error text exactly if it fails, that of
`ParseRange`. -/
theorem C111_claimRange (hI : I = tree16 ∨ I = tree32 ∨ I = tree64) (g : GTree I L) (q : Text → Text) (s : Text) (l : L) :
    (∃ m, g.claimRangeMsg q s = some m) ↔ ∃ g', g.claimRange s l = .ok (.err, g') := by
  have hP : I.P = id16 ∨ I.P = id32 ∨ I.P = id64 := by
    rcases hI with rfl | rfl | rfl
    · exact .inl rfl
    · exact .inr (.inl rfl)
    · exact .inr (.inr rfl)
  unfold GTree.claimRangeMsg GTree.claimRange
  rw [(C111_parseRange hP q s).1]
  cases hp : (parseRange s : Option (Rng I.P)) with
  | none => exact ⟨fun _ => ⟨g, rfl⟩, fun _ => rfl⟩
  | some r =>
    refine ⟨fun h => (by cases h), fun ⟨g', h⟩ => ?_⟩
    simp only at h
    cases hr : r.ids with
    | none => rw [hr] at h; cases h
    | some ids =>
      rw [hr] at h
      change (g.setAll l ids >>= fun g => (pure (Ret.ok (), g) : Out _)) = _ at h
      cases hs : g.setAll l ids <;> rw [hs] at h <;> cases h

omit [Labels L] in
theorem removeAll_errs (hP : I.P = id16 ∨ I.P = id32 ∨ I.P = id64) : ∀ (l : List (Entry I.P L)) {b b' : Builder I.P},
    removeAll l b = .ok b' → b.errs = false → b'.errs = false
  | [], b, b', h, hb => by cases h; exact hb
  | e :: es, b, b', h, hb => by
    change (ofRes (b.removeId e.id) >>= fun b => removeAll es b) = _ at h
    cases hr : b.removeId e.id with
    | ok b1 =>
      rw [hr] at h
      refine removeAll_errs hP es h ?_
      have := step_errs (op := .removeId e.id) (by simp) hr
      rw [this, hb, (C111_ids_silent hP e.id).2]
      rfl
    | _ => rw [hr] at h; cases h

omit [Labels L] in
/-- **C111** (`ClaimFree` of tree16, tree32, tree64; every state) The text of the set builder never becomes part of the text of
`ClaimFree`. -/
theorem C111_claimFree (hI : I = tree16 ∨ I = tree32 ∨ I = tree64) (g : GTree I L) (bt bt' : Text) :
    g.claimFreeMsg bt = g.claimFreeMsg bt' := by
  have hP : I.P = id16 ∨ I.P = id32 ∨ I.P = id64 := by
    rcases hI with rfl | rfl | rfl
    · exact .inl rfl
    · exact .inr (.inl rfl)
    · exact .inr (.inr rfl)
  suffices h : g.findFreeMsg bt = g.findFreeMsg bt' by unfold GTree.claimFreeMsg; rw [h]
  unfold GTree.findFreeMsg
  dsimp only
  cases hb : (Builder.empty : Builder I.P).addId ⟨0, I.rootLen g.length⟩ with
  | ok b =>
    have h0 : b.errs = false := by
      have := step_errs (op := .addId ⟨0, I.rootLen g.length⟩) (by simp) hb
      rw [this, (C111_ids_silent hP _).1]
      rfl
    show (g.children _ >>= _) = (g.children _ >>= _)
    cases g.children ⟨0, I.rootLen g.length⟩ with
    | ok ch =>
      show (removeAll ch b >>= _) = (removeAll ch b >>= _)
      cases hr : removeAll ch b with
      | ok b' =>
        have h1 := removeAll_errs hP ch hr h0
        show (ofRes b'.ipSet >>= _) = (ofRes b'.ipSet >>= _)
        cases hs : b'.ipSet with
        | ok p =>
          obtain ⟨x, set, e⟩ := p
          have := (ipSet_errs hs).2
          rw [h1] at this
          subst this
          rfl
        | _ => rfl
      | _ => rfl
    | _ => rfl
  | _ => rfl

end Verif.GTree

namespace Verif.Id

/-- `IsZero` of a length that is too long, and of one that is not -/
example : isZero (rangeOfID (⟨0#16, 17⟩ : MyId id16)) = true ∧ ¬ isZero (rangeOfID (⟨0#16, 16⟩ : MyId id16)) = true :=
  ⟨(C111_isZero (.inl rfl) _).2 (by decide), fun h => absurd ((C111_isZero (.inl rfl) _).1 h) (by decide)⟩

end Verif.Id

namespace Verif.GTree
open Verif.IdxTable (Text)

/-- a range without `-` -/
example (q : Text → Text) (g : GTree tree32 (List Nat)) (l : List Nat) : ∃ g', g.claimRange [49, 48] l = .ok (.err, g') :=
  (C111_claimRange (.inr (.inl rfl)) g q _ l).1 ⟨_, rfl⟩

end Verif.GTree
