import Verif.Id.SetProps

/-!
C103. `==` on ids. `makeID` (range32.go:90-92) returns a pointer `&myid32{..}`, so the ids returned by `IDs` are
pointers, while `NewID`, `Copy`, `Next`, `Prev`, `Masked` and `LastID` return values; `Next` is a value even when called
on a pointer (the methods have value receivers). `mergeRanges` compares two `tree.ID` interfaces with `==`
(range32.go:187), and Go takes a value and a pointer for different. `Model.lean` identifies the two; here they are kept
apart. All other comparisons go through `ID()` and `Length()`, so that only the start of a range matters.

`sort.Slice` is not stable and two ranges that compare equal may differ in this respect, so the sorting function is a
parameter. `AddId` and `RemoveId` pass a range of values to `AddRange` and `RemoveRange`, and `AddSet` calls `AddRange`
for each range of the set; they are not repeated here.
-/

namespace Verif.Id
variable {P : Pkg}

/-! ### model -/

/-- a range, and whether its `From()` is a pointer -/
structure TRng (P : Pkg) where
  r : Rng P
  ptr : Bool
deriving DecidableEq

/-- a range as `RangeFrom`, `ParseRange` and `RangeOfID` return it -/
def Rng.val (r : Rng P) : TRng P := ⟨r, false⟩

/-- range32.go:36-39 `SetFrom` with an id returned by `IDs` -/
def Rng.setFromPtr (r : Rng P) (i : MyId P) : TRng P := ⟨r.setFrom i, true⟩

/-- range32.go:180-216 the loop of `mergeRanges`: the `==` of line 187 is false for a pointer -/
def mergeLoopT : List (TRng P) → TRng P → List (TRng P) → Option (List (TRng P))
  | acc, prev, [] => some (acc ++ [prev])
  | acc, prev, r :: rs =>
    if !r.r.isValid then none
    else if r.ptr = false ∧ prev.r.hi.next = r.r.lo then mergeLoopT acc ⟨prev.r.setTo r.r.hi, prev.ptr⟩ rs
    else if prev.r.hi.less r.r.lo then mergeLoopT (acc ++ [prev]) r rs
    else if prev.r.hi.less r.r.hi then mergeLoopT acc ⟨prev.r.setTo r.r.hi, prev.ptr⟩ rs
    else mergeLoopT acc prev rs

/-- range32.go:166-218 `mergeRanges` -/
def mergeRangesT (srt : List (TRng P) → List (TRng P)) (rr : List (TRng P)) : Option (List (TRng P)) :=
  match rr with
  | [] => some []
  | [r] => some [r]
  | _ =>
    match srt rr with
    | [] => some []
    | r :: rs => mergeLoopT [] r rs

/-- idset.go:81-151 the loop of `normalize`; `rout.To().Next()` is a value -/
def normLoopT (min : List (TRng P)) : List (TRng P) → List (TRng P) → Res (List (TRng P))
  | [], _ => .ok min
  | rin :: ins, [] => .ok (min ++ rin :: ins)
  | rin :: ins, rout :: outs =>
    if !rout.r.isValid || !rin.r.isValid then .panicInvalid
    else if rout.r.entirelyBefore rin.r then normLoopT min (rin :: ins) outs
    else if rin.r.entirelyBefore rout.r then normLoopT (min ++ [rin]) ins (rout :: outs)
    else if rin.r.coveredBy rout.r then normLoopT min ins (rout :: outs)
    else if rout.r.inMiddleOf rin.r then
      normLoopT (min ++ [⟨⟨rin.r.lo, rout.r.lo.prev⟩, rin.ptr⟩]) (⟨rin.r.setFrom rout.r.hi.next, false⟩ :: ins) outs
    else if rout.r.overlapsStartOf rin.r then normLoopT min (⟨rin.r.setFrom rout.r.hi.next, false⟩ :: ins) outs
    else if rout.r.overlapsEndOf rin.r then
      normLoopT (min ++ [⟨⟨rin.r.lo, rout.r.lo.prev⟩, rin.ptr⟩]) ins (rout :: outs)
    else .panicOverlap
termination_by ins outs => ins.length + outs.length

/-- idset.go:10-14 `IDSetBuilder` -/
structure TBuilder (P : Pkg) where
  ins : List (TRng P)
  outs : List (TRng P)
  errs : Bool

/-- the zero value -/
def TBuilder.empty : TBuilder P := ⟨[], [], false⟩

/-- idset.go:67-156 `normalize` -/
def TBuilder.normalize (srt : List (TRng P) → List (TRng P)) (s : TBuilder P) : Res (TBuilder P) :=
  match mergeRangesT srt s.ins, mergeRangesT srt s.outs with
  | some ins, some outs =>
    match normLoopT [] ins outs with
    | .ok m => .ok { s with ins := m, outs := [] }
    | .panicInvalid => .panicInvalid
    | .panicOverlap => .panicOverlap
    | .panicNil => .panicNil
  | none, _ => .ok { s with ins := srt s.ins }
  | some _, none => .ok { s with ins := srt s.ins, outs := srt s.outs }

/-- calls on a builder -/
inductive TOp (P : Pkg)
  | addRange (r : TRng P)
  | removeRange (r : TRng P)
  | ipSet

/-- idset.go:33-42 `AddRange`, idset.go:45-52 `RemoveRange`, idset.go:158-170 `IPSet` (the set is `ins` afterwards) -/
def TBuilder.step (srt : List (TRng P) → List (TRng P)) (s : TBuilder P) : TOp P → Res (TBuilder P)
  | .addRange r =>
    if !r.r.isValid then .ok { s with errs := true }
    else if s.outs.length > 0 then
      match s.normalize srt with
      | .ok s => .ok { s with ins := s.ins ++ [r] }
      | e => e
    else .ok { s with ins := s.ins ++ [r] }
  | .removeRange r => if r.r.isValid then .ok { s with outs := s.outs ++ [r] } else .ok { s with errs := true }
  | .ipSet =>
    match s.normalize srt with
    | .ok s => .ok { s with errs := false }
    | e => e

/-- a sequence of calls -/
def TBuilder.run (srt : List (TRng P) → List (TRng P)) (s : TBuilder P) : List (TOp P) → Res (TBuilder P)
  | [] => .ok s
  | op :: ops =>
    match s.step srt op with
    | .ok s => s.run srt ops
    | e => e

/-! ### specification -/

/-- what `sort.Slice(rr, Less)` may do -/
def Sorts (srt : List (TRng P) → List (TRng P)) : Prop :=
  ∀ l, (srt l).Perm l ∧ (srt l).Pairwise (fun a b => b.r.less a.r = false)

/-- the call, without the distinction -/
def TOp.op : TOp P → Op P
  | .addRange r => .addRange r.r
  | .removeRange r => .removeRange r.r
  | .ipSet => .ipSet

/-- the call adds no range that starts with a pointer -/
def TOp.NoPtr : TOp P → Prop
  | .addRange r => r.ptr = false
  | _ => True

/-- valid and in order without overlap; two ranges touch only when the second starts with a pointer -/
def Almost (rr : List (TRng P)) : Prop :=
  (∀ r ∈ rr, r.r.Valid) ∧
  rr.Pairwise (fun a b => Before a.r.hi b.r.lo ∧
    (a.r.hi.len = b.r.lo.len → a.r.hi.id.toNat + 1 = b.r.lo.id.toNat → b.ptr = true))

/-! ### lemmas -/

/-- the gap between two ranges -/
def gapT (a b : TRng P) : Prop := key a.r.hi < key b.r.lo ∧ (b.ptr = false → key a.r.hi + 1 < key b.r.lo)

theorem exists_cons {α : Type} {p : α → Prop} {a : α} {l : List α} :
    (∃ x ∈ a :: l, p x) ↔ p a ∨ ∃ x ∈ l, p x := by simp

theorem exists_map {l : List (TRng P)} {p : Rng P → Prop} : (∃ r ∈ l.map (·.r), p r) ↔ ∃ t ∈ l, p t.r := by
  constructor
  · rintro ⟨r, hr, h⟩
    obtain ⟨t, ht, rfl⟩ := List.mem_map.1 hr
    exact ⟨t, ht, h⟩
  · rintro ⟨t, ht, h⟩
    exact ⟨t.r, List.mem_map.2 ⟨t, ht, rfl⟩, h⟩

theorem gapT_spaced {l : List (TRng P)} (hv : ∀ r ∈ l, r.r.Valid) (h : l.Pairwise gapT) :
    Spaced 0 (l.map (·.r)) := by
  refine ⟨?_, ?_⟩
  · intro r hr
    obtain ⟨t, ht, rfl⟩ := List.mem_map.1 hr
    exact hv t ht
  · rw [List.pairwise_map]
    exact h.imp (fun h => h.1)

theorem mergeLoopT_spec (A : Arith P) (rs : List (TRng P)) :
    ∀ (acc : List (TRng P)) (prev : TRng P),
      (∀ r ∈ prev :: rs, r.r.Valid) → (∀ r ∈ prev :: rs, r.r.hi.id ≠ maxV P) →
      (prev :: rs).Pairwise (fun a b => sortLe a.r b.r) →
      ∃ out, mergeLoopT acc prev rs = some (acc ++ out) ∧ (∀ o ∈ out, o.r.Valid) ∧ out.Pairwise gapT ∧
        (∀ o ∈ out, (o.r.lo = prev.r.lo ∧ o.ptr = prev.ptr) ∨ key prev.r.hi < key o.r.lo ∧ (o.ptr = false → key prev.r.hi + 1 < key o.r.lo)) ∧
        (∀ o ∈ out, ∃ r ∈ prev :: rs, o.r.lo = r.r.lo ∧ o.ptr = r.ptr) ∧
        (∀ o ∈ out, ∃ r ∈ prev :: rs, o.r.hi = r.r.hi) ∧
        (∀ k, (∃ o ∈ out, inK o.r k) ↔ ∃ r ∈ prev :: rs, inK r.r k) := by
  induction rs with
  | nil =>
    intro acc prev hv _ _
    exact ⟨[prev], rfl, hv, List.pairwise_singleton _ _, by simp, by simp, by simp, fun k => Iff.rfl⟩
  | cons r rs ih =>
    intro acc prev hv hm hs
    have hvp := hv prev List.mem_cons_self
    have hvr := hv r (by simp)
    have hmp := hm prev List.mem_cons_self
    have hmr := hm r (by simp)
    rw [List.pairwise_cons] at hs
    obtain ⟨hs1, hs2⟩ := hs
    have hs2' := List.pairwise_cons.1 hs2
    have hpr := hs1 r (by simp)
    have kp := hvp.key_le
    have kr := hvr.key_le
    unfold mergeLoopT
    have hval : (!r.r.isValid) = false := by
      have := isValid_iff.2 hvr; simp [this]
    simp only [hval, Bool.false_eq_true, if_false]
    -- `prev` extended to the end of `r`
    have ext : prev.r.hi.len = r.r.lo.len → key r.r.lo ≤ key prev.r.hi + 1 → key prev.r.hi < key r.r.hi →
        ∃ out, mergeLoopT acc ⟨prev.r.setTo r.r.hi, prev.ptr⟩ rs = some (acc ++ out) ∧ (∀ o ∈ out, o.r.Valid) ∧
          out.Pairwise gapT ∧
          (∀ o ∈ out, (o.r.lo = prev.r.lo ∧ o.ptr = prev.ptr) ∨ key prev.r.hi < key o.r.lo ∧ (o.ptr = false → key prev.r.hi + 1 < key o.r.lo)) ∧
          (∀ o ∈ out, ∃ q ∈ prev :: r :: rs, o.r.lo = q.r.lo ∧ o.ptr = q.ptr) ∧
          (∀ o ∈ out, ∃ q ∈ prev :: r :: rs, o.r.hi = q.r.hi) ∧
          (∀ k, (∃ o ∈ out, inK o.r k) ↔ ∃ q ∈ prev :: r :: rs, inK q.r k) := by
      intro hlen htouch hlt
      obtain ⟨out, o1, o2, o3, o4, o5, o6, o7⟩ := ih acc ⟨prev.r.setTo r.r.hi, prev.ptr⟩ (by
          intro q hq
          rcases List.mem_cons.1 hq with rfl | hq
          · apply valid_of_key
            · show prev.r.lo.len = r.r.hi.len
              rw [hvp.1, hlen, hvr.1]
            · show key prev.r.lo ≤ key r.r.hi
              omega
          · exact hv q (by simp [hq])) (by
          intro q hq
          rcases List.mem_cons.1 hq with rfl | hq
          · exact hmr
          · exact hm q (by simp [hq])) (by
          rw [List.pairwise_cons]
          refine ⟨?_, hs2'.2⟩
          intro q hq
          have h1 := hs2'.1 q hq
          show key prev.r.lo < key q.r.lo ∨ (key prev.r.lo = key q.r.lo ∧ key q.r.hi ≤ key r.r.hi)
          unfold sortLe at h1 hpr
          omega)
      refine ⟨out, o1, o2, o3, ?_, ?_, ?_, ?_⟩
      · intro o ho
        rcases o4 o ho with h | ⟨h1, h2⟩
        · exact .inl h
        · right
          have h1' : key r.r.hi < key o.r.lo := h1
          exact ⟨by omega, fun _ => by omega⟩
      · intro o ho
        obtain ⟨q, hq, he⟩ := o5 o ho
        rcases List.mem_cons.1 hq with rfl | hq
        · exact ⟨prev, by simp, he⟩
        · exact ⟨q, by simp [hq], he⟩
      · intro o ho
        obtain ⟨q, hq, he⟩ := o6 o ho
        rcases List.mem_cons.1 hq with rfl | hq
        · exact ⟨r, by simp, he⟩
        · exact ⟨q, by simp [hq], he⟩
      · intro k
        rw [o7 k]
        have he : inK (prev.r.setTo r.r.hi) k ↔ inK prev.r k ∨ inK r.r k := by
          show key prev.r.lo ≤ k ∧ k ≤ key r.r.hi ↔ _
          unfold inK
          unfold sortLe at hpr
          omega
        simp only [exists_cons, he, or_assoc]
    split
    · rename_i h
      obtain ⟨hp, h⟩ := h
      have hk := A.key_next hmp
      rw [h] at hk
      have hl := A.next_len hmp
      rw [h] at hl
      exact ext hl.symm (by omega) (by omega)
    · rename_i hnt
      split
      · rename_i hlt
        rw [less_iff] at hlt
        have hgap : r.ptr = false → key prev.r.hi + 1 < key r.r.lo := by
          intro hp
          have : key prev.r.hi + 1 ≠ key r.r.lo := by
            intro he
            rw [← A.key_next hmp] at he
            exact hnt ⟨hp, key_inj he⟩
          omega
        obtain ⟨out, o1, o2, o3, o4, o5, o6, o7⟩ := ih (acc ++ [prev]) r (fun q hq => hv q (List.mem_cons_of_mem _ hq))
          (fun q hq => hm q (List.mem_cons_of_mem _ hq)) hs2
        have hg : ∀ o ∈ out, gapT prev o := by
          intro o ho
          rcases o4 o ho with ⟨h1, h2⟩ | ⟨h1, h2⟩
          · unfold gapT
            rw [h1, h2]
            exact ⟨hlt, hgap⟩
          · exact ⟨by omega, fun _ => by omega⟩
        refine ⟨prev :: out, by rw [o1]; simp, ?_, ?_, ?_, ?_, ?_, ?_⟩
        · intro o ho
          rcases List.mem_cons.1 ho with rfl | ho
          · exact hvp
          · exact o2 o ho
        · exact List.pairwise_cons.2 ⟨hg, o3⟩
        · intro o ho
          rcases List.mem_cons.1 ho with rfl | ho
          · exact .inl ⟨rfl, rfl⟩
          · exact .inr (hg o ho)
        · intro o ho
          rcases List.mem_cons.1 ho with rfl | ho
          · exact ⟨_, by simp, rfl, rfl⟩
          · obtain ⟨q, hq, he⟩ := o5 o ho
            exact ⟨q, List.mem_cons_of_mem _ hq, he⟩
        · intro o ho
          rcases List.mem_cons.1 ho with rfl | ho
          · exact ⟨_, by simp, rfl⟩
          · obtain ⟨q, hq, he⟩ := o6 o ho
            exact ⟨q, List.mem_cons_of_mem _ hq, he⟩
        · intro k
          rw [exists_cons, o7 k]
          exact (exists_cons (p := fun t : TRng P => inK t.r k)).symm
      · rename_i hnl
        rw [less_iff] at hnl
        have hlen : prev.r.hi.len = r.r.lo.len := by
          have h1 : ¬ key r.r.lo < key prev.r.lo := by unfold sortLe at hpr; omega
          rw [key_lt_iff] at hnl h1
          have := hvp.1
          omega
        split
        · rename_i hlt
          rw [less_iff] at hlt
          exact ext hlen (by omega) hlt
        · rename_i hge
          rw [less_iff] at hge
          obtain ⟨out, o1, o2, o3, o4, o5, o6, o7⟩ := ih acc prev (by
              intro q hq
              rcases List.mem_cons.1 hq with rfl | hq
              · exact hvp
              · exact hv q (by simp [hq])) (by
              intro q hq
              rcases List.mem_cons.1 hq with rfl | hq
              · exact hmp
              · exact hm q (by simp [hq])) (List.pairwise_cons.2 ⟨fun q hq => hs1 q (by simp [hq]), hs2'.2⟩)
          refine ⟨out, o1, o2, o3, o4, ?_, ?_, ?_⟩
          · intro o ho
            obtain ⟨q, hq, he⟩ := o5 o ho
            rcases List.mem_cons.1 hq with rfl | hq
            · exact ⟨_, by simp, he⟩
            · exact ⟨q, by simp [hq], he⟩
          · intro o ho
            obtain ⟨q, hq, he⟩ := o6 o ho
            rcases List.mem_cons.1 hq with rfl | hq
            · exact ⟨_, by simp, he⟩
            · exact ⟨q, by simp [hq], he⟩
          · intro k
            rw [o7 k]
            have he : inK r.r k → inK prev.r k := by
              unfold inK
              unfold sortLe at hpr
              omega
            simp only [exists_cons]
            constructor
            · rintro (h | h)
              · exact .inl h
              · exact .inr (.inr h)
            · rintro (h | h | h)
              · exact .inl h
              · exact .inl (he h)
              · exact .inr h

theorem mergeRangesT_spec (A : Arith P) {srt : List (TRng P) → List (TRng P)} (S : Sorts srt) (rr : List (TRng P))
    (hv : ∀ r ∈ rr, r.r.Valid) (hm : ∀ r ∈ rr, r.r.hi.id ≠ maxV P) :
    ∃ out, mergeRangesT srt rr = some out ∧ (∀ o ∈ out, o.r.Valid) ∧ out.Pairwise gapT ∧
      (∀ o ∈ out, ∃ r ∈ rr, o.r.lo = r.r.lo ∧ o.ptr = r.ptr) ∧ (∀ o ∈ out, ∃ r ∈ rr, o.r.hi = r.r.hi) ∧
      (∀ k, (∃ o ∈ out, inK o.r k) ↔ ∃ r ∈ rr, inK r.r k) := by
  unfold mergeRangesT
  split
  · exact ⟨[], rfl, by simp, .nil, by simp, by simp, fun k => Iff.rfl⟩
  · exact ⟨_, rfl, hv, List.pairwise_singleton _ _, by simp, by simp, fun k => Iff.rfl⟩
  · obtain ⟨hp, hs⟩ := S rr
    cases hsr : srt rr with
    | nil =>
      rw [hsr] at hp
      have : rr = [] := hp.symm.eq_nil
      subst this
      exact ⟨[], rfl, by simp, .nil, by simp, by simp, fun k => Iff.rfl⟩
    | cons r rs =>
      rw [hsr] at hp hs
      simp only
      obtain ⟨out, o1, o2, o3, _, o5, o6, o7⟩ := mergeLoopT_spec A rs [] r
        (fun q hq => hv q (hp.mem_iff.1 hq)) (fun q hq => hm q (hp.mem_iff.1 hq))
        (hs.imp (fun h => notLess_iff.1 (by rw [h]; rfl)))
      refine ⟨out, o1, o2, o3, ?_, ?_, ?_⟩
      · intro o ho
        obtain ⟨q, hq, he⟩ := o5 o ho
        exact ⟨q, hp.mem_iff.1 hq, he⟩
      · intro o ho
        obtain ⟨q, hq, he⟩ := o6 o ho
        exact ⟨q, hp.mem_iff.1 hq, he⟩
      · intro k
        rw [o7 k]
        constructor
        · rintro ⟨q, hq, h⟩; exact ⟨q, hp.mem_iff.1 hq, h⟩
        · rintro ⟨q, hq, h⟩; exact ⟨q, hp.mem_iff.2 hq, h⟩

theorem normLoopT_erase : ∀ (n : Nat) (ins outs min : List (TRng P)) (m : List (Rng P)),
    ins.length + outs.length ≤ n → normLoop (min.map (·.r)) (ins.map (·.r)) (outs.map (·.r)) = .ok m →
    ∃ mt, normLoopT min ins outs = .ok mt ∧ mt.map (·.r) = m := by
  intro n
  induction n with
  | zero =>
    intro ins outs min m hn h
    have : ins = [] := List.eq_nil_of_length_eq_zero (by omega)
    subst this
    simp only [List.map_nil, normLoop, Res.ok.injEq] at h
    exact ⟨min, by simp [normLoopT], h⟩
  | succ n ih =>
    intro ins outs min m hn h
    match ins, outs with
    | [], _ =>
      simp only [List.map_nil, normLoop, Res.ok.injEq] at h
      exact ⟨min, by simp [normLoopT], h⟩
    | rin :: ins, [] =>
      simp only [List.map_nil, List.map_cons, normLoop, Res.ok.injEq] at h
      exact ⟨min ++ rin :: ins, by simp [normLoopT], by rw [← h]; simp⟩
    | rin :: ins, rout :: outs =>
      simp only [List.length_cons] at hn
      simp only [List.map_cons] at h
      unfold normLoop at h
      unfold normLoopT
      split at h
      · cases h
      · rename_i h0
        rw [if_neg h0]
        split at h
        · rename_i h1
          rw [if_pos h1]
          exact ih (rin :: ins) outs min m (by simp; omega) (by simpa using h)
        · rename_i h1
          rw [if_neg h1]
          split at h
          · rename_i h2
            rw [if_pos h2]
            exact ih ins (rout :: outs) (min ++ [rin]) m (by simp; omega) (by simpa using h)
          · rename_i h2
            rw [if_neg h2]
            split at h
            · rename_i h3
              rw [if_pos h3]
              exact ih ins (rout :: outs) min m (by simp; omega) (by simpa using h)
            · rename_i h3
              rw [if_neg h3]
              split at h
              · rename_i h4
                rw [if_pos h4]
                exact ih (⟨rin.r.setFrom rout.r.hi.next, false⟩ :: ins) outs
                  (min ++ [⟨⟨rin.r.lo, rout.r.lo.prev⟩, rin.ptr⟩]) m (by simp; omega) (by simpa using h)
              · rename_i h4
                rw [if_neg h4]
                split at h
                · rename_i h5
                  rw [if_pos h5]
                  exact ih (⟨rin.r.setFrom rout.r.hi.next, false⟩ :: ins) outs min m (by simp; omega)
                    (by simpa using h)
                · rename_i h5
                  rw [if_neg h5]
                  split at h
                  · rename_i h6
                    rw [if_pos h6]
                    exact ih ins (rout :: outs) (min ++ [⟨⟨rin.r.lo, rout.r.lo.prev⟩, rin.ptr⟩]) m (by simp; omega)
                      (by simpa using h)
                  · cases h

/-- `gapT` after a change of the second range that moves its start to the right, past the gap -/
theorem gapT_right {a b : TRng P} {lo : MyId P} (h : gapT a b) (hl : key b.r.lo < key lo) :
    ∀ {c : TRng P}, c.r.lo = lo → gapT a c := by
  intro c hc
  unfold gapT at *
  rw [hc]
  exact ⟨by omega, fun _ => by omega⟩

theorem gapT_left {a b c : TRng P} (h : gapT a b) (hl : key c.r.hi ≤ key a.r.hi) : gapT c b := by
  unfold gapT at *
  exact ⟨by omega, fun hp => by have := h.2 hp; omega⟩

/-- the order is kept by `normalize`, and pointers come from the ranges added -/
theorem normLoopT_gap (A : Arith P) : ∀ (n : Nat) (ins outs min mt : List (TRng P)),
    ins.length + outs.length ≤ n → normLoopT min ins outs = .ok mt →
    (∀ r ∈ ins, r.r.Valid) → (∀ r ∈ outs, r.r.Valid) → (∀ r ∈ outs, r.r.hi.id ≠ maxV P) →
    (∀ r ∈ outs, SubOk P r.r.lo.id) → (min ++ ins).Pairwise gapT →
    mt.Pairwise gapT ∧ ∀ o ∈ mt, o.ptr = true → ∃ i ∈ min ++ ins, i.ptr = true ∧ o.r.lo = i.r.lo := by
  intro n
  induction n with
  | zero =>
    intro ins outs min mt hn h _ _ _ _ hg
    have : ins = [] := List.eq_nil_of_length_eq_zero (by omega)
    subst this
    simp only [normLoopT, Res.ok.injEq] at h
    subst h
    rw [List.append_nil] at *
    exact ⟨hg, fun o ho hp => ⟨o, ho, hp, rfl⟩⟩
  | succ n ih =>
    intro ins outs min mt hn h vi vo mo so hg
    match ins, outs with
    | [], _ =>
      simp only [normLoopT, Res.ok.injEq] at h
      subst h
      rw [List.append_nil] at *
      exact ⟨hg, fun o ho hp => ⟨o, ho, hp, rfl⟩⟩
    | rin :: ins, [] =>
      simp only [normLoopT, Res.ok.injEq] at h
      subst h
      exact ⟨hg, fun o ho hp => ⟨o, ho, hp, rfl⟩⟩
    | rin :: ins, rout :: outs =>
      simp only [List.length_cons] at hn
      have vin := vi rin List.mem_cons_self
      have vout := vo rout List.mem_cons_self
      have ki := vin.key_le
      have ko := vout.key_le
      have vi' : ∀ r ∈ ins, r.r.Valid := fun r hr => vi r (by simp [hr])
      have vo' : ∀ r ∈ outs, r.r.Valid := fun r hr => vo r (by simp [hr])
      have mo' : ∀ r ∈ outs, r.r.hi.id ≠ maxV P := fun r hr => mo r (by simp [hr])
      have so' : ∀ r ∈ outs, SubOk P r.r.lo.id := fun r hr => so r (by simp [hr])
      have hmax := mo rout List.mem_cons_self
      have hnext := A.key_next hmax
      have hsub := so rout List.mem_cons_self
      obtain ⟨g1, g2, g3⟩ := List.pairwise_append.1 hg
      rw [List.pairwise_cons] at g2
      -- the start of `rout` is not 0 when it lies in `rin` past its start
      have hprev : key rin.r.lo < key rout.r.lo → key rout.r.lo ≤ key rin.r.hi →
          key rout.r.lo.prev + 1 = key rout.r.lo := by
        intro h1 h2
        have h0 : rout.r.lo.id ≠ 0 := by
          intro hz
          have hz' : rout.r.lo.id.toNat = 0 := by rw [hz]; simp
          rw [key_lt_iff] at h1
          have h3 : ¬ key rin.r.hi < key rout.r.lo := by omega
          rw [key_lt_iff] at h3
          have := vin.1
          omega
        have hk := key_prev A.pos hsub h0
        omega
      unfold normLoopT at h
      split at h
      · cases h
      · split at h
        · exact ih (rin :: ins) outs min mt (by simp; omega) h vi vo' mo' so' hg
        · rename_i h1
          rw [Rng.entirelyBefore, less_iff] at h1
          split at h
          · have := ih ins (rout :: outs) (min ++ [rin]) mt (by simp; omega) h vi' vo mo so (by simpa using hg)
            simpa using this
          · rename_i h2
            rw [Rng.entirelyBefore, less_iff] at h2
            split at h
            · obtain ⟨a, b⟩ := ih ins (rout :: outs) min mt (by simp; omega) h vi' vo mo so
                (hg.sublist (List.Sublist.append_left (List.sublist_cons_self _ _) _))
              refine ⟨a, fun o ho hp => ?_⟩
              obtain ⟨i, hi, hh⟩ := b o ho hp
              refine ⟨i, ?_, hh⟩
              rw [List.mem_append] at *
              rcases hi with hi | hi
              · exact .inl hi
              · exact .inr (List.mem_cons_of_mem _ hi)
            · rename_i h3
              -- the left part of `rin`
              have hleft : key rin.r.lo < key rout.r.lo → key rout.r.lo ≤ key rin.r.hi →
                  (∀ a ∈ min, gapT a ⟨⟨rin.r.lo, rout.r.lo.prev⟩, rin.ptr⟩) ∧
                  (∀ b ∈ ins, gapT ⟨⟨rin.r.lo, rout.r.lo.prev⟩, rin.ptr⟩ b) := by
                intro e1 e2
                have e3 := hprev e1 e2
                refine ⟨fun a ha => g3 a ha rin List.mem_cons_self, fun b hb => gapT_left (g2.1 b hb) ?_⟩
                show key rout.r.lo.prev ≤ key rin.r.hi
                omega
              -- the right part
              have hright : key rin.r.lo ≤ key rout.r.hi →
                  (∀ a ∈ min, gapT a ⟨rin.r.setFrom rout.r.hi.next, false⟩) := by
                intro e1 a ha
                exact gapT_right (lo := rout.r.hi.next) (g3 a ha rin List.mem_cons_self) (by omega) rfl
              have vright : key rin.r.lo ≤ key rout.r.hi → key rout.r.hi < key rin.r.hi →
                  ∀ r ∈ (⟨rin.r.setFrom rout.r.hi.next, false⟩ : TRng P) :: ins, r.r.Valid := by
                intro e1 e2 r hr
                rcases List.mem_cons.1 hr with rfl | hr
                · apply valid_of_key
                  · show rout.r.hi.next.len = rin.r.hi.len
                    rw [A.next_len hmax]
                    have e1' : ¬ key rout.r.hi < key rin.r.lo := by omega
                    rw [key_lt_iff] at e1' e2
                    have := vin.1
                    omega
                  · show key rout.r.hi.next ≤ key rin.r.hi
                    omega
                · exact vi' r hr
              split at h
              · rename_i h4
                unfold Rng.inMiddleOf at h4
                rw [Bool.and_eq_true, less_iff, less_iff] at h4
                obtain ⟨l1, l2⟩ := hleft h4.1 (by omega)
                have l3 := hprev h4.1 (by omega)
                obtain ⟨a, b⟩ := ih (⟨rin.r.setFrom rout.r.hi.next, false⟩ :: ins) outs
                  (min ++ [⟨⟨rin.r.lo, rout.r.lo.prev⟩, rin.ptr⟩]) mt (by simp; omega) h (vright (by omega) h4.2)
                  vo' mo' so' (by
                    rw [List.append_assoc, List.pairwise_append]
                    refine ⟨g1, ?_, ?_⟩
                    · simp only [List.singleton_append, List.pairwise_cons]
                      refine ⟨?_, g2⟩
                      intro b hb
                      rcases List.mem_cons.1 hb with rfl | hb
                      · refine ⟨?_, fun _ => ?_⟩
                        · show key rout.r.lo.prev < key rout.r.hi.next
                          omega
                        · show key rout.r.lo.prev + 1 < key rout.r.hi.next
                          omega
                      · exact l2 b hb
                    · intro a ha b hb
                      simp only [List.singleton_append, List.mem_cons] at hb
                      rcases hb with rfl | rfl | hb
                      · exact l1 a ha
                      · exact hright (by omega) a ha
                      · exact g3 a ha b (List.mem_cons_of_mem _ hb))
                refine ⟨a, fun o ho hp => ?_⟩
                obtain ⟨i, hi, hh, hl⟩ := b o ho hp
                simp only [List.mem_append, List.mem_cons, List.not_mem_nil, or_false] at hi ⊢
                rcases hi with (hi | rfl) | rfl | hi
                · exact ⟨i, .inl hi, hh, hl⟩
                · exact ⟨rin, .inr (.inl rfl), hh, hl⟩
                · cases hh
                · exact ⟨i, .inr (.inr hi), hh, hl⟩
              · rename_i h4
                split at h
                · rename_i h5
                  unfold Rng.overlapsStartOf at h5
                  rw [Bool.and_eq_true, lessOrEq_iff, less_iff] at h5
                  obtain ⟨a, b⟩ := ih (⟨rin.r.setFrom rout.r.hi.next, false⟩ :: ins) outs min mt (by simp; omega) h
                    (vright (by omega) h5.2) vo' mo' so' (by
                      rw [List.pairwise_append]
                      refine ⟨g1, List.pairwise_cons.2 g2, ?_⟩
                      intro a ha b hb
                      rcases List.mem_cons.1 hb with rfl | hb
                      · exact hright (by omega) a ha
                      · exact g3 a ha b (List.mem_cons_of_mem _ hb))
                  refine ⟨a, fun o ho hp => ?_⟩
                  obtain ⟨i, hi, hh, hl⟩ := b o ho hp
                  simp only [List.mem_append, List.mem_cons] at hi ⊢
                  rcases hi with hi | rfl | hi
                  · exact ⟨i, .inl hi, hh, hl⟩
                  · cases hh
                  · exact ⟨i, .inr (.inr hi), hh, hl⟩
                · rename_i h5
                  split at h
                  · rename_i h6
                    unfold Rng.overlapsEndOf at h6
                    rw [Bool.and_eq_true, less_iff, lessOrEq_iff] at h6
                    obtain ⟨l1, l2⟩ := hleft h6.1 (by omega)
                    obtain ⟨a, b⟩ := ih ins (rout :: outs) (min ++ [⟨⟨rin.r.lo, rout.r.lo.prev⟩, rin.ptr⟩]) mt
                      (by simp; omega) h vi' vo mo so (by
                        rw [List.append_assoc, List.pairwise_append]
                        refine ⟨g1, ?_, ?_⟩
                        · simp only [List.singleton_append, List.pairwise_cons]
                          exact ⟨l2, g2.2⟩
                        · intro a ha b hb
                          simp only [List.singleton_append, List.mem_cons] at hb
                          rcases hb with rfl | hb
                          · exact l1 a ha
                          · exact g3 a ha b (List.mem_cons_of_mem _ hb))
                    refine ⟨a, fun o ho hp => ?_⟩
                    obtain ⟨i, hi, hh, hl⟩ := b o ho hp
                    simp only [List.mem_append, List.mem_cons, List.not_mem_nil, or_false] at hi ⊢
                    rcases hi with (hi | rfl) | hi
                    · exact ⟨i, .inl hi, hh, hl⟩
                    · exact ⟨rin, .inr (.inl rfl), hh, hl⟩
                    · exact ⟨i, .inr (.inr hi), hh, hl⟩
                  · cases h

/-- what holds of every builder reached without touching the largest value -/
structure TInv (s : TBuilder P) : Prop where
  ins : ∀ r ∈ s.ins, r.r.Valid ∧ r.r.hi.id ≠ maxV P
  outs : ∀ r ∈ s.outs, r.r.Valid ∧ r.r.hi.id ≠ maxV P ∧ SubOk P r.r.lo.id

/-- members of the builder's set -/
def TBuilder.Mem (s : TBuilder P) (i : MyId P) : Prop :=
  (∃ r ∈ s.ins, r.r.Has i) ∧ ¬ ∃ r ∈ s.outs, r.r.Has i

theorem normalizeT_spec (A : Arith P) {srt : List (TRng P) → List (TRng P)} (S : Sorts srt) {s : TBuilder P}
    (h : TInv s) :
    ∃ m, s.normalize srt = .ok { s with ins := m, outs := [] } ∧ (∀ r ∈ m, r.r.Valid ∧ r.r.hi.id ≠ maxV P) ∧
      m.Pairwise gapT ∧ (∀ o ∈ m, o.ptr = true → ∃ r ∈ s.ins, r.ptr = true) ∧
      ∀ i, (∃ r ∈ m, r.r.Has i) ↔ s.Mem i := by
  obtain ⟨is, i1, i2, i3, i4, i5, i6⟩ := mergeRangesT_spec A S s.ins (fun r hr => (h.ins r hr).1)
    (fun r hr => (h.ins r hr).2)
  obtain ⟨os, o1, o2, o3, o4, o5, o6⟩ := mergeRangesT_spec A S s.outs (fun r hr => (h.outs r hr).1)
    (fun r hr => (h.outs r hr).2.1)
  have hsub : ∀ r ∈ os, SubOk P r.r.lo.id := by
    intro r hr
    obtain ⟨q, hq, he, _⟩ := o4 r hr
    rw [he]; exact (h.outs q hq).2.2
  have hmaxo : ∀ r ∈ os, r.r.hi.id ≠ maxV P := by
    intro r hr
    obtain ⟨q, hq, he⟩ := o5 r hr
    rw [he]; exact (h.outs q hq).2.1
  have hmaxi : ∀ r ∈ is, r.r.hi.id ≠ maxV P := by
    intro r hr
    obtain ⟨q, hq, he⟩ := i5 r hr
    rw [he]; exact (h.ins q hq).2
  obtain ⟨m, m1, m2, _, m4, m5⟩ := normLoop_spaced A (g := 0) (by omega) _ (is.map (·.r)) (os.map (·.r)) []
    (Nat.le_refl _) (gapT_spaced i2 i3) (gapT_spaced o2 o3) (by
      intro r hr
      obtain ⟨t, ht, rfl⟩ := List.mem_map.1 hr
      exact hsub t ht)
  rw [List.nil_append] at m1
  obtain ⟨mt, t1, t2⟩ := normLoopT_erase _ is os [] m (Nat.le_refl _) m1
  obtain ⟨t3, t4⟩ := normLoopT_gap A _ is os [] mt (Nat.le_refl _) t1 i2 o2 hmaxo hsub i3
  have hmem : ∀ r ∈ mt, r.r ∈ m := fun r hr => t2 ▸ List.mem_map.2 ⟨r, hr, rfl⟩
  have hv : ∀ r ∈ mt, r.r.Valid := fun r hr => m2.1 _ (hmem r hr)
  refine ⟨mt, ?_, ?_, t3, ?_, ?_⟩
  · unfold TBuilder.normalize
    simp only [i1, o1, t1]
  · intro r hr
    refine ⟨hv r hr, ?_⟩
    refine (excl_max A.pos).ends (is.map (·.r)) (os.map (·.r)) m ?_ ?_ m4 r.r (hmem r hr)
    · intro q hq
      obtain ⟨t, ht, rfl⟩ := List.mem_map.1 hq
      exact hmaxi t ht
    · intro q hq
      obtain ⟨t, ht, rfl⟩ := List.mem_map.1 hq
      exact hmaxo t ht
  · intro o ho hp
    obtain ⟨i, hi, hip, _⟩ := t4 o ho hp
    rw [List.nil_append] at hi
    obtain ⟨q, hq, _, he⟩ := i4 i hi
    exact ⟨q, hq, by rw [← he]; exact hip⟩
  · intro i
    have e : ∀ {l : List (TRng P)}, (∀ r ∈ l, r.r.Valid) → ((∃ r ∈ l, r.r.Has i) ↔ ∃ r ∈ l, inK r.r (key i)) := by
      intro l hl
      constructor
      · rintro ⟨r, hr, hh⟩; exact ⟨r, hr, (has_iff (hl r hr) i).1 hh⟩
      · rintro ⟨r, hr, hh⟩; exact ⟨r, hr, (has_iff (hl r hr) i).2 hh⟩
    have e' : ∀ {l : List (TRng P)}, (∃ r ∈ l.map (·.r), inK r (key i)) ↔ ∃ r ∈ l, inK r.r (key i) := by
      intro l
      exact exists_map (p := fun r => inK r (key i))
    unfold TBuilder.Mem
    rw [e hv, ← e', t2, m5, e', e', i6, o6, e (fun r hr => (h.ins r hr).1), e (fun r hr => (h.outs r hr).1)]

/-- one call -/
theorem stepT_spec (A : Arith P) {srt : List (TRng P) → List (TRng P)} (S : Sorts srt) {s : TBuilder P}
    (h : TInv s) (op : TOp P) (ha : op.op.Allowed) (hb : op.op.BelowMax) :
    ∃ s', s.step srt op = .ok s' ∧ TInv s' ∧ (∀ i, s'.Mem i ↔ effect s.Mem op.op i) ∧
      (op.NoPtr → (∀ r ∈ s.ins, r.ptr = false) → ∀ r ∈ s'.ins, r.ptr = false) := by
  have hnp : ∀ {l m : List (TRng P)}, (∀ o ∈ m, o.ptr = true → ∃ r ∈ l, r.ptr = true) → (∀ r ∈ l, r.ptr = false) →
      ∀ r ∈ m, r.ptr = false := by
    intro l m h1 h2 r hr
    cases hp : r.ptr with
    | false => rfl
    | true =>
      obtain ⟨q, hq, he⟩ := h1 r hr hp
      rw [h2 q hq] at he
      cases he
  cases op with
  | addRange r =>
    unfold TBuilder.step
    dsimp only
    by_cases hv : r.r.Valid
    · simp only [isValid_iff.2 hv, Bool.not_true, Bool.false_eq_true, if_false]
      have fin : ∀ m : List (TRng P), (∀ q ∈ m, q.r.Valid ∧ q.r.hi.id ≠ maxV P) → (∀ o ∈ m, o.ptr = true → ∃ r ∈ s.ins, r.ptr = true) →
          (∀ i, (∃ q ∈ m, q.r.Has i) ↔ s.Mem i) →
          TInv { s with ins := m ++ [r], outs := [] } ∧
          (∀ i, ({ s with ins := m ++ [r], outs := [] } : TBuilder P).Mem i ↔ effect s.Mem (.addRange r.r) i) ∧
          (r.ptr = false → (∀ r ∈ s.ins, r.ptr = false) → ∀ q ∈ m ++ [r], q.ptr = false) := by
        intro m hm hp hi
        refine ⟨⟨?_, by simp⟩, ?_, ?_⟩
        · intro q hq
          rcases List.mem_append.1 hq with hq | hq
          · exact hm q hq
          · rw [List.mem_singleton.1 hq]; exact ⟨hv, hb⟩
        · intro i
          show ((∃ q ∈ m ++ [r], q.r.Has i) ∧ ¬ ∃ q ∈ ([] : List (TRng P)), q.r.Has i) ↔ s.Mem i ∨ (r.r.Valid ∧ r.r.Has i)
          rw [← hi i]
          constructor
          · rintro ⟨⟨q, hq, hh⟩, _⟩
            rcases List.mem_append.1 hq with hq | hq
            · exact .inl ⟨q, hq, hh⟩
            · rw [List.mem_singleton.1 hq] at hh; exact .inr ⟨hv, hh⟩
          · rintro (⟨q, hq, hh⟩ | ⟨_, hh⟩)
            · exact ⟨⟨q, List.mem_append_left _ hq, hh⟩, by simp⟩
            · exact ⟨⟨r, by simp, hh⟩, by simp⟩
        · intro h1 h2 q hq
          rcases List.mem_append.1 hq with hq | hq
          · exact hnp hp h2 q hq
          · rw [List.mem_singleton.1 hq]; exact h1
      split
      · obtain ⟨m, h1, h2, _, h4, h5⟩ := normalizeT_spec A S h
        exact ⟨{ s with ins := m ++ [r], outs := [] }, by rw [h1], fin m h2 h4 h5⟩
      · rename_i hl
        have ho : s.outs = [] := by
          cases hs : s.outs with
          | nil => rfl
          | cons a b => rw [hs] at hl; simp at hl
        refine ⟨{ s with ins := s.ins ++ [r], outs := [] }, by rw [← ho],
          fin s.ins h.ins (fun o ho hp => ⟨o, ho, hp⟩) ?_⟩
        intro i
        unfold TBuilder.Mem
        rw [ho]
        simp
    · have : r.r.isValid = false := by
        rw [← Bool.not_eq_true, isValid_iff]; exact hv
      simp only [this, Bool.not_false, if_true]
      refine ⟨_, rfl, ⟨h.ins, h.outs⟩, ?_, fun _ h => h⟩
      intro i
      show s.Mem i ↔ s.Mem i ∨ (r.r.Valid ∧ r.r.Has i)
      constructor
      · exact .inl
      · rintro (h | h)
        · exact h
        · exact absurd h.1 hv
  | removeRange r =>
    unfold TBuilder.step
    dsimp only
    by_cases hv : r.r.Valid
    · simp only [isValid_iff.2 hv, if_true]
      refine ⟨_, rfl, ⟨h.ins, ?_⟩, ?_, fun _ h => h⟩
      · intro q hq
        rcases List.mem_append.1 hq with hq | hq
        · exact h.outs q hq
        · rw [List.mem_singleton.1 hq]; exact ⟨hv, hb, ha⟩
      · intro i
        show ((∃ q ∈ s.ins, q.r.Has i) ∧ ¬ ∃ q ∈ s.outs ++ [r], q.r.Has i) ↔ s.Mem i ∧ ¬ (r.r.Valid ∧ r.r.Has i)
        unfold TBuilder.Mem
        constructor
        · rintro ⟨h1, h2⟩
          exact ⟨⟨h1, fun ⟨q, hq, hh⟩ => h2 ⟨q, List.mem_append_left _ hq, hh⟩⟩, fun hh => h2 ⟨r, by simp, hh.2⟩⟩
        · rintro ⟨⟨h1, h2⟩, h3⟩
          refine ⟨h1, ?_⟩
          rintro ⟨q, hq, hh⟩
          rcases List.mem_append.1 hq with hq | hq
          · exact h2 ⟨q, hq, hh⟩
          · rw [List.mem_singleton.1 hq] at hh; exact h3 ⟨hv, hh⟩
    · have : r.r.isValid = false := by
        rw [← Bool.not_eq_true, isValid_iff]; exact hv
      simp only [this, Bool.false_eq_true, if_false]
      refine ⟨_, rfl, ⟨h.ins, h.outs⟩, ?_, fun _ h => h⟩
      intro i
      show s.Mem i ↔ s.Mem i ∧ ¬ (r.r.Valid ∧ r.r.Has i)
      exact ⟨fun h => ⟨h, fun h => hv h.1⟩, fun h => h.1⟩
  | ipSet =>
    obtain ⟨m, h1, h2, _, h4, h5⟩ := normalizeT_spec A S h
    refine ⟨{ s with ins := m, outs := [], errs := false }, ?_, ⟨h2, by simp⟩, ?_, fun _ hh => hnp h4 hh⟩
    · unfold TBuilder.step
      simp only [h1]
    · intro i
      show ((∃ q ∈ m, q.r.Has i) ∧ ¬ ∃ q ∈ ([] : List (TRng P)), q.r.Has i) ↔ s.Mem i
      rw [← h5 i]
      simp

theorem runT_spec (A : Arith P) {srt : List (TRng P) → List (TRng P)} (S : Sorts srt) (ops : List (TOp P)) :
    ∀ {s : TBuilder P}, TInv s → (∀ op ∈ ops, op.op.Allowed ∧ op.op.BelowMax) →
    ∃ s', s.run srt ops = .ok s' ∧ TInv s' ∧ (∀ i, s'.Mem i ↔ (ops.map TOp.op).foldl effect s.Mem i) ∧
      ((∀ op ∈ ops, op.NoPtr) → (∀ r ∈ s.ins, r.ptr = false) → ∀ r ∈ s'.ins, r.ptr = false) := by
  induction ops with
  | nil => intro s h _; exact ⟨s, rfl, h, fun i => Iff.rfl, fun _ h => h⟩
  | cons op ops ih =>
    intro s h ha
    obtain ⟨s1, a1, a2, a3, a4⟩ := stepT_spec A S h op (ha op (by simp)).1 (ha op (by simp)).2
    obtain ⟨s2, b1, b2, b3, b4⟩ := ih a2 (fun o ho => ha o (by simp [ho]))
    refine ⟨s2, by unfold TBuilder.run; rw [a1]; exact b1, b2, ?_, ?_⟩
    · intro i
      rw [b3 i, List.map_cons, List.foldl_cons, show s1.Mem = effect s.Mem op.op from funext fun i => propext (a3 i)]
    · intro h1 h2
      exact b4 (fun o ho => h1 o (by simp [ho])) (a4 (h1 op (by simp)) h2)

/-- the ranges in terms of keys -/
theorem almost_of {m : List (TRng P)} (hv : ∀ r ∈ m, r.r.Valid) (hg : m.Pairwise gapT) : Almost m := by
  refine ⟨hv, hg.imp ?_⟩
  intro a b h
  have h1 := h.1
  rw [key_lt_iff] at h1
  refine ⟨h1, fun hl he => ?_⟩
  cases hp : b.ptr with
  | true => rfl
  | false =>
    have := h.2 hp
    rw [key_gap] at this
    omega

theorem canonical_of {m : List (TRng P)} (h : Almost m) (hp : ∀ r ∈ m, r.ptr = false) :
    Canonical (m.map (·.r)) := by
  refine ⟨?_, ?_⟩
  · intro r hr
    obtain ⟨t, ht, rfl⟩ := List.mem_map.1 hr
    exact h.1 t ht
  · rw [List.pairwise_map]
    refine (List.Pairwise.and_mem.1 h.2).imp ?_
    rintro a b ⟨_, hb, h1, h2⟩
    unfold Before at h1
    rcases h1 with h1 | ⟨h1, h3⟩
    · exact .inl h1
    · right
      refine ⟨h1, ?_⟩
      have h3' : a.r.hi.id.toNat < b.r.lo.id.toNat := h3
      have h4 : a.r.hi.id.toNat + 1 ≠ b.r.lo.id.toNat := by
        intro he
        have := h2 h1 he
        rw [hp b hb] at this
        cases this
      omega

theorem runT_append {srt : List (TRng P) → List (TRng P)} (a b : List (TOp P)) : ∀ (s : TBuilder P),
    s.run srt (a ++ b) = match s.run srt a with
      | .ok s => s.run srt b
      | e => e := by
  induction a with
  | nil => intro s; rfl
  | cons op a ih =>
    intro s
    simp only [List.cons_append, TBuilder.run]
    cases s.step srt op with
    | ok s' => exact ih s'
    | panicInvalid => rfl
    | panicOverlap => rfl
    | panicNil => rfl

theorem pointer_core (A : Arith P) {srt : List (TRng P) → List (TRng P)} (S : Sorts srt) (ops : List (TOp P))
    (ha : ∀ op ∈ ops, op.op.Allowed ∧ op.op.BelowMax) :
    ∃ s, TBuilder.empty.run srt (ops ++ [.ipSet]) = .ok s ∧
      (∀ i, HasAny (s.ins.map (·.r)) i ↔ denote (ops.map TOp.op) i) ∧ Almost s.ins ∧
      ((∀ op ∈ ops, op.NoPtr) → Canonical (s.ins.map (·.r))) := by
  obtain ⟨s, a1, a2, a3, a4⟩ := runT_spec A S ops (s := TBuilder.empty)
    ⟨by simp [TBuilder.empty], by simp [TBuilder.empty]⟩ ha
  obtain ⟨m, h1, h2, h3, h4, h5⟩ := normalizeT_spec A S a2
  have hal := almost_of (fun r hr => (h2 r hr).1) h3
  refine ⟨{ s with ins := m, outs := [], errs := false }, ?_, ?_, hal, ?_⟩
  · rw [runT_append, a1]
    simp only [TBuilder.run, TBuilder.step, h1]
  · intro i
    have e : HasAny (m.map (·.r)) i ↔ ∃ r ∈ m, r.r.Has i :=
      exists_map (p := fun r => r.Has i)
    have e0 : (TBuilder.empty : TBuilder P).Mem = fun _ => False := by
      funext i
      simp [TBuilder.Mem, TBuilder.empty]
    show HasAny (m.map (·.r)) i ↔ _
    rw [e, h5 i, a3 i, e0]
    rfl
  · intro hn
    refine canonical_of hal ?_
    intro r hr
    cases hp : r.ptr with
    | false => rfl
    | true =>
      obtain ⟨q, hq, he⟩ := h4 r hr hp
      rw [a4 hn (by simp [TBuilder.empty]) q hq] at he
      cases he

/-! ### C103 -/

/-- **C103, violated** (all packages) The first id of the range 5-8, as `IDs` returns it, is 5 with full length. Adding
0-4, and 5-8 with its start set to this id, gives a set of the two touching ranges 0-4 and 5-8; adding 0-4 and 5-8
gives 0-8. -/
theorem C103_pointer_ids_violated (hP : P = id16 ∨ P = id32 ∨ P = id64) {srt : List (TRng P) → List (TRng P)}
    (S : Sorts srt) :
    ∃ first rest s s', (rangeFrom 5 8 : Rng P).ids = some (first :: rest) ∧
      ((rangeFrom 5 8 : Rng P).setFromPtr first).r = rangeFrom 5 8 ∧
      TBuilder.empty.run srt [.addRange (rangeFrom 0 4 : Rng P).val,
        .addRange ((rangeFrom 5 8 : Rng P).setFromPtr first), .ipSet] = .ok s ∧
      s.ins.map (·.r) = [rangeFrom 0 4, rangeFrom 5 8] ∧ ¬ Canonical (s.ins.map (·.r)) ∧
      TBuilder.empty.run srt [.addRange (rangeFrom 0 4 : Rng P).val, .addRange (rangeFrom 5 8 : Rng P).val, .ipSet] =
        .ok s' ∧ s'.ins.map (·.r) = [rangeFrom 0 8] := by
  have hless : (rangeFrom 5 8 : Rng P).less (rangeFrom 0 4) = false ∧
      (rangeFrom 0 4 : Rng P).less (rangeFrom 5 8) = true := by
    rcases hP with rfl | rfl | rfl <;> decide
  -- two ranges in order stay in order
  have hsort : ∀ p : Bool, srt [⟨rangeFrom 0 4, false⟩, ⟨rangeFrom 5 8, p⟩] =
      [⟨rangeFrom 0 4, false⟩, ⟨rangeFrom 5 8, p⟩] := by
    intro p
    obtain ⟨h1, h2⟩ := S [⟨rangeFrom 0 4, false⟩, ⟨rangeFrom 5 8, p⟩]
    refine h1.eq_of_pairwise ?_ h2 ?_
    · intro a b ha hb h3 h4
      simp only [List.mem_cons, List.not_mem_nil, or_false] at hb
      rw [h1.mem_iff] at ha
      simp only [List.mem_cons, List.not_mem_nil, or_false] at ha
      rcases ha with rfl | rfl <;> rcases hb with rfl | rfl
      · rfl
      · rw [hless.2] at h4; cases h4
      · rw [hless.2] at h3; cases h3
      · rfl
    · rw [List.pairwise_cons]
      refine ⟨?_, List.pairwise_singleton _ _⟩
      intro c hc
      rw [List.mem_singleton.1 hc]
      exact hless.1
  have hn : (⟨5, P.W⟩ : MyId P) = (⟨4, P.W⟩ : MyId P).next := by
    rcases hP with rfl | rfl | rfl <;> decide
  have hm : ∀ p, mergeRangesT srt [⟨rangeFrom 0 4, false⟩, ⟨rangeFrom 5 8, p⟩] =
      some (if p then [⟨rangeFrom 0 4, false⟩, ⟨rangeFrom 5 8, true⟩] else [⟨(rangeFrom 0 8 : Rng P), false⟩]) := by
    intro p
    unfold mergeRangesT
    simp only [hsort]
    rcases hP with rfl | rfl | rfl <;> cases p <;> decide
  have hv : (rangeFrom 0 4 : Rng P).isValid = true ∧ (rangeFrom 5 8 : Rng P).isValid = true := by
    rcases hP with rfl | rfl | rfl <;> decide
  have hnorm : ∀ p e, (⟨[⟨rangeFrom 0 4, false⟩, ⟨rangeFrom 5 8, p⟩], [], e⟩ : TBuilder P).normalize srt =
      .ok ⟨if p then [⟨rangeFrom 0 4, false⟩, ⟨rangeFrom 5 8, true⟩] else [⟨(rangeFrom 0 8 : Rng P), false⟩], [], e⟩ := by
    intro p e
    unfold TBuilder.normalize
    simp only [hm]
    cases p <;> simp [mergeRangesT, normLoopT]
  have hrun : ∀ p, TBuilder.empty.run srt [.addRange ⟨(rangeFrom 0 4 : Rng P), false⟩,
      .addRange ⟨(rangeFrom 5 8 : Rng P), p⟩, .ipSet] =
      .ok ⟨if p then [⟨rangeFrom 0 4, false⟩, ⟨rangeFrom 5 8, true⟩] else [⟨(rangeFrom 0 8 : Rng P), false⟩], [],
        false⟩ := by
    intro p
    simp only [TBuilder.run, TBuilder.step, TBuilder.empty, hv.1, hv.2, Bool.not_true, Bool.false_eq_true, if_false,
      List.length_nil, gt_iff_lt, Nat.lt_irrefl, List.nil_append, List.cons_append, hnorm]
  refine ⟨⟨5, P.W⟩, [⟨6, P.W - 1⟩, ⟨8, P.W⟩], _, _, ?_, rfl, hrun true, rfl, ?_, hrun false, rfl⟩
  · rcases hP with rfl | rfl | rfl <;> decide
  · intro h
    have := (List.pairwise_cons.1 h.2).1 (rangeFrom 5 8) (by simp)
    rcases hP with rfl | rfl | rfl <;> revert this <;> decide

/-- **C103, partial** (id16, id32) Whatever way the ids at the ends of the ranges were obtained, and in whatever order
`sort.Slice` leaves ranges that compare equal: no call panics, the set has exactly the ids added and not removed
again, and its ranges are in order and disjoint. Two of them touch only when the second starts with a pointer; if no
range added starts with a pointer, the ranges are minimal. For calls that do not touch the largest value. Missing:
minimal ranges when a range added starts with an id returned by `IDs` (`C103_pointer_ids_violated`), and the largest
value (`C36_full_range_violated`). -/
theorem C103_pointer_ids_partial (hP : P = id16 ∨ P = id32) {srt : List (TRng P) → List (TRng P)} (S : Sorts srt)
    (ops : List (TOp P)) (hb : ∀ op ∈ ops, op.op.BelowMax) :
    ∃ s, TBuilder.empty.run srt (ops ++ [.ipSet]) = .ok s ∧
      (∀ i, HasAny (s.ins.map (·.r)) i ↔ denote (ops.map TOp.op) i) ∧ Almost s.ins ∧
      ((∀ op ∈ ops, op.NoPtr) → Canonical (s.ins.map (·.r))) := by
  refine pointer_core (by rcases hP with rfl | rfl; exact Arith16; exact Arith32) S ops (fun op ho => ⟨?_, hb op ho⟩)
  cases op with
  | addRange r => trivial
  | removeRange r => exact subOk_good (good_of hP) _
  | ipSet => trivial

/-- **C103, partial** id64, when the ranges removed start below `2^32`. -/
theorem C103_pointer_ids64_partial {srt : List (TRng id64) → List (TRng id64)} (S : Sorts srt)
    (ops : List (TOp id64)) (hf : ∀ op ∈ ops, op.op.Fits64) (hb : ∀ op ∈ ops, op.op.BelowMax) :
    ∃ s, TBuilder.empty.run srt (ops ++ [.ipSet]) = .ok s ∧
      (∀ i, HasAny (s.ins.map (·.r)) i ↔ denote (ops.map TOp.op) i) ∧ Almost s.ins ∧
      ((∀ op ∈ ops, op.NoPtr) → Canonical (s.ins.map (·.r))) :=
  pointer_core Arith64 S ops (fun op ho => ⟨(hf op ho).allowed, hb op ho⟩)

/-- a sorting function -/
theorem sorts_mergeSort : Sorts (fun l : List (TRng P) => l.mergeSort (fun a b => !(b.r.less a.r))) := by
  intro l
  refine ⟨List.mergeSort_perm _ _, ?_⟩
  have := List.pairwise_mergeSort (le := fun a b : TRng P => !(b.r.less a.r)) (by
    intro a b c h1 h2
    rw [notLess_iff] at *
    unfold sortLe at *
    omega) (by
    intro a b
    rw [Bool.or_eq_true, notLess_iff, notLess_iff]
    unfold sortLe
    omega) l
  exact this.imp (fun h => by simpa using h)

-- the hypotheses can be met, with pointers
example : ∀ op ∈ [TOp.addRange (rangeFrom 0 4 : Rng id16).val, .addRange ((rangeFrom 5 8 : Rng id16).setFromPtr ⟨5, 16⟩),
    .removeRange (rangeFrom 3 6 : Rng id16).val, .ipSet], op.op.BelowMax := by
  intro op h
  simp only [List.mem_cons, List.mem_nil_iff, or_false] at h
  rcases h with rfl | rfl | rfl | rfl <;> simp only [TOp.op, Op.BelowMax] <;> decide

end Verif.Id
