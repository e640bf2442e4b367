import Verif.IPTable.HistProps

/-! C128, C129, C130 for the IP table: what `Get` returns for the addresses claimed is enough to build it again.
Emptying it makes it as good as new, and an update is a release and a claim. -/

namespace Verif.IPTable
variable {R : Type} {parse : String → Option Addr} {lo hi : Addr}

/-! ### Lemmas -/

/-- claims of free addresses of the range, each once -/
theorem claims_run : ∀ (l : List (String × R)) {r : IPTab R}, IInv lo hi r →
    (∀ p ∈ l, ∃ a, parse p.1 = some a ∧ AvailIP lo hi (absI r) a) → l.Pairwise (fun p q => parse p.1 ≠ parse q.1) →
    (run parse r (l.map fun p => .claim p.1 p.2)).2 = l.map (fun _ => .ok) ∧
    IInv lo hi (run parse r (l.map fun p => .claim p.1 p.2)).1 ∧
    (∀ p ∈ l, ∀ a, parse p.1 = some a → absI (run parse r (l.map fun p => .claim p.1 p.2)).1 a = some p.2) ∧
    ∀ a, (∀ p ∈ l, parse p.1 ≠ some a) → absI (run parse r (l.map fun p => .claim p.1 p.2)).1 a = absI r a := by
  intro l
  induction l with
  | nil => intro r h _ _; exact ⟨rfl, h, by simp, fun _ _ => rfl⟩
  | cons e l ih =>
    intro r h hl hn
    obtain ⟨s1, s2⟩ := step_refines_explicit parse r h (.claim e.1 e.2) trivial
    have hn' := List.pairwise_cons.1 hn
    obtain ⟨a, ha1, ha2⟩ := hl e (by simp)
    rcases s1 with ⟨b, hb, _, c1, c2⟩ | ⟨c1, _⟩
    swap
    · exact absurd ha2 (c1 a ha1)
    have hba : b = a := Option.some.inj (hb.symm.trans ha1)
    subst hba
    have hother : ∀ i, i ≠ b → absI (step parse r (.claim e.1 e.2)).1 i = absI r i := by
      intro i hi; rw [c1]; exact if_neg hi
    obtain ⟨i1, i2, i3, i4⟩ := ih s2 (fun p hp => by
      obtain ⟨x, hx1, hx2⟩ := hl p (by simp [hp])
      refine ⟨x, hx1, hx2.1, (hother x ?_).trans hx2.2⟩
      rintro rfl
      exact hn'.1 p hp (hb.trans hx1.symm)) hn'.2
    have hrun : run parse r ((e :: l).map fun p => .claim p.1 p.2) =
        ((run parse (step parse r (.claim e.1 e.2)).1 (l.map fun p => .claim p.1 p.2)).1,
         (step parse r (.claim e.1 e.2)).2 :: (run parse (step parse r (.claim e.1 e.2)).1 (l.map fun p => .claim p.1 p.2)).2) := rfl
    rw [hrun]
    refine ⟨?_, i2, ?_, ?_⟩
    · rw [i1, List.map_cons, c2]
    · intro p hp x hx
      rcases List.mem_cons.1 hp with rfl | hp
      · have : x = b := Option.some.inj (hx.symm.trans hb)
        subst this
        rw [i4 x (fun q hq he => hn'.1 q hq (hb.trans he.symm)), c1]
        exact if_pos rfl
      · exact i3 p hp x hx
    · intro x hx
      rw [i4 x (fun p hp => hx p (by simp [hp]))]
      exact hother x (fun he => hx e (by simp) (he ▸ hb))

theorem get_reply_abs {r : IPTab R} (h : IInv lo hi r) (x : String) :
    (step parse r (.get x)).2 = match (parse x).bind (absI r) with | some d => .route d | none => .err := by
  obtain ⟨⟨_, s⟩, _⟩ := step_refines_explicit parse r h (.get x) trivial
  rcases s with ⟨a, d, h1, h2, h3⟩ | ⟨h1, h2⟩
  · rw [h3, h1, Option.bind_some, h2]
  · rw [h2]
    cases hp : parse x with
    | none => rfl
    | some a => rw [Option.bind_some, h1 a hp]

/-! ### C128 -/

/-- **C128** (IP tables of fewer than `2^64` addresses) `l` has for each claimed address a text, once, and the route that
`Get` returns for it. Claiming them in a new table of the same range, in whatever order they are, succeeds every time, and
no sequence of calls tells the new table from the old one. -/
theorem C128_ip (hs : SmallRange lo hi) {r : IPTab R} (h : Reach parse lo hi r) {l : List (String × R)}
    (hget : ∀ p ∈ l, (step parse r (.get p.1)).2 = .route p.2)
    (hall : ∀ x d, (step parse r (.get x)).2 = .route d → ∃ p ∈ l, parse p.1 = parse x)
    (hone : l.Pairwise (fun p q => parse p.1 ≠ parse q.1)) :
    (run parse (new lo hi : IPTab R) (l.map fun p => .claim p.1 p.2)).2 = l.map (fun _ => .ok) ∧
    Alike parse r (run parse (new lo hi : IPTab R) (l.map fun p => .claim p.1 p.2)).1 := by
  obtain ⟨h1, h2⟩ := mid_of_small hs
  obtain ⟨cs, rfl⟩ := h
  have hv := (run_refines parse (new lo hi : IPTab R) (new_inv h1) h2 cs).2
  have hmem : ∀ p ∈ l, ∃ a, parse p.1 = some a ∧ absI (run parse (new lo hi : IPTab R) cs).1 a = some p.2 := by
    intro p hp
    have := hget p hp
    rw [get_reply_abs hv] at this
    cases ha : parse p.1 with
    | none => rw [ha] at this; cases this
    | some a =>
      rw [ha, Option.bind_some] at this
      refine ⟨a, rfl, ?_⟩
      cases hd : absI (run parse (new lo hi : IPTab R) cs).1 a with
      | none => rw [hd] at this; cases this
      | some d => rw [hd] at this; cases this; rfl
  obtain ⟨r1, r2, r3, r4⟩ := claims_run (parse := parse) l (new_inv h1) (fun p hp => by
    obtain ⟨a, ha, hd⟩ := hmem p hp
    refine ⟨a, ha, Classical.byContradiction fun hc => (by rw [hv.abs_out hc] at hd; cases hd), by rw [abs_new]⟩) hone
  refine ⟨r1, C96_ip parse lo hi cs _ fun x => ?_⟩
  rw [get_reply_abs hv, get_reply_abs r2]
  have : (parse x).bind (absI (run parse (new lo hi : IPTab R) cs).1) =
      (parse x).bind (absI (run parse (new lo hi : IPTab R) (l.map fun p => .claim p.1 p.2)).1) := by
    cases hx : parse x with
    | none => rfl
    | some a =>
      simp only [Option.bind_some]
      by_cases hp : ∃ p ∈ l, parse p.1 = some a
      · obtain ⟨p, hp, he⟩ := hp
        obtain ⟨b, hb, hd⟩ := hmem p hp
        have : b = a := Option.some.inj (hb.symm.trans he)
        subst this
        rw [r3 p hp b he, hd]
      · have hno : ∀ p ∈ l, parse p.1 ≠ some a := fun p h1 h2 => hp ⟨p, h1, h2⟩
        rw [r4 a hno, abs_new]
        cases hd : absI (run parse (new lo hi : IPTab R) cs).1 a with
        | none => rfl
        | some d =>
          obtain ⟨p, hp, he⟩ := hall x d (by rw [get_reply_abs hv, hx, Option.bind_some, hd])
          exact absurd (he.trans hx) (hno p hp)
  rw [this]

-- the table of 10.0.0.0-10.0.0.3 with 10.0.0.0 claimed
example : SmallRange (.v4 0x0a000000) (.v4 0x0a000003) ∧ (∀ p ∈ [("10.0.0.0", "a")], (step exParse exI (.get p.1)).2 = .route p.2) :=
  ⟨exI_small, fun p hp => by rw [List.mem_singleton.1 hp]; rfl⟩

/-! ### C129 -/

theorem releases_run : ∀ (l : List String) {r : IPTab R}, IInv lo hi r →
    IInv lo hi (run parse r (l.map .release)).1 ∧
    (∀ x ∈ l, ∀ a, parse x = some a → absI (run parse r (l.map .release)).1 a = none) ∧
    ∀ a, absI r a = none → absI (run parse r (l.map .release)).1 a = none := by
  intro l
  induction l with
  | nil => intro r h; exact ⟨h, by simp, fun _ h => h⟩
  | cons k l ih =>
    intro r h
    obtain ⟨s1, s2⟩ := step_refines_explicit parse r h (.release k) trivial
    obtain ⟨i1, i2, i3⟩ := ih s2
    have hk : (∀ a, parse k = some a → absI (step parse r (.release k)).1 a = none) ∧
        ∀ i, absI r i = none → absI (step parse r (.release k)).1 i = none := by
      rcases s1 with ⟨a, ha, _, c1, _⟩ | ⟨c0, c1, _⟩
      · rw [c1]
        refine ⟨fun b hb => ?_, fun i hi => ?_⟩
        · have : b = a := Option.some.inj (hb.symm.trans ha)
          exact if_pos this
        · unfold AMap.drop
          split
          · rfl
          · exact hi
      · rw [c1]
        exact ⟨fun a ha => h.abs_out (c0 a ha), fun _ h => h⟩
    refine ⟨i1, ?_, fun i hi => i3 i (hk.2 i hi)⟩
    intro x hx a ha
    rcases List.mem_cons.1 hx with rfl | hx
    · exact i3 a (hk.1 a ha)
    · exact i2 x hx a ha

theorem run_append (r : IPTab R) (cs ds : List (ICall R)) : (run parse r (cs ++ ds)).1 = (run parse (run parse r cs).1 ds).1 := by
  induction cs generalizing r with
  | nil => rfl
  | cons c cs ih => simp only [List.cons_append, run, ih]

/-- **C129** (IP tables of fewer than `2^64` addresses) Once all addresses claimed are released, in any order and whatever
else is released, no sequence of calls tells the table from a new one. -/
theorem C129_ip (hs : SmallRange lo hi) {r : IPTab R} (h : Reach parse lo hi r) {l : List String}
    (hl : ∀ x, has parse r x = true → ∃ y ∈ l, parse y = parse x) :
    Alike parse (new lo hi : IPTab R) (run parse r (l.map .release)).1 := by
  obtain ⟨h1, h2⟩ := mid_of_small hs
  obtain ⟨cs, rfl⟩ := h
  have hv := (run_refines parse (new lo hi : IPTab R) (new_inv h1) h2 cs).2
  obtain ⟨r1, r2, r3⟩ := releases_run (parse := parse) l hv
  have hno : ∀ x, (parse x).bind (absI (run parse (run parse (new lo hi : IPTab R) cs).1 (l.map .release)).1) = none := by
    intro x
    cases hx : parse x with
    | none => rfl
    | some a =>
      rw [Option.bind_some]
      cases ht : absI (run parse (new lo hi : IPTab R) cs).1 a with
      | none => exact r3 a ht
      | some d =>
        obtain ⟨⟨_, b, hb, hr⟩, _⟩ := step_refines_explicit parse (run parse (new lo hi : IPTab R) cs).1 hv (.has x) trivial
        have hbt : b = true := hb.2 ⟨a, hx, by rw [ht]; simp⟩
        have hhas : has parse (run parse (new lo hi : IPTab R) cs).1 x = b := by
          simp only [step, IReply.bool.injEq] at hr
          exact hr
        obtain ⟨y, hy, he⟩ := hl x (hhas.trans hbt)
        exact r2 y hy a (he.trans hx)
  rw [← run_append] at r1 hno ⊢
  refine C96_ip parse lo hi [] _ fun x => ?_
  show (step parse (new lo hi) _).2 = _
  rw [get_reply_abs (new_inv h1), get_reply_abs r1, hno]
  have : (parse x).bind (absI (new lo hi : IPTab R)) = none := by
    rw [abs_new]; cases parse x <;> rfl
  rw [this]

-- 10.0.0.0 is the only address claimed
example : sizeOf exI = 1 ∧ has exParse exI "10.0.0.0" = true := by decide

/-! ### C130 -/

theorem put_drop (s : AMap R) (a : Addr) (d : R) : (s.drop a).put a d = s.put a d := by
  funext k; unfold AMap.put AMap.drop; split <;> rfl

theorem put_put (s : AMap R) (a : Addr) (d d' : R) : (s.put a d').put a d = s.put a d := by
  funext k; unfold AMap.put; split <;> rfl

theorem step_update_abs {r : IPTab R} (h : IInv lo hi r) {x : String} {a : Addr} (hx : parse x = some a)
    (ha : absI r a ≠ none) (d : R) :
    absI (step parse r (.update x d)).1 = (absI r).put a d ∧ (step parse r (.update x d)).2 = .ok ∧
    IInv lo hi (step parse r (.update x d)).1 := by
  obtain ⟨s1, s2⟩ := step_refines_explicit parse r h (.update x d) trivial
  rcases s1 with ⟨b, hb, _, c1, c2⟩ | ⟨c0, _, _⟩
  · cases hb.symm.trans hx
    exact ⟨c1, c2, s2⟩
  · exact absurd (c0 a hx) ha

/-- **C130** (IP tables of fewer than `2^64` addresses) `Update` of a claimed address does what `Release` and `Claim` do,
also with another text of the address, and undoes what earlier updates did: the calls succeed, and no later calls tell the
tables apart. -/
theorem C130_ip (hs : SmallRange lo hi) {r : IPTab R} (h : Reach parse lo hi r) {x y : String} (hx : has parse r x = true)
    (hy : parse y = parse x) (d d' : R) :
    (run parse r [.update x d]).2 = [.ok] ∧ (run parse r [.release y, .claim x d]).2 = [.ok, .ok] ∧
    (run parse r [.update y d', .update x d]).2 = [.ok, .ok] ∧
    Alike parse (run parse r [.update x d]).1 (run parse r [.release y, .claim x d]).1 ∧
    Alike parse (run parse r [.update x d]).1 (run parse r [.update y d', .update x d]).1 := by
  obtain ⟨h1, h2⟩ := mid_of_small hs
  obtain ⟨cs, rfl⟩ := h
  have hv := (run_refines parse (new lo hi : IPTab R) (new_inv h1) h2 cs).2
  generalize hr : (run parse (new lo hi : IPTab R) cs).1 = r at hv hx
  obtain ⟨⟨_, b, hb, he⟩, _⟩ := step_refines_explicit parse r hv (.has x) trivial
  simp only [step, IReply.bool.injEq] at he
  obtain ⟨a, ha, hab⟩ := hb.1 (he.symm.trans hx)
  have hay : parse y = some a := hy.trans ha
  obtain ⟨a1, a2, a3⟩ := step_update_abs hv ha hab d
  obtain ⟨b1, b2, b3⟩ := step_update_abs hv hay hab d'
  obtain ⟨c1, c2, c3⟩ := step_update_abs b3 ha (by rw [b1]; unfold AMap.put; simp) d
  rw [b1, put_put] at c1
  have hin : InIP lo hi a := by
    by_contra hc
    exact hab (hv.abs_out hc)
  obtain ⟨s1, s2⟩ := step_refines_explicit parse r hv (.release y) trivial
  have s5 : absI (step parse r (.release y)).1 = (absI r).drop a ∧ (step parse r (.release y)).2 = .ok := by
    rcases s1 with ⟨b, hb, _, c1, c2⟩ | ⟨c0, _, _⟩
    · cases hb.symm.trans hay
      exact ⟨c1, c2⟩
    · exact absurd hin (c0 a hay)
  obtain ⟨t1, t2⟩ := step_refines_explicit parse _ s2 (.claim x d) trivial
  have t3 : absI (step parse (step parse r (.release y)).1 (.claim x d)).1 = (absI r).put a d ∧
      (step parse (step parse r (.release y)).1 (.claim x d)).2 = .ok := by
    rcases t1 with ⟨b, hb, _, c1, c2⟩ | ⟨c0, _, _⟩
    · cases hb.symm.trans ha
      rw [s5.1, put_drop] at c1
      exact ⟨c1, c2⟩
    · refine absurd ⟨hin, ?_⟩ (c0 a ha)
      rw [s5.1]; unfold AMap.drop; simp
  refine ⟨by simp only [run, a2], by simp only [run, s5.2, t3.2], by simp only [run, b2, c2], ?_, ?_⟩
  all_goals
    subst hr
    rw [← run_append, ← run_append]
    refine C96_ip parse lo hi _ _ fun k => ?_
    rw [run_append, run_append]
  · show (step parse (step parse _ _).1 _).2 = (step parse (step parse (step parse _ _).1 _).1 _).2
    rw [get_reply_abs a3, get_reply_abs t2, a1, t3.1]
  · show (step parse (step parse _ _).1 _).2 = (step parse (step parse (step parse _ _).1 _).1 _).2
    rw [get_reply_abs a3, get_reply_abs c3, a1, c1]

example : has exParse exI "10.0.0.0" = true := by decide

end Verif.IPTable
