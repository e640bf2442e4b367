import Verif.Tree.Iter

/-! The values stored under each prefix, and what `add` and `Delete` do to them. -/

namespace Verif.Tree
open Verif.Id
variable {T : Type} [Inhabited T] {P : Pkg}

/-- `M` gives the values stored under each prefix -/
structure Abs (t : Tree T) (s : Sh) (M : List Bool → List T) : Prop where
  entry : ∀ q x c, (q, x, c) ∈ s.entries [] → M q = valsAt t.vals (t.key x) c
  none : ∀ q, (∀ x c, (q, x, c) ∉ s.entries []) → M q = []

/-- change the values of one prefix -/
def setM (M : List Bool → List T) (q : List Bool) (l : List T) : List Bool → List T :=
  fun q' => if q' = q then l else M q'

theorem Abs.entry_iff {W : Nat} {t : Tree T} {s : Sh} {M : List Bool → List T} (h : Abs t s M)
    (hw : Sh.WfRoot W s) {q : List Bool} : M q ≠ [] ↔ ∃ x c, (q, x, c) ∈ s.entries [] := by
  constructor
  · intro hne
    apply Classical.byContradiction
    intro hn
    exact hne (h.none q (fun x c hx => hn ⟨x, c, hx⟩))
  · rintro ⟨x, c, hx⟩ h0
    have h1 := h.entry q x c hx
    rw [h0] at h1
    have := congrArg List.length h1
    rw [length_valsAt] at this
    exact (Sh.mem_entries.1 hx).2 this.symm

/-- keys of different nodes; the last number has the key 0, and number 0 is not used -/
theorem key_sep {W x y j j' : Nat} (hW : W ≤ 64) (hx : 1 ≤ x ∧ x ≤ 2 ^ (64 - W)) (hy : 1 ≤ y ∧ y ≤ 2 ^ (64 - W))
    (hj : j < 2 ^ W) (hj' : j' < 2 ^ W) (hne : x ≠ y) :
    (BitVec.ofNat 64 x <<< W) + BitVec.ofNat 64 j ≠ (BitVec.ofNat 64 y <<< W) + BitVec.ofNat 64 j' := by
  have hpow : 2 ^ (64 - W) * 2 ^ W = 2 ^ 64 := by rw [← Nat.pow_add]; congr 1; omega
  have hN := Nat.two_pow_pos (64 - W)
  have key : ∀ x j, j < 2 ^ W →
      ((BitVec.ofNat 64 x <<< W) + BitVec.ofNat 64 j).toNat = (x % 2 ^ (64 - W)) * 2 ^ W + j := by
    intro x j hj
    have h1 : (x % 2 ^ (64 - W)) * 2 ^ W + j < 2 ^ 64 := by
      rw [← hpow]
      have : (x % 2 ^ (64 - W) + 1) * 2 ^ W ≤ 2 ^ (64 - W) * 2 ^ W := Nat.mul_le_mul_right _ (Nat.mod_lt _ hN)
      rw [Nat.add_mul] at this
      omega
    rw [BitVec.toNat_add, BitVec.toNat_shiftLeft, BitVec.toNat_ofNat, BitVec.toNat_ofNat,
      Nat.shiftLeft_eq, Nat.mod_mul_mod, ← hpow, Nat.mul_mod_mul_right, hpow, Nat.add_mod_mod, Nat.mod_eq_of_lt h1]
  intro h
  have h2 := congrArg BitVec.toNat h
  rw [key x j hj, key y j' hj'] at h2
  apply hne
  have e1 : (x % 2 ^ (64 - W) * 2 ^ W + j) / 2 ^ W = x % 2 ^ (64 - W) := by
    rw [Nat.mul_comm, Nat.mul_add_div (Nat.two_pow_pos W), Nat.div_eq_of_lt hj]; rfl
  have e2 : (y % 2 ^ (64 - W) * 2 ^ W + j') / 2 ^ W = y % 2 ^ (64 - W) := by
    rw [Nat.mul_comm, Nat.mul_add_div (Nat.two_pow_pos W), Nat.div_eq_of_lt hj']; rfl
  have h3 : x % 2 ^ (64 - W) = y % 2 ^ (64 - W) := by rw [← e1, ← e2, h2]
  rcases Nat.lt_or_ge x (2 ^ (64 - W)) with a | a <;> rcases Nat.lt_or_ge y (2 ^ (64 - W)) with b | b
  · rwa [Nat.mod_eq_of_lt a, Nat.mod_eq_of_lt b] at h3
  · have : y = 2 ^ (64 - W) := by omega
    rw [Nat.mod_eq_of_lt a, this, Nat.mod_self] at h3
    omega
  · have : x = 2 ^ (64 - W) := by omega
    rw [Nat.mod_eq_of_lt b, this, Nat.mod_self] at h3
    omega
  · omega

theorem Inv.key {W : Nat} {t : Tree T} {s : Sh} (h : Inv W t s) (x : Nat) :
    t.key x = BitVec.ofNat 64 x <<< W := by
  unfold Tree.key; rw [h.length]

theorem Inv.entry_lt {W : Nat} {t : Tree T} {s : Sh} (h : Inv W t s) {x : Nat} (hx : x ∈ s.idxs) :
    x < t.nodes.length := (h.rep.lt x hx).1

theorem Inv.entry_ok {W n : Nat} {t : Tree T} {s : Sh} (h : Inv W t s) (hn : t.nodes.length ≤ n + 1) {x : Nat}
    (hx : x ∈ s.idxs) : 1 ≤ x ∧ x ≤ n := by
  have h1 := (h.rep.lt x hx).1
  have h2 := (h.rep.lt x hx).2
  omega

/-- the values of other prefixes are at other keys -/
theorem two_pow_le {W c : Nat} (hW : W ≤ 64) (h : c ≤ 2 ^ W) : c ≤ 2 ^ 64 :=
  Nat.le_trans h (Nat.pow_le_pow_right (by decide) hW)

theorem addL_length (m : Option (T → T → Bool)) (u : Option (T → T)) (val : T) (l : List T) :
    (addL m u val l).length = l.length ∨ (addL m u val l).length = l.length + 1 := by
  unfold addL
  split
  · simp
  · split <;> simp

/-- `add`, seen at the stored values -/
theorem add_abs (hP : WidthOk P.W) {t : Tree T} {s : Sh} {M : List Bool → List T} (h : Inv P.W t s)
    (ha : Abs t s M) (id : MyId P) (hid : id.len ≤ P.W) (val : T) (m : Option (T → T → Bool))
    (u : Option (T → T)) (hcnt : ∀ q, (M q).length ≤ 2 ^ P.W)
    (hlt : (addL m u val (M (bitsId id))).length ≤ 2 ^ P.W) :
    ∃ bb c' t' s', t.add id val m u = .ok (bb, c', t') ∧ Inv P.W t' s' ∧
      (t'.nodes.length = t.nodes.length ∨ t'.avail = []) ∧ t.nodes.length ≤ t'.nodes.length ∧
      (t'.nodes.length ≤ 2 ^ (64 - P.W) + 1 →
        Abs t' s' (setM M (bitsId id) (addL m u val (M (bitsId id)))) ∧
        c' = (addL m u val (M (bitsId id))).length ∧ c' = (M (bitsId id)).length + bb.toNat) ∧
      ∀ q, (∃ x c, (q, x, c) ∈ s'.entries []) ↔ q = bitsId id ∨ ∃ x c, (q, x, c) ∈ s.entries [] := by
  have hW := hP.le
  obtain ⟨bb, c', t', s', k, c0, used, h1, h2, h3, h4, h5, h6, h7, h8⟩ := add_spec hP h id hid val m u
  have hent := h3.entries h2 (d := P.W) (pre := []) (.inr h.wf)
  simp only [List.nil_append] at hent
  obtain ⟨e1, e2⟩ := hent
  have hk' : (bitsId id, k, c') ∈ s'.entries [] := (e1 _ _ _).2 (.inl ⟨rfl, rfl, rfl⟩)
  have hMb : M (bitsId id) = valsAt t.vals (t.key k) c0 := by
    by_cases hc0 : c0 = 0
    · subst hc0
      rw [ha.none _ (fun x c hx => ((e2 x c).1 hx).2.2 ((e2 x c).1 hx).2.1)]
      rfl
    · exact ha.entry _ _ _ ((e2 k c0).2 ⟨rfl, rfl, hc0⟩)
  have hc0 : c0 = (M (bitsId id)).length := by rw [hMb, length_valsAt]
  have hv1 : bb = (valStep t.vals (t.key k) c0 val m u).1 := congrArg Prod.fst h5
  have hv2 : t'.vals = (valStep t.vals (t.key k) c0 val m u).2 := congrArg Prod.snd h5
  have hkey : ∀ x, t'.key x = t.key x := fun x => by rw [h4.key, h.key]
  have hlen := valStep_length t.vals (t.key k) c0 val m u
  rw [← hMb] at hlen
  have hself : valsAt t'.vals (t.key k) c' = addL m u val (M (bitsId id)) := by
    rw [h6, hv1, hv2, hMb]
    have : (2:Nat) ^ P.W ≤ 2 ^ 64 := Nat.pow_le_pow_right (by decide) hW.2
    exact valStep_self val m u (by omega)
  refine ⟨bb, c', t', s', h1, h4, h7, h8, ?_, ?_⟩
  · intro hsz
    refine ⟨⟨?_, ?_⟩, ?_, ?_⟩
    · intro q x c hx
      rcases (e1 q x c).1 hx with ⟨rfl, rfl, rfl⟩ | ⟨hq, hx0⟩
      · rw [hkey, hself, setM, if_pos rfl]
      · rw [setM, if_neg hq, ha.entry q x c hx0, hkey]
        have hxk : x ≠ k := by
          rintro rfl
          exact hq (Sh.node_unique h4.idxs_nodup (Sh.mem_entries.1 hx).1 (Sh.mem_entries.1 hk').1).1
        have hc : c ≤ 2 ^ P.W := by
          have := hcnt q
          rwa [ha.entry q x c hx0, length_valsAt] at this
        apply valsAt_congr
        intro j hj
        rw [hv2, valStep_other]
        intro j' hj'
        rw [h.key, h.key]
        exact key_sep hW.2
          (h4.entry_ok hsz (Sh.mem_entries_idx hx))
          (h4.entry_ok hsz (Sh.mem_entries_idx hk')) (by omega) (by omega) hxk
    · intro q hq
      have hne : q ≠ bitsId id := by rintro rfl; exact hq _ _ hk'
      rw [setM, if_neg hne]
      exact ha.none q (fun x c hx => hq x c ((e1 q x c).2 (.inr ⟨hne, hx⟩)))
    · rw [← hself, length_valsAt]
    · rw [h6, hc0]
  · intro q
    constructor
    · rintro ⟨x, c, hx⟩
      rcases (e1 q x c).1 hx with ⟨h, _⟩ | ⟨_, h⟩
      · exact .inl h
      · exact .inr ⟨x, c, h⟩
    · intro hh
      by_cases hq : q = bitsId id
      · exact ⟨k, c', hq ▸ hk'⟩
      · rcases hh with hh | ⟨x, c, hx⟩
        · exact absurd hh hq
        · exact ⟨x, c, (e1 q x c).2 (.inr ⟨hq, hx⟩)⟩

/-- `Delete`, seen at the stored values -/
theorem delete_abs (hP : WidthOk P.W) {t : Tree T} {s : Sh} {M : List Bool → List T} (h : Inv P.W t s)
    (ha : Abs t s M) (id : MyId P) (hid : id.len ≤ P.W) (v : T) (m : T → T → Bool)
    (hcnt : ∀ q, (M q).length ≤ 2 ^ P.W) (hsz : t.nodes.length ≤ 2 ^ (64 - P.W) + 1) :
    ∃ t' s', t.delete id m v = .ok (((M (bitsId id)).filter (fun x => m x v)).length, t') ∧ Inv P.W t' s' ∧
      t'.nodes.length = t.nodes.length ∧
      Abs t' s' (setM M (bitsId id) (keepL m ((M (bitsId id)).filter (fun x => !m x v)))) := by
  have hW := hP.le
  rcases delete_spec hP h id hid v m with ⟨h1, h2⟩ | ⟨k, c0, d, t', s', hk, h1, h2⟩
  · have h0 : M (bitsId id) = [] := ha.none _ h2
    refine ⟨t, s, by rw [h1, h0]; rfl, h, rfl, ?_⟩
    have : setM M (bitsId id) (keepL m ((M (bitsId id)).filter (fun x => !m x v))) = M := by
      funext q
      unfold setM
      split
      · rename_i hq; rw [hq, h0]; rfl
      · rfl
    rw [this]; exact ha
  · obtain ⟨hinv, hlen, hd, hout⟩ := h2
    have hM0 : M (bitsId id) = valsAt t.vals (t.key k) c0 := ha.entry _ _ _ hk
    have hc0 : c0 ≤ 2 ^ P.W := by
      have := hcnt (bitsId id)
      rwa [hM0, length_valsAt] at this
    obtain ⟨d1, d2, d3, d4, d5⟩ := delVals_spec (vals := t.vals) (key := t.key k) (v := v) (m := m)
      (two_pow_le hW.2 hc0)
    generalize delVals t.vals (t.key k) c0 v m = D at *
    have hkey : ∀ x, t'.key x = t.key x := fun x => by rw [hinv.key, h.key]
    have hbound : ∀ q x c, (q, x, c) ∈ s.nodes [] → c ≤ 2 ^ P.W := by
      intro q x c hx
      by_cases hc : c = 0
      · omega
      · have := hcnt q
        rwa [ha.entry q x c (Sh.mem_entries.2 ⟨hx, hc⟩), length_valsAt] at this
    have hlt : ∀ x ∈ s.idxs, 1 ≤ x ∧ x ≤ 2 ^ (64 - P.W) := fun x hx => h.entry_ok hsz hx
    have hother : ∀ q x c, (q, x, c) ∈ s.nodes [] → x ≠ k → valsAt D.1 (t.key x) c = valsAt t.vals (t.key x) c := by
      intro q x c hx hxk
      apply valsAt_congr
      intro j hj
      apply d5
      intro j' hj'
      rw [h.key, h.key]
      have := hbound q x c hx
      exact key_sep hW.2 (hlt x (Sh.mem_nodes_idx hx)) (hlt k (Sh.mem_entries_idx hk)) (by omega) (by omega) hxk
    refine ⟨t', s', ?_, hinv, hlen, ?_⟩
    · rw [h1, hd, d3, hM0]
    · rcases hout with ⟨o1, o2, o3, rfl⟩ | ⟨o1, mv, cj, o2, o3, o4⟩
      · constructor
        · intro q x c hx
          rw [Sh.mem_entries, Sh.mem_setCnt] at hx
          rw [hkey, o3]
          rcases hx.1 with ⟨g1, g2⟩ | ⟨rfl, rfl, c1, g2⟩
          · have hq : q ≠ bitsId id := by
              rintro rfl
              exact g1 (Sh.nodes_unique (.inr h.wf) g2 (Sh.mem_entries.1 hk).1).1
            rw [setM, if_neg hq, ha.entry q x c (Sh.mem_entries.2 ⟨g2, hx.2⟩), hother q x c g2 g1]
          · have hq := (Sh.node_unique h.idxs_nodup g2 (Sh.mem_entries.1 hk).1).1
            rw [setM, if_pos hq, hM0, d1]
        · intro q hq
          have hne : q ≠ bitsId id := by
            rintro rfl
            exact hq k D.2.1 (Sh.mem_entries.2 ⟨Sh.mem_setCnt.2 (.inr ⟨rfl, rfl, c0, (Sh.mem_entries.1 hk).1⟩), o2⟩)
          rw [setM, if_neg hne]
          apply ha.none
          intro x c hx
          have hxk : x ≠ k := by
            rintro rfl
            exact hne (Sh.node_unique h.idxs_nodup (Sh.mem_entries.1 hx).1 (Sh.mem_entries.1 hk).1).1
          exact hq x c (Sh.mem_entries.2 ⟨Sh.mem_setCnt.2 (.inl ⟨hxk, (Sh.mem_entries.1 hx).1⟩), (Sh.mem_entries.1 hx).2⟩)
      · have hz : keepL m ((M (bitsId id)).filter (fun x => !m x v)) = [] := by
          rw [hM0]
          rw [o1] at d4
          rw [List.length_eq_zero_iff.1 d4.symm]
          rfl
        rw [hz]
        have hnb : ∀ x c, x ≠ k → (bitsId id, x, c) ∉ s.entries [] := by
          intro x c hxk hx
          exact hxk (Sh.nodes_unique (.inr h.wf) (Sh.mem_entries.1 hx).1 (Sh.mem_entries.1 hk).1).1
        constructor
        · intro q x c hx
          obtain ⟨x0, g1, g2, rfl⟩ := (o4 q x c).1 hx
          have hq : q ≠ bitsId id := by rintro rfl; exact hnb x0 c g1 g2
          rw [setM, if_neg hq, ha.entry q x0 c g2, hkey, o2]
          have g3 := (Sh.mem_entries.1 g2).1
          cases mv with
          | none => exact (hother q x0 c g3 g1).symm
          | some ji =>
            obtain ⟨j, i⟩ := ji
            obtain ⟨p1, p2, p3, p4, ⟨qj, p5⟩, p6⟩ := o3 j i rfl
            have hcj := hbound _ _ _ p5
            have hsep : ∀ a b, a < 0 + cj → b < 0 + cj → t.key i + BitVec.ofNat 64 a ≠ t.key j + BitVec.ofNat 64 b := by
              intro a b ha hb
              rw [h.key, h.key]
              exact key_sep hW.2 (hlt i p4) (hlt j p3) (by omega) (by omega) (Ne.symm p1)
            obtain ⟨m1, m2⟩ := moveLoop_spec (fk := t.key j) (tk := t.key i) (n := cj) (i := 0) (vals := D.1)
              (by have := two_pow_le hW.2 hcj; omega) hsep
            unfold Sh.moved mvStep
            simp only
            by_cases hxj : x0 = j
            · subst hxj
              rw [if_pos rfl]
              have := (Sh.node_unique h.idxs_nodup g3 p5).2
              subst this
              rw [← hother q x0 c g3 g1]
              apply valsAt_congr
              intro a ha
              exact (m1 a (by omega) (by omega)).symm
            · rw [if_neg hxj]
              have hxi : x0 ≠ i := by
                rintro rfl
                exact p6.1 q c (Sh.entries_setCnt_zero.2 ⟨g1, g2⟩)
              rw [← hother q x0 c g3 g1]
              apply valsAt_congr
              intro a ha
              symm
              apply m2
              intro b _ hb
              have hc := hbound _ _ _ g3
              have hx0 := hlt x0 (Sh.mem_nodes_idx g3)
              rw [h.key, h.key, h.key]
              exact ⟨key_sep hW.2 hx0 (hlt i p4) (by omega) (by omega) hxi,
                key_sep hW.2 hx0 (hlt j p3) (by omega) (by omega) hxj⟩
        · intro q hq
          by_cases hne : q = bitsId id
          · rw [setM, if_pos hne]
          · rw [setM, if_neg hne]
            apply ha.none
            intro x c hx
            have hxk : x ≠ k := by
              rintro rfl
              exact hne (Sh.node_unique h.idxs_nodup (Sh.mem_entries.1 hx).1 (Sh.mem_entries.1 hk).1).1
            exact hq _ c ((o4 q _ c).2 ⟨x, hxk, hx, rfl⟩)

end Verif.Tree
