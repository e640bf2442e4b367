import Verif.GTree.Props
import Verif.Tree.Crowd

/-! tree32 with more than `2^31` prefixes claimed: a claim is lost. -/

namespace Verif.GTree
open Verif.Id
open Verif.Tree (Tree Out newTree Crowd crowdId)
variable {L : Type} [Labels L]

/-- calls that all succeed -/
inductive Does {I : Impl} : GTree I L → List (Op I.P L) → GTree I L → Prop
  | nil {g} : Does g [] g
  | snoc {g os g' o g''} : Does g os g' → g'.exec o = .ok (.done, g'') → Does g (os ++ [o]) g''

/-- the entry of an id -/
def entry32 (l : L) (x : BitVec 32) : Option (Entry id32 L) := some ⟨⟨x, 32⟩, l⟩

/-- the claims -/
def claims32 (l : L) (n : Nat) : List (Op id32 L) := (List.range n).map (fun i => .claim ⟨crowdId i, 32⟩ l)

omit [Labels L] in
theorem firsts_ones {T : Type} {t : Tree T} [Inhabited T] : ∀ (es : List (List Bool × Nat × Nat)), (∀ e ∈ es, e.2.2 = 1) →
    firsts (es.map (fun e => (e.2.1, Verif.Tree.valsAt t.vals (t.key e.2.1) e.2.2))) =
      .ok (es.map (fun e => Verif.Tree.getV t.vals (t.key e.2.1))) := by
  intro es
  induction es with
  | nil => intro _; rfl
  | cons e es ih =>
    intro h
    obtain ⟨q, x, c⟩ := e
    have hc : c = 1 := h _ List.mem_cons_self
    subst hc
    have hv : Verif.Tree.valsAt t.vals (t.key x) 1 = [Verif.Tree.getV t.vals (t.key x)] := by
      show [Verif.Tree.getV t.vals (t.key x + BitVec.ofNat 64 0)] = _
      rw [show t.key x + BitVec.ofNat 64 0 = t.key x from BitVec.add_zero _]
    rw [List.map_cons, List.map_cons]
    simp only [hv]
    show (firsts _ >>= _) = _
    rw [ih (fun e he => h e (List.mem_cons_of_mem _ he))]
    rfl

omit [Labels L] in
/-- the entries, one of each node -/
theorem entries_ones {g : GTree tree32 L} {s : Verif.Tree.Sh} (h : Verif.Tree.Inv 32 g.tree s)
    (h1 : ∀ e ∈ s.entries [], e.2.2 = 1) :
    g.entries = .ok ((s.entries []).map (fun e => Verif.Tree.getV g.tree.vals (g.tree.key e.2.1))) := by
  unfold GTree.entries
  rw [Verif.Tree.visit_spec h]
  exact firsts_ones _ h1

omit [Labels L] in
theorem getLoop_absent32 {P : Pkg} {id : MyId P} : ∀ {es : List (Option (Entry P L))},
    (∀ e ∈ es, ∃ e', e = some e' ∧ e'.id ≠ id) → getLoop id es = .ok none := by
  intro es
  induction es with
  | nil => intro _; rfl
  | cons e es ih =>
    intro h
    obtain ⟨e', rfl, h1⟩ := h e List.mem_cons_self
    show (if e'.id = id then _ else _) = _
    rw [if_neg h1]
    exact ih (fun e he => h e (List.mem_cons_of_mem _ he))

omit [Labels L] in
theorem getLoop_present32 {P : Pkg} {id : MyId P} {a : Entry P L} (ha : a.id = id) : ∀ {es : List (Option (Entry P L))},
    some a ∈ es → (∀ e ∈ es, ∃ e', e = some e' ∧ (e'.id = id → e' = a)) → getLoop id es = .ok (some a) := by
  intro es
  induction es with
  | nil => intro h; cases h
  | cons e es ih =>
    intro hm h
    obtain ⟨e', rfl, h1⟩ := h e List.mem_cons_self
    show (if e'.id = id then _ else _) = _
    by_cases he : e'.id = id
    · rw [if_pos he, h1 he]; rfl
    · rw [if_neg he]
      refine ih ?_ (fun e hm => h e (List.mem_cons_of_mem _ hm))
      rcases List.mem_cons.1 hm with h2 | h2
      · cases h2; exact absurd ha he
      · exact h2

theorem exec_claim32 {g : GTree tree32 L} (hs : g.size = BitVec.allOnes 32) (id : MyId tree32.P) (l : L) {b c t'}
    (h : g.tree.set id (some ⟨id, l⟩) = .ok (b, c, t')) :
    g.exec (.claim id l) = .ok (.done, { g with tree := t' }) := by
  have hv : g.valid id = true := by
    unfold GTree.valid
    rw [hs]
    simp only [Bool.not_eq_true', decide_eq_false_iff_not]
    intro hlt
    have h1 : (BitVec.allOnes 32).toNat < id.id.toNat := hlt
    have h2 : id.id.toNat < 2 ^ 32 := id.id.isLt
    rw [BitVec.toNat_allOnes] at h1
    omega
  show (g.claimID id l >>= _) = _
  unfold GTree.claimID
  rw [hv]
  show (((g.set id ⟨id, l⟩) >>= _) >>= _) = _
  unfold GTree.set
  rw [h]
  rfl

/-- the comparison of `del` -/
def same32 (e1 e2 : Option (Entry tree32.P L)) : Bool :=
  match e1, e2 with
  | some e1, some e2 => e1.equal e2
  | _, _ => false

theorem exec_release32 {g : GTree tree32 L} (hs : g.size = BitVec.allOnes 32) (id : MyId tree32.P)
    {e : Entry tree32.P L} (hg : g.get id = .ok (some e)) {k t'} (h : g.tree.delete id same32 (some e) = .ok (k, t')) :
    g.exec (.release id) = .ok (.done, { g with tree := t' }) := by
  have hv : g.valid id = true := by
    unfold GTree.valid
    rw [hs]
    simp only [Bool.not_eq_true', decide_eq_false_iff_not]
    intro hlt
    have h1 : (BitVec.allOnes 32).toNat < id.id.toNat := hlt
    have h2 : id.id.toNat < 2 ^ 32 := id.id.isLt
    rw [BitVec.toNat_allOnes] at h1
    omega
  show (g.releaseID id >>= _) = _
  unfold GTree.releaseID
  rw [hv]
  show ((g.get id >>= _) >>= _) = _
  rw [hg]
  show (((g.del id e) >>= _) >>= _) = _
  have hd : g.del id e = .ok { g with tree := t' } := by
    unfold GTree.del
    have hf : ∀ m : Option (Entry tree32.P L) → Option (Entry tree32.P L) → Bool, m = same32 →
        (g.tree.delete id m (some e) >>= fun r => (pure { g with tree := r.2 } : Out (GTree tree32 L))) =
          .ok { g with tree := t' } := by
      rintro _ rfl
      rw [h]
      rfl
    refine hf _ ?_
    funext a b
    cases a <;> cases b <;> rfl
  rw [hd]
  rfl

theorem crowd_claims (l : L) (g0 : GTree tree32 L) (hg0 : new tree32 L 32 = some g0) : ∀ n, n ≤ 2 ^ 31 + 1 →
    ∃ (g : GTree tree32 L) (s : Verif.Tree.Sh), Does g0 (claims32 l n) g ∧ g.size = BitVec.allOnes 32 ∧
      Crowd (entry32 l) n g.tree s := by
  intro n
  induction n with
  | zero =>
    intro _
    cases hg0
    exact ⟨_, _, .nil, rfl, Crowd.new _⟩
  | succ n ih =>
    intro hn
    obtain ⟨g, s, h1, h2, h3⟩ := ih (by omega)
    obtain ⟨t', s', h4, h5⟩ := h3.step (by omega)
    refine ⟨{ g with tree := t' }, s', ?_, h2, h5⟩
    unfold claims32
    rw [List.range_succ, List.map_append]
    exact .snoc h1 (exec_claim32 h2 _ l h4)

/-- **C52, violated** (tree32) One prefix more than in `C52_claim_get_partial`, and a claim is lost: after claiming
`2^31 + 1` ids of full length, the last of which is `2^31 - 1`, then releasing `2^31` and claiming `0/0`, all without
error, `Get` of `2^31 - 1` fails. -/
theorem C52_tree32_violated (l : L) : ∃ (g0 g1 g2 g3 : GTree tree32 L) (os : List (Op id32 L)),
    new tree32 L 32 = some g0 ∧ os.length = 2 ^ 31 + 1 ∧
    (∀ o ∈ os, ∃ x : BitVec 32, x.toNat ≤ 2 ^ 31 ∧ o = .claim ⟨x, 32⟩ l) ∧
    Does g0 os g1 ∧ os.getLast? = some (.claim ⟨0x7fffffff, 32⟩ l) ∧
    g1.exec (.release ⟨0x80000000, 32⟩) = .ok (.done, g2) ∧ g2.exec (.claim ⟨0, 0⟩ l) = .ok (.done, g3) ∧
    g3.get ⟨0x7fffffff, 32⟩ = .ok none := by
  obtain ⟨n, hn⟩ : ∃ n : Nat, n = 2 ^ 31 + 1 := ⟨_, rfl⟩
  obtain ⟨g0, hg0⟩ : ∃ g0, new tree32 L 32 = some g0 := ⟨_, rfl⟩
  obtain ⟨g1, s, h1, hs, hc⟩ := crowd_claims l g0 hg0 n (by omega)
  have hlastid : crowdId (n - 1) = (0x7fffffff : BitVec 32) := by rw [hn]; rfl
  -- the release
  have hget : g1.get ⟨0x80000000, 32⟩ = .ok (some ⟨⟨0x80000000, 32⟩, l⟩) := by
    unfold GTree.get
    rw [entries_ones hc.inv (fun e he => by obtain ⟨_, _, _, h, _⟩ := hc.ids e.1 e.2.1 e.2.2 he; exact h)]
    show getLoop _ _ = _
    refine getLoop_present32 (P := tree32.P) (a := ⟨⟨0x80000000, 32⟩, l⟩) rfl ?_ ?_
    · obtain ⟨x, hx⟩ := hc.mem 1 (by omega)
      refine List.mem_map.2 ⟨_, hx, ?_⟩
      obtain ⟨i, hi, hq, _, hv⟩ := hc.ids _ _ _ hx
      have := Verif.Tree.crowd_pfx_inj (by decide) (by omega) hq
      subst this
      exact hv
    · intro e he
      obtain ⟨⟨q, x, c⟩, hx, rfl⟩ := List.mem_map.1 he
      obtain ⟨i, hi, hq, _, hv⟩ := hc.ids _ _ _ hx
      refine ⟨_, hv, fun h => ?_⟩
      have h : crowdId i = 0x80000000 := congrArg MyId.id h
      rw [h]
      rfl
  obtain ⟨t', t'', s'', h3, h4, h5, h6, h7, h8⟩ := hc.zero hn (same32 (L := L)) (some ⟨⟨0x80000000, 32⟩, l⟩) (equal_refl _) (some ⟨⟨0, 0⟩, l⟩)
  have hrel : g1.exec (.release ⟨0x80000000, 32⟩) = .ok (.done, { g1 with tree := t' }) :=
    exec_release32 hs ⟨0x80000000, 32⟩ hget h3
  refine ⟨g0, g1, _, _, claims32 l n, hg0, by simp [claims32, hn], ?_, h1, ?_, hrel,
    exec_claim32 (g := { g1 with tree := t' }) hs ⟨0, 0⟩ l h4, ?_⟩
  · intro o ho
    obtain ⟨i, hi, rfl⟩ := List.mem_map.1 ho
    refine ⟨crowdId i, ?_, rfl⟩
    rw [List.mem_range] at hi
    rw [Verif.Tree.crowdId_toNat (by omega)]
    split
    · omega
    · split <;> omega
  · unfold claims32
    obtain ⟨k, hk⟩ : ∃ k, n = k + 1 := ⟨n - 1, by omega⟩
    rw [hk, List.range_succ, List.map_append, List.map_cons, List.map_nil, List.getLast?_concat,
      show k = n - 1 by omega, hlastid]
    rfl
  · show (GTree.entries { g1 with tree := t'' } >>= _) = _
    rw [entries_ones (g := { g1 with tree := t'' }) h5 (fun e he => (h8 e.1 e.2.1 e.2.2 he).1)]
    show getLoop _ _ = _
    refine getLoop_absent32 ?_
    intro e he
    obtain ⟨⟨q, x, c⟩, hx, rfl⟩ := List.mem_map.1 he
    rcases (h8 _ _ _ hx).2 with ⟨_, hv⟩ | ⟨i, hi, _, _, hv⟩
    · refine ⟨_, hv, fun h => ?_⟩
      have := congrArg MyId.len h
      cases this
    · refine ⟨_, hv, fun h => ?_⟩
      have h : crowdId i = 0x7fffffff := congrArg MyId.id h
      rw [← hlastid] at h
      have := Verif.Tree.crowdId_inj (by omega) (by omega) h
      omega

end Verif.GTree
