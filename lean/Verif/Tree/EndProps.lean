import Verif.Tree.Acyclic
import Verif.Tree.Props
import Verif.Tree.IterSame

/-!
Loops over a tree that others change at the same time end (C107), unless they go on changing it for ever (C108).
-/

namespace Verif.Tree
open Verif.Id
variable {T : Type} [Inhabited T] {P : Pkg}

/-! ### Specification -/

/-- a round of the loop of `Next` of an iterator after which it goes on (`none`), or a call that changes the tree -/
inductive LoopStep (P : Pkg) : Tree T × Iter → Option (Op P T) → Tree T × Iter → Prop
  | round {t : Tree T} {it it' : Iter} : round t it = .ok (.cont it') → LoopStep P (t, it) none (t, it')
  | found {t : Tree T} {it it' : Iter} : round t it = .ok (.found it') → LoopStep P (t, it) none (t, it')
  | change {t t' : Tree T} {it : Iter} {o : Op P T} {r : Res} : o.id.len ≤ P.W → o.exec t = .ok (r, t') →
      LoopStep P (t, it) (some o) (t', it)

/-- the call does not release anything -/
def Op.NoDelete : Op P T → Prop
  | .delete _ _ _ => False
  | _ => True

/-- A tree and one of its iterators. The tree may have been changed since the iterator was made, and between its rounds. -/
inductive Walks (P : Pkg) : Tree T × Iter → Prop
  | start {t : Tree T} : Reach P t → Walks P (t, Tree.iterate)
  | step {a b x} : Walks P a → LoopStep P a x b → Walks P b

/-! ### Proofs -/

theorem Walks.inv (hP : WidthOk P.W) {a : Tree T × Iter} (h : Walks P a) : (∃ s, Inv P.W a.1 s) ∧ a.2.Pos := by
  induction h with
  | start h => exact ⟨h.inv hP, iterate_pos⟩
  | step _ hs ih =>
    obtain ⟨⟨s, hi⟩, hp⟩ := ih
    cases hs with
    | round h => obtain ⟨r, hr⟩ := hi.ranked; exact ⟨⟨s, hi⟩, (round_need hr hp h rfl).2.1⟩
    | found h => obtain ⟨r, hr⟩ := hi.ranked; exact ⟨⟨s, hi⟩, (round_need hr hp h rfl).2.1⟩
    | change h1 h2 =>
      obtain ⟨r', t'', s', h3, h4⟩ := exec_inv hP hi _ h1
      rw [h2] at h3
      cases h3
      exact ⟨⟨s', h4⟩, hp⟩

/-- `Next` ends if nobody changes the tree from now on -/
theorem nextLoop_ends {t : Tree T} {r : Nat → Nat} (hr : Ranked t.nodes r) : ∀ {n : Nat} {it : Iter}, it.Pos →
    need t.nodes r it < n → nextLoop t n it ≠ .diverge ∧ ∀ m, n ≤ m → nextLoop t m it = nextLoop t n it := by
  intro n
  induction n with
  | zero => intro it _ h; omega
  | succ n ih =>
    intro it hp h
    refine ⟨?_, ?_⟩
    · rw [nextLoop]
      cases hx : round t it with
      | ok x =>
        simp only [Out.bind_ok]
        cases x with
        | cont it' =>
          obtain ⟨h1, h2, _⟩ := round_need hr hp hx rfl
          exact (ih h2 (by omega)).1
        | found it' => exact fun h => nomatch h
        | finished it' => exact fun h => nomatch h
      | panic s => exact fun h => nomatch h
      | realloc => exact fun h => nomatch h
      | diverge =>
        exfalso
        unfold round Tree.node at hx
        split at hx
        · simp only [Out.bind_ok] at hx
          have hup : ∀ it, roundUp t it ≠ .diverge := by
            intro it hx
            unfold roundUp at hx
            split at hx
            · split at hx
              · cases hx
              · unfold Tree.node at hx
                split at hx
                · simp only [Out.bind_ok] at hx
                  split at hx
                  · cases hx
                  · split at hx <;> cases hx
                · cases hx
            · cases hx
          have hri : ∀ n it, roundRight t n it ≠ .diverge := by
            intro n it hx
            unfold roundRight at hx
            split at hx
            · split at hx <;> exact hup _ hx
            · exact hup _ hx
          have hle : ∀ n it, roundLeft t n it ≠ .diverge := by
            intro n it hx
            unfold roundLeft at hx
            split at hx
            · split at hx <;> exact hri _ _ hx
            · exact hri _ _ hx
          split at hx
          · split at hx
            · cases hx
            · exact hle _ _ hx
          · exact hle _ _ hx
        · cases hx
    · intro m hm
      obtain ⟨m, rfl⟩ : ∃ k, m = k + 1 := ⟨m - 1, by omega⟩
      rw [nextLoop, nextLoop]
      cases hx : round t it with
      | ok x =>
        simp only [Out.bind_ok]
        cases x with
        | cont it' =>
          obtain ⟨h1, h2, _⟩ := round_need hr hp hx rfl
          exact (ih h2 (by omega)).2 m (by omega)
        | found it' => rfl
        | finished it' => rfl
      | panic s => rfl
      | realloc => rfl
      | diverge => rfl

/-- **C107** `Next` ends: an iterator of a tree that has been changed in any way since it was made needs only a limited
number of rounds, even where it stands on nodes that were freed in the meantime. -/
theorem C107_next (hP : P = id16 ∨ P = id32 ∨ P = id64) {t : Tree T} {it : Iter} (h : Walks P (t, it)) :
    ∃ n, nextLoop t n it ≠ .diverge ∧ ∀ m, n ≤ m → nextLoop t m it = nextLoop t n it := by
  have hw : WidthOk P.W := widthOk_of hP
  obtain ⟨⟨s, hi⟩, hp⟩ := h.inv hw
  obtain ⟨r, hr⟩ := hi.ranked
  exact ⟨_, nextLoop_ends hr hp (Nat.lt_succ_self _)⟩

/-- **C107** A loop over an iterator ends if the tree is changed only finitely often: there is no infinite sequence of rounds
and changes in which the changes end. -/
theorem C107_loop (hP : P = id16 ∨ P = id32 ∨ P = id64) {f : Nat → Tree T × Iter} (h : Walks P (f 0)) {K : Nat} :
    ¬ ∀ k, ∃ x, LoopStep P (f k) x (f (k + 1)) ∧ (K ≤ k → x = none) := by
  intro hs
  have hw : WidthOk P.W := widthOk_of hP
  have hwalk : ∀ k, Walks P (f k) := by
    intro k
    induction k with
    | zero => exact h
    | succ k ih => obtain ⟨x, h1, _⟩ := hs k; exact ih.step h1
  obtain ⟨⟨s, hi⟩, _⟩ := (hwalk K).inv hw
  obtain ⟨r, hr⟩ := hi.ranked
  have key : ∀ j, (f (K + j)).1 = (f K).1 ∧ need (f K).1.nodes r (f (K + j)).2 + j ≤ need (f K).1.nodes r (f K).2 := by
    intro j
    induction j with
    | zero => exact ⟨rfl, Nat.le_refl _⟩
    | succ j ih =>
      obtain ⟨h1, h2⟩ := ih
      obtain ⟨x, h3, h4⟩ := hs (K + j)
      have hx := h4 (by omega)
      subst hx
      have hp := ((hwalk (K + j)).inv hw).2
      rw [show K + (j + 1) = K + j + 1 from rfl]
      generalize f (K + j) = a at *
      generalize f (K + j + 1) = b at *
      generalize f K = c at *
      obtain ⟨t, it⟩ := c
      cases h3 with
      | round h5 =>
        simp only at h1 h2 hr
        subst h1
        have := round_need hr hp h5 rfl
        exact ⟨rfl, by simp only at this ⊢; omega⟩
      | found h5 =>
        simp only at h1 h2 hr
        subst h1
        have := round_need hr hp h5 rfl
        exact ⟨rfl, by simp only at this ⊢; omega⟩
  have := (key (need (f K).1.nodes r (f K).2 + 1)).2
  omega

/-- **C107** The number of rounds to come is bounded by the length of the history of the iterator and the number of nodes:
one bound holds for all trees and all iterators. -/
theorem C107_bound (hP : P = id16 ∨ P = id32 ∨ P = id64) : ∃ B : Nat → Nat → Nat, ∀ {t : Tree T} {f : Nat → Iter} {n : Nat},
    Walks P (t, f 0) → (∀ k, k < n → LoopStep P (t, f k) none (t, f (k + 1))) →
    n ≤ B (f 0).hist.length t.nodes.length := by
  refine ⟨fun h k => (h + 2) * (wgt k + 2), ?_⟩
  intro t f n h hs
  have hw : WidthOk P.W := widthOk_of hP
  obtain ⟨⟨s, hi⟩, hp⟩ := h.inv hw
  obtain ⟨r, hr⟩ := hi.ranked
  have key : ∀ j, j ≤ n → (f j).Pos ∧ need t.nodes r (f j) + j ≤ need t.nodes r (f 0) := by
    intro j
    induction j with
    | zero => intro _; exact ⟨hp, Nat.le_refl _⟩
    | succ j ih =>
      intro hj
      obtain ⟨h1, h2⟩ := ih (by omega)
      have h3 := hs j (by omega)
      generalize f (j + 1) = b at *
      cases h3 with
      | round h5 => have := round_need hr h1 h5 rfl; exact ⟨this.2.1, by simp only at this; omega⟩
      | found h5 => have := round_need hr h1 h5 rfl; exact ⟨this.2.1, by simp only at this; omega⟩
  have h1 := (key n (Nat.le_refl _)).2
  have h2 := need_le hr (f 0)
  simp only at h1 h2 ⊢
  omega

/-! ### Claims beside a loop -/

/-- the links of a node -/
def Node.link (n : Node) : Nat × Nat := (n.left, n.right)

/-- the same links -/
def Links (ns ns' : List Node) : Prop :=
  ∀ i : Nat, (ns[i]?).map Node.link = (ns'[i]?).map Node.link

theorem Links.node {ns ns' : List Node} (h : Links ns ns') {i : Nat} {n' : Node} (hn : ns'[i]? = some n') :
    ∃ n, ns[i]? = some n ∧ n.left = n'.left ∧ n.right = n'.right := by
  have := h i
  rw [hn] at this
  cases hi : ns[i]? with
  | none => rw [hi] at this; cases this
  | some n => rw [hi] at this; simp [Node.link] at this; exact ⟨n, rfl, this⟩

theorem Links.length {ns ns' : List Node} (h : Links ns ns') : ns'.length = ns.length := by
  have key : ∀ {ns ns' : List Node}, Links ns ns' → ns'.length ≤ ns.length := by
    intro ns ns' h
    by_cases hl : ns'.length ≤ ns.length
    · exact hl
    · obtain ⟨n, hn, _⟩ := h.node (List.getElem?_eq_getElem (show ns.length < ns'.length by omega))
      rw [List.getElem?_eq_none (Nat.le_refl _)] at hn
      cases hn
  exact Nat.le_antisymm (key h) (key fun i => (h i).symm)

theorem Links.ranked {ns ns' : List Node} {r : Nat → Nat} (h : Links ns ns') (hr : Ranked ns r) : Ranked ns' r := by
  refine ⟨?_, ?_, ?_⟩
  · intro i n b hi hn hb
    obtain ⟨m, hm, h1, h2⟩ := h.node hn
    have : n.child b = m.child b := by
      cases b
      · exact h1.symm
      · exact h2.symm
    rw [this] at hb ⊢
    exact hr.child i m b hi hm hb
  · intro i; rw [h.length]; exact hr.le i
  · intro i n hi hn he
    obtain ⟨m, hm, h1, h2⟩ := h.node hn
    rw [← h1]
    exact hr.differ i m hi hm (by rw [h1, h2, he])

theorem Links.need {ns ns' : List Node} {r : Nat → Nat} (h : Links ns ns') (it : Iter) : need ns' r it = need ns r it := by
  have key : ∀ (hist : List Nat) (i : Nat), above ns' r i hist = above ns r i hist := by
    intro hist
    induction hist with
    | nil => intro i; rfl
    | cons p hist ih =>
      intro i
      have : ((ns'[p]?).getD default).left = ((ns[p]?).getD default).left := by
        cases hp : ns'[p]? with
        | some n' =>
          obtain ⟨n, hn, h1, _⟩ := h.node hp
          rw [hn]
          exact h1.symm
        | none =>
          have := h p
          rw [hp] at this
          cases hp' : ns[p]? with
          | none => rfl
          | some n => rw [hp'] at this; cases this
      rw [above, above, this, ih]
  unfold Tree.need
  rw [key]

theorem Rep.links' {W : Nat} {ns ns' : List Node} {s : Sh} {i i' : Nat} (h : Rep W ns s i) (h' : Rep W ns' s i') :
    i = i' ∧ ∀ x ∈ s.idxs, (ns[x]?).map Node.link = (ns'[x]?).map Node.link := by
  have e : i = i' := by
    cases s with
    | nil => exact (show i = 0 from h).trans (show i' = 0 from h').symm
    | node _ _ _ _ => exact h.1.trans h'.1.symm
  subst e
  refine ⟨rfl, fun x hx => ?_⟩
  obtain ⟨n, n', h1, h2, h3, h4, _⟩ := h.links h' x hx
  rw [h1, h2]
  simp [Node.link, h3, h4]

theorem Rep.links_add {W c' : Nat} {s s' : Sh} {bits : List Bool} {k c0 : Nat} {u : List Nat}
    (h : Sh.AddR c' s bits s' k c0 u) : u = [] → ∀ {ns ns' : List Node} {i i' : Nat}, Rep W ns s i → Rep W ns' s' i' →
    i = i' ∧ ∀ x ∈ s.idxs, (ns[x]?).map Node.link = (ns'[x]?).map Node.link := by
  have main : ∀ {ns ns' : List Node} {i p c c1} {ch ch' : Bool → Sh} {j j' : Nat}, Rep W ns (.node i p c ch) j →
      Rep W ns' (.node i p c1 ch') j' → (∀ b {x y}, Rep W ns (ch b) x → Rep W ns' (ch' b) y →
        x = y ∧ ∀ x ∈ (ch b).idxs, (ns[x]?).map Node.link = (ns'[x]?).map Node.link) →
      j = j' ∧ ∀ x ∈ (Sh.node i p c ch).idxs, (ns[x]?).map Node.link = (ns'[x]?).map Node.link := by
    intro ns ns' i p c c1 ch ch' j j' h h' hc
    obtain ⟨rfl, _, n, hn, _, _, hch⟩ := h
    obtain ⟨rfl, _, n', hn', _, _, hch'⟩ := h'
    refine ⟨rfl, fun x hx => ?_⟩
    rcases Sh.mem_idxs_node.1 hx with rfl | ⟨b, hb⟩
    · rw [hn, hn']
      have h0 : n.left = n'.left := (hc false (hch false) (hch' false)).1
      have h1 : n.right = n'.right := (hc true (hch true) (hch' true)).1
      simp [Node.link, h0, h1]
    · exact (hc b (hch b) (hch' b)).2 x hb
  induction h with
  | leaf => intro h; cases h
  | above => intro h; cases h
  | split => intro h; cases h
  | here i p c ch =>
    intro _ ns ns' j j' h h'
    exact main h h' fun b x y => Rep.links'
  | down i p c ch bits b bs s' k c0 u hp hr ih =>
    intro hu ns ns' j j' h h'
    refine main h h' fun b' x y h1 h2 => ?_
    by_cases e : b' = b
    · subst e
      rw [Sh.upd_same] at h2
      exact ih hu h1 h2
    · rw [Sh.upd_ne e] at h2
      exact h1.links' h2

theorem Sh.Wf.few {s : Sh} : ∀ {d : Nat}, Sh.Wf d s → s.idxs.length < 2 ^ d := by
  induction s with
  | nil => intro d _; exact Nat.two_pow_pos d
  | node i p c ch ih =>
    intro d h
    obtain ⟨h1, h2, _, h3⟩ := h
    have hp : 0 < p.length := List.length_pos_iff.2 h1
    have h4 := ih false (h3 false).2
    have h5 := ih true (h3 true).2
    have h6 : 2 ^ (d - p.length) ≤ 2 ^ (d - 1) := Nat.pow_le_pow_right (by omega) (by omega)
    have h7 : 2 ^ d = 2 ^ (d - 1) * 2 := by rw [← Nat.pow_succ]; congr 1; omega
    simp only [Sh.idxs, List.length_cons, List.length_append]
    omega

theorem Sh.WfRoot.few {s : Sh} {d : Nat} (h : Sh.WfRoot d s) : s.idxs.length < 2 ^ (d + 1) := by
  cases s with
  | nil => exact h.elim
  | node i p c ch =>
    have h4 := (h.2.2 false).2.few
    have h5 := (h.2.2 true).2.few
    simp only [Sh.idxs, List.length_cons, List.length_append]
    omega

/-- a claim makes the tree grow, or it leaves the links as they are -/
theorem exec_links (hP : WidthOk P.W) {t t' : Tree T} {s : Sh} (h : Inv P.W t s) {o : Op P T} (ho : o.id.len ≤ P.W)
    (hd : o.NoDelete) {r : Res} (he : o.exec t = .ok (r, t')) :
    ∃ s', Inv P.W t' s' ∧ (s.idxs.length < s'.idxs.length ∨ s.idxs.length = s'.idxs.length ∧ Links t.nodes t'.nodes) := by
  have main : ∀ {id : MyId P} {v m u b c}, id.len ≤ P.W → t.add id v m u = .ok (b, c, t') →
      ∃ s', Inv P.W t' s' ∧ (s.idxs.length < s'.idxs.length ∨ s.idxs.length = s'.idxs.length ∧ Links t.nodes t'.nodes) := by
    intro id v m u b c hid he
    obtain ⟨bb, c', t1, s1, k, c0, used, h1, h2, h3, h4, h5, h6, _, _, _, hf⟩ := add_spec_frame hP h id hid v m u
    rw [he] at h1
    cases h1
    refine ⟨s1, h4, ?_⟩
    have hl := h3.idxs_perm.length_eq
    rw [List.length_append] at hl
    cases used with
    | cons => left; simp at hl; omega
    | nil =>
      refine .inr ⟨by simp at hl; omega, fun x => ?_⟩
      by_cases hx : x ∈ s.idxs
      · exact (Rep.links_add h3 rfl h.rep h4.rep).2 x hx
      · rw [hf x hx (by simp)]
  cases o with
  | delete => exact hd.elim
  | set id v =>
    obtain ⟨bb, c', t1, _, _, _, _, h1, _⟩ := add_spec hP h id ho v (some (fun _ _ => true)) (some (fun _ => v))
    have h2 := exec_set h1
    rw [he] at h2
    cases h2
    exact main ho h1
  | add id v m =>
    obtain ⟨bb, c', t1, _, _, _, _, h1, _⟩ := add_spec hP h id ho v m none
    have h2 := exec_add h1
    rw [he] at h2
    cases h2
    exact main ho h1

/-- **C108** (partly) A loop over an iterator ends if prefixes are released only finitely often, even if others go on claiming
prefixes and changing labels for ever: there is no infinite sequence with infinitely many rounds in which the releases end.
(Missing: with releases going on for ever the loop need not end, `C108_endless_violated`.) -/
theorem C108_claims_partial (hP : P = id16 ∨ P = id32 ∨ P = id64) {f : Nat → Tree T × Iter} {x : Nat → Option (Op P T)}
    (h : Walks P (f 0)) (hs : ∀ k, LoopStep P (f k) (x k) (f (k + 1))) {K : Nat}
    (hd : ∀ k, K ≤ k → ∀ o, x k = some o → o.NoDelete) : ∃ K', ∀ k, K' ≤ k → x k ≠ none := by
  have hw : WidthOk P.W := widthOk_of hP
  have hwalk : ∀ k, Walks P (f k) := by
    intro k
    induction k with
    | zero => exact h
    | succ k ih => exact ih.step (hs k)
  have hpos := fun k => ((hwalk k).inv hw).2
  have hsh : ∀ k, ∃ s, Inv P.W (f k).1 s := fun k => ((hwalk k).inv hw).1
  obtain ⟨s, hi⟩ := Classical.skolem.1 hsh
  have hstep : ∀ k, K ≤ k → (s k).idxs.length < (s (k + 1)).idxs.length ∨
      (s k).idxs.length = (s (k + 1)).idxs.length ∧ Links (f k).1.nodes (f (k + 1)).1.nodes ∧
        ∀ r, Ranked (f k).1.nodes r → need (f (k + 1)).1.nodes r (f (k + 1)).2 ≤ need (f k).1.nodes r (f k).2 ∧
          (x k = none → need (f (k + 1)).1.nodes r (f (k + 1)).2 < need (f k).1.nodes r (f k).2) := by
    intro k hk
    have h1 := hs k
    have h2 := hi k
    have h3 := hi (k + 1)
    have h4 := hd k hk
    have h5 := hpos k
    generalize f k = a at *
    generalize f (k + 1) = b at *
    generalize x k = y at *
    cases h1 with
    | round g =>
      right
      refine ⟨by rw [h2.rep.unique h3.rep], fun _ => rfl, fun r hr => ?_⟩
      have := (round_need hr h5 g rfl).1
      exact ⟨Nat.le_of_lt this, fun _ => this⟩
    | found g =>
      right
      refine ⟨by rw [h2.rep.unique h3.rep], fun _ => rfl, fun r hr => ?_⟩
      have := (round_need hr h5 g rfl).1
      exact ⟨Nat.le_of_lt this, fun _ => this⟩
    | change g1 g2 =>
      obtain ⟨s', g3, g4⟩ := exec_links hw h2 g1 (h4 _ rfl) g2
      rw [h3.rep.unique g3.rep]
      refine g4.imp_right fun g => ⟨g.1, g.2, fun r hr => ?_⟩
      refine ⟨Nat.le_of_eq (g.2.need _), fun h => nomatch h⟩
  -- the size stays the same at last
  have hmax : ∃ K1, K ≤ K1 ∧ ∀ k, K1 ≤ k → (s k).idxs.length = (s K1).idxs.length := by
    have key : ∀ n k, K ≤ k → 2 ^ (P.W + 1) - (s k).idxs.length ≤ n →
        ∃ K1, K ≤ K1 ∧ ∀ j, K1 ≤ j → (s j).idxs.length = (s K1).idxs.length := by
      intro n
      induction n with
      | zero => intro k hk hn; have := (hi k).wf.few; omega
      | succ n ih =>
        intro k hk hn
        by_cases hc : ∀ j, k ≤ j → (s j).idxs.length = (s k).idxs.length
        · exact ⟨k, hk, hc⟩
        · have hmono : ∀ j, (s k).idxs.length ≤ (s (k + j)).idxs.length := by
            intro j
            induction j with
            | zero => exact Nat.le_refl _
            | succ j ihj =>
              rcases hstep (k + j) (by omega) with h | h
              · rw [← Nat.add_assoc]; omega
              · rw [← Nat.add_assoc]; omega
          obtain ⟨j, hj⟩ := Classical.not_forall.1 hc
          obtain ⟨hj1, hj2⟩ := Classical.not_imp.1 hj
          have := hmono (j - k)
          rw [show k + (j - k) = j by omega] at this
          have h9 := (hi j).wf.few
          exact ih j (by omega) (by omega)
    exact key _ K (Nat.le_refl _) (Nat.le_refl _)
  obtain ⟨K1, hK, hsame⟩ := hmax
  obtain ⟨r, hr⟩ := (hi K1).ranked
  have hall : ∀ j, Ranked (f (K1 + j)).1.nodes r := by
    intro j
    induction j with
    | zero => exact hr
    | succ j ih =>
      rcases hstep (K1 + j) (by omega) with h | h
      · have := hsame (K1 + j) (by omega)
        have := hsame (K1 + j + 1) (by omega)
        omega
      · exact h.2.1.ranked ih
  have hdec : ∀ j, need (f (K1 + j + 1)).1.nodes r (f (K1 + j + 1)).2 ≤ need (f (K1 + j)).1.nodes r (f (K1 + j)).2 ∧
      (x (K1 + j) = none → need (f (K1 + j + 1)).1.nodes r (f (K1 + j + 1)).2 < need (f (K1 + j)).1.nodes r (f (K1 + j)).2) := by
    intro j
    rcases hstep (K1 + j) (by omega) with h | h
    · have := hsame (K1 + j) (by omega)
      have := hsame (K1 + j + 1) (by omega)
      omega
    · exact h.2.2 r (hall j)
  have key : ∀ n j, need (f (K1 + j)).1.nodes r (f (K1 + j)).2 ≤ n → ∃ K', ∀ k, K' ≤ k → x k ≠ none := by
    intro n
    induction n with
    | zero =>
      intro j hj
      refine ⟨K1 + j, fun k hk hx => ?_⟩
      have hm : ∀ i, need (f (K1 + (j + i))).1.nodes r (f (K1 + (j + i))).2 ≤ 0 := by
        intro i
        induction i with
        | zero => exact hj
        | succ i ih => have := (hdec (j + i)).1; exact Nat.le_trans this ih
      have h1 := hm (k - (K1 + j))
      have h2 := (hdec (j + (k - (K1 + j)))).2
      rw [show K1 + (j + (k - (K1 + j))) = k by omega] at h1 h2
      have := h2 hx
      omega
    | succ n ih =>
      intro j hj
      by_cases hc : ∃ i, need (f (K1 + (j + i))).1.nodes r (f (K1 + (j + i))).2 ≤ n
      · obtain ⟨i, hi⟩ := hc
        exact ih _ hi
      · refine ⟨K1 + j, fun k hk hx => hc ⟨k - (K1 + j) + 1, ?_⟩⟩
        have hm : ∀ i, need (f (K1 + (j + i))).1.nodes r (f (K1 + (j + i))).2 ≤ n + 1 := by
          intro i
          induction i with
          | zero => exact hj
          | succ i ih => have := (hdec (j + i)).1; exact Nat.le_trans this ih
        have h1 := hm (k - (K1 + j))
        have h2 := (hdec (j + (k - (K1 + j)))).2
        rw [show K1 + (j + (k - (K1 + j))) = k by omega] at h1 h2
        have := h2 hx
        rw [show K1 + (j + (k - (K1 + j) + 1)) = k + 1 by omega]
        omega
  exact key _ 0 (Nat.le_refl _)

/-! ### An example, and the loop without end -/

/-- claim `0/1` or `1/1` -/
def exSet (b : Bool) : Op id16 Nat := .set (if b then ⟨0x8000, 1⟩ else ⟨0, 1⟩) 0
/-- release it -/
def exDel (b : Bool) : Op id16 Nat := .delete (if b then ⟨0x8000, 1⟩ else ⟨0, 1⟩) (fun _ _ => true) 0

/-- one cycle: the other goroutine releases both prefixes and claims them again, twice; each time their nodes are
exchanged, and the iterator, on its way up from the node of the second prefix, takes it for the first -/
def exCycle : List (Option (Op id16 Nat)) :=
  [some (exDel false), some (exDel true), some (exSet false), some (exSet true), none, none, none,
   some (exDel false), some (exDel true), some (exSet false), some (exSet true), none, none, none]

/-- a step -/
def exStep (a : Tree Nat × Iter) : Option (Op id16 Nat) → Tree Nat × Iter
  | some o => match o.exec a.1 with
    | .ok (_, t) => (t, a.2)
    | _ => a
  | none => match round a.1 a.2 with
    | .ok (.cont it) => (a.1, it)
    | .ok (.found it) => (a.1, it)
    | _ => a

/-- whether the step is possible -/
def exOk (a : Tree Nat × Iter) : Option (Op id16 Nat) → Bool
  | some o => decide (o.id.len ≤ 16) && match o.exec a.1 with
    | .ok _ => true
    | _ => false
  | none => match round a.1 a.2 with
    | .ok (.cont _) => true
    | .ok (.found _) => true
    | _ => false

theorem exStep_step {a : Tree Nat × Iter} {m : Option (Op id16 Nat)} (h : exOk a m = true) :
    LoopStep id16 a m (exStep a m) := by
  obtain ⟨t, it⟩ := a
  cases m with
  | some o =>
    simp only [exOk, Bool.and_eq_true, decide_eq_true_eq] at h
    simp only [exStep]
    cases he : o.exec t with
    | ok p => exact .change h.1 he
    | _ => rw [he] at h; simp at h
  | none =>
    simp only [exOk] at h
    simp only [exStep]
    cases he : round t it with
    | ok x =>
      rw [he] at h
      cases x with
      | cont it' => exact .round he
      | found it' => exact .found he
      | finished it' => cases h
    | _ => rw [he] at h; cases h

/-- before the cycle: both prefixes are claimed, then an iterator comes to the second one -/
def exStart : List (Option (Op id16 Nat)) :=
  [some (exSet false), some (exSet true), none, none, none, none, none]

/-- the states: `i` steps from a new tree, with the cycle once -/
def exState (i : Nat) : Tree Nat × Iter := ((exStart ++ exCycle).take i).foldl exStep (newTree id16, Tree.iterate)

theorem exState_step {i : Nat} (hi : i < 21) : LoopStep id16 (exState i) ((exStart ++ exCycle)[i]'hi) (exState (i + 1)) := by
  have : exState (i + 1) = exStep (exState i) ((exStart ++ exCycle)[i]'hi) := by
    have h : (exStart ++ exCycle).take (i + 1) = (exStart ++ exCycle).take i ++ [(exStart ++ exCycle)[i]'hi] :=
      List.take_succ_eq_append_getElem hi
    unfold exState
    rw [h, List.foldl_append]
    rfl
  rw [this]
  apply exStep_step
  have key : ∀ i : Fin 21, exOk (exState i) ((exStart ++ exCycle)[i.1]'i.2) = true := by decide
  exact key ⟨i, hi⟩

theorem exState_walks {i : Nat} (hi : i ≤ 21) : Walks id16 (exState i) := by
  induction i with
  | zero => exact .start ⟨[], [], by simp, rfl⟩
  | succ i ih => exact (ih (by omega)).step (exState_step (by omega))

set_option maxRecDepth 8000 in
/-- after the cycle everything is as before -/
theorem exState_cycle : exState 21 = exState 7 := rfl

/-- **C107** example: an iterator whose node was freed -/
example : Walks id16 (exState 9) ∧ (exState 9).2.index ∈ (exState 9).1.avail ∧ (exState 9).2.hist ≠ [] :=
  ⟨exState_walks (by omega), by decide, by decide⟩

/-- **C108** is violated: a loop over a tree that never holds more than two prefixes goes on for ever, and finds prefixes
again and again, if another goroutine goes on releasing and claiming the two prefixes. -/
theorem C108_endless_violated : ∃ (f : Nat → Tree Nat × Iter) (x : Nat → Option (Op id16 Nat)), Walks id16 (f 0) ∧
    (∀ k, LoopStep id16 (f k) (x k) (f (k + 1))) ∧ (∀ k, ∃ j, k ≤ j ∧ ∃ it, round (f j).1 (f j).2 = .ok (.found it)) ∧
    ∀ k, (f k).1.nodes.length = 4 := by
  refine ⟨fun k => exState (7 + k % 14), fun k => (exStart ++ exCycle)[7 + k % 14]'(by
    show _ < 21
    omega), exState_walks (by omega), ?_, ?_, ?_⟩
  · intro k
    have h := exState_step (i := 7 + k % 14) (by omega)
    have : exState (7 + k % 14 + 1) = exState (7 + (k + 1) % 14) := by
      by_cases hk : k % 14 = 13
      · rw [hk, show (k + 1) % 14 = 0 by omega]
        exact exState_cycle
      · rw [show (k + 1) % 14 = k % 14 + 1 by omega]
        rfl
    rw [this] at h
    exact h
  · intro k
    refine ⟨14 * k + 6, by omega, ⟨2, [1], .left⟩, ?_⟩
    simp only [show (14 * k + 6) % 14 = 6 by omega]
    rfl
  · intro k
    have key : ∀ i : Fin 14, (exState (7 + i.1)).1.nodes.length = 4 := by decide
    exact key ⟨k % 14, Nat.mod_lt _ (by omega)⟩

set_option maxRecDepth 8000 in
/-- **C108** example: five rounds, then the first prefix is claimed again and again -/
example : ∃ (f : Nat → Tree Nat × Iter) (x : Nat → Option (Op id16 Nat)), Walks id16 (f 0) ∧
    (∀ k, LoopStep id16 (f k) (x k) (f (k + 1))) ∧ (∀ k, 0 ≤ k → ∀ o, x k = some o → o.NoDelete) ∧ x 4 = none := by
  refine ⟨fun k => exState (min k 7), fun k => if h : k < 7 then (exStart ++ exCycle)[k]'(by show _ < 21; omega)
    else some (exSet false), exState_walks (by omega), ?_, ?_, rfl⟩
  · intro k
    by_cases h : k < 7
    · have := exState_step (i := k) (by omega)
      simp only [dif_pos h, show min k 7 = k by omega, show min (k + 1) 7 = k + 1 by omega]
      exact this
    · simp only [dif_neg h, show min k 7 = 7 by omega, show min (k + 1) 7 = 7 by omega]
      exact .change (r := .added false 1) (by decide) rfl
  · intro k _ o ho
    by_cases h : k < 7
    · simp only [dif_pos h] at ho
      have key : ∀ i : Fin 7, match (exStart ++ exCycle)[i.1]'(by show _ < 21; omega) with
        | some (.delete _ _ _) => False
        | _ => True := by
        intro i
        match i with
        | 0 => trivial
        | 1 => trivial
        | 2 => trivial
        | 3 => trivial
        | 4 => trivial
        | 5 => trivial
        | 6 => trivial
      have := key ⟨k, h⟩
      simp only [ho] at this
      cases o with
      | delete => exact this
      | _ => trivial
    · simp only [dif_neg h] at ho
      cases ho
      trivial

end Verif.Tree
