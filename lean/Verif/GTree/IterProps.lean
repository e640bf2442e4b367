import Verif.GTree.ClaimProps
import Verif.Tree.IterSame

/-!
Property C85: a client that goes through a tree with the iterator of `Iterate` and makes calls on the tree in the loop.
The iterator holds a pointer to the tree, so it sees the changes.
-/

namespace Verif.GTree
open Verif.Id
open Verif.Tree (Tree Out newTree Iter next Sh Abs valsAt)
variable {I : Impl} {L : Type} [Labels L]

/-! ### The client -/

/-- gtree.go:37-41 `Entry` -/
def GTree.entryAt (g : GTree I L) (it : Iter) : Out (Option (Entry I.P L)) := do
  match ← g.tree.valsForNode it.index with
  | [] => .panic "index out of range"
  | v :: _ => return v

/-- calls in turn -/
def GTree.execs (g : GTree I L) : List (Op I.P L) → Out (GTree I L)
  | [] => .ok g
  | o :: os => do
    let (_, g) ← g.exec o
    g.execs os

/-- `for iter.Next() { e := iter.Entry(); ... }`, where the loop body makes calls that depend on the entries seen so far;
returns the entries seen and the tree. `Next` is tree.go:530-577. -/
def GTree.loop (body : List (Option (Entry I.P L)) → List (Op I.P L)) :
    Nat → GTree I L → Iter → List (Option (Entry I.P L)) → Out (List (Option (Entry I.P L)) × GTree I L)
  | 0, _, _, _ => .diverge
  | fuel + 1, g, it, seen => do
    let (b, it) ← next g.tree it
    if b then
      let e ← g.entryAt it
      let g ← g.execs (body (seen ++ [e]))
      GTree.loop body fuel g it (seen ++ [e])
    else return (seen, g)

/-- tree32.go:242-249 `Iterate`, followed by the loop -/
def GTree.iterate (g : GTree I L) (body : List (Option (Entry I.P L)) → List (Op I.P L)) (fuel : Nat) :
    Out (List (Option (Entry I.P L)) × GTree I L) := GTree.loop body fuel g Tree.iterate []

/-! ### Specification -/

/-- entries are replaced one after the other -/
def writes {P : Pkg} {L : Type} (M : Map P L) (us : List (MyId P × L)) : Map P L := us.foldl (fun M x => put M x.1 x.2) M

/-- the prefixes `qs` are visited in turn, each with the entry that it has at this moment; then the updates of the loop
body are made -/
inductive Visits {P : Pkg} {L : Type} (body : List (Option (Entry P L)) → List (MyId P × L)) :
    List (List Bool) → Map P L → List (Option (Entry P L)) → List (Option (Entry P L)) → Map P L → Prop
  | nil {M seen} : Visits body [] M seen seen M
  | cons {q qs M e seen seen' M'} : M q = some e →
      Visits body qs (writes M (body (seen ++ [some e]))) (seen ++ [some e]) seen' M' → Visits body (q :: qs) M seen seen' M'

/-- a loop body that makes updates -/
def updates {P : Pkg} {L : Type} (body : List (Option (Entry P L)) → List (MyId P × L)) :
    List (Option (Entry P L)) → List (Op P L) := fun seen => (body seen).map (fun x => .update x.1 x.2)

/-! ### Proofs -/

/-- `g` represents `M` with the node array of the shape `s` -/
structure SInv (length : Nat) (s : Sh) (g : GTree I L) (M : Map I.P L) : Prop where
  ginv : GInv length g M
  inv : Verif.Tree.Inv I.P.W g.tree s
  abs : Abs g.tree s (fun q => (hat M q).toList)

omit [Labels L] in
theorem GInv.sinv {length : Nat} {g : GTree I L} {M : Map I.P L} (h : GInv length g M) : ∃ s, SInv length s g M := by
  obtain ⟨s, h1, h2, _⟩ := h.tree
  exact ⟨s, h, h1, h2⟩

omit [Labels L] in
theorem SInv.mem {length : Nat} {s : Sh} {g : GTree I L} {M : Map I.P L} (h : SInv length s g M) {q : List Bool} :
    M q ≠ none ↔ ∃ x c, (q, x, c) ∈ s.entries [] := by
  rw [← h.abs.entry_iff h.inv.wf]
  unfold hat
  cases M q <;> simp

/-- `Set` of a claimed prefix keeps the shape -/
theorem set_sinv (hI : Ok I) {length : Nat} {s : Sh} {g : GTree I L} {M : Map I.P L} (h : SInv length s g M) {id : MyId I.P}
    (hid : id.len ≤ I.P.W) (hm : M (pre id) ≠ none) (l : L) :
    ∃ g', g.set id ⟨id, l⟩ = .ok g' ∧ SInv length s g' (put M id l) := by
  have hroom : Room (put M id l) := h.ginv.room.mono (fun q hq => by
    unfold put at hq
    split at hq
    · next e => rw [e]; exact hm
    · exact hq)
  obtain ⟨g', h1, h2⟩ := set_inv hI h.ginv hid l hroom
  obtain ⟨s', h3, h4, h5⟩ := h2.tree
  have hs : s' = s := by
    unfold GTree.set at h1
    cases ht : g.tree.set id (some (⟨id, l⟩ : Entry I.P L)) with
    | ok p =>
      obtain ⟨b, c, t'⟩ := p
      rw [ht] at h1
      have : g'.tree = t' := by
        have := Out.ok.inj h1
        rw [← this]
      rw [this] at h3
      refine Verif.Tree.set_shape ?_ h.inv h3 hid ht ?_
      · rcases hI.width with h | h <;> simp [Verif.Tree.WidthOk, h]
      · have := h.mem.1 hm
        unfold pre at this
        rw [Verif.Tree.pfx_id id hid] at this
        exact this
    | panic m => rw [ht] at h1; cases h1
    | realloc => rw [ht] at h1; cases h1
    | diverge => rw [ht] at h1; cases h1
  subst hs
  exact ⟨g', h1, h2, h3, h4⟩

theorem update_sinv (hI : Ok I) {length : Nat} {s : Sh} {g : GTree I L} {M : Map I.P L} (h : SInv length s g M) {id : MyId I.P}
    (hid : id.len ≤ I.P.W) (hlt : id.id.toNat < 2 ^ length) (hm : M (pre id) ≠ none) (l : L) :
    ∃ g', g.exec (.update id l) = .ok (.done, g') ∧ SInv length s g' (put M id l) := by
  have hv : g.valid id = true := (valid_iff h.ginv hI.pos id).2 hlt
  obtain ⟨g', h1, h2⟩ := set_sinv hI h hid hm l
  refine ⟨g', ?_, h2⟩
  show (g.claimID id l >>= _) = _
  unfold GTree.claimID
  rw [hv]
  show ((g.set id ⟨id, l⟩ >>= fun g => (pure (Ret.ok (), g) : Out _)) >>= _) = _
  rw [h1]; rfl

omit [Labels L] in
theorem writes_mem {P : Pkg} {us : List (MyId P × L)} : ∀ {M : Map P L}, (∀ x ∈ us, M (pre x.1) ≠ none) →
    ∀ q, writes M us q ≠ none ↔ M q ≠ none := by
  induction us with
  | nil => intro M _ q; exact Iff.rfl
  | cons u us ih =>
    intro M h q
    have hp : ∀ q, put M u.1 u.2 q ≠ none ↔ M q ≠ none := by
      intro q
      unfold put
      split
      · next e => subst e; simp [h u (by simp)]
      · exact Iff.rfl
    show writes (put M u.1 u.2) us q ≠ none ↔ _
    rw [ih (fun x hx => (hp _).2 (h x (by simp [hx]))), hp]

theorem execs_sinv (hI : Ok I) {length : Nat} {s : Sh} {us : List (MyId I.P × L)} : ∀ {g : GTree I L} {M : Map I.P L},
    SInv length s g M → (∀ x ∈ us, x.1.len ≤ I.P.W ∧ x.1.id.toNat < 2 ^ length ∧ M (pre x.1) ≠ none) →
    ∃ g', g.execs (us.map (fun x => .update x.1 x.2)) = .ok g' ∧ SInv length s g' (writes M us) := by
  induction us with
  | nil => intro g M h _; exact ⟨g, rfl, h⟩
  | cons u us ih =>
    intro g M h hu
    obtain ⟨a1, a2, a3⟩ := hu u (by simp)
    obtain ⟨g1, e1, e2⟩ := update_sinv hI h a1 a2 a3 u.2
    obtain ⟨g', e3, e4⟩ := ih e2 (fun x hx => ⟨(hu x (by simp [hx])).1, (hu x (by simp [hx])).2.1, by
      unfold put
      split
      · simp
      · exact (hu x (by simp [hx])).2.2⟩)
    refine ⟨g', ?_, e4⟩
    show (g.exec (.update u.1 u.2) >>= fun x => x.2.execs _) = _
    rw [e1]
    exact e3

theorem loop_spec (hI : Ok I) {length : Nat} {s : Sh} {g₀ : GTree I L} {M₀ : Map I.P L} (h₀ : SInv length s g₀ M₀)
    (body : List (Option (Entry I.P L)) → List (MyId I.P × L))
    (hb : ∀ seen, ∀ x ∈ body seen, x.1.len ≤ I.P.W ∧ x.1.id.toNat < 2 ^ length ∧ M₀ (pre x.1) ≠ none)
    {it' : Iter} (hend : Verif.Tree.round g₀.tree it' = .ok (.finished it')) :
    ∀ (K : List (List Bool × Nat × Nat)) (n : Nat) (it : Iter) (g : GTree I L) (M : Map I.P L) (seen : List (Option (Entry I.P L))),
    (∀ x ∈ K, x ∈ s.entries []) → SInv length s g M → (∀ q, M q ≠ none ↔ M₀ q ≠ none) →
    Verif.Tree.Run g₀.tree n it (K.map (·.2.1)) it' → n ≤ 3 * s.idxs.length → it.At s →
    ∃ seen' g' M', Visits body (K.map (·.1)) M seen seen' M' ∧ SInv length s g' M' ∧
      ∀ fuel, K.length < fuel → GTree.loop (updates body) fuel g it seen = .ok (seen', g') := by
  intro K
  induction K with
  | nil =>
    intro n it g M seen _ hg _ hr hn hi
    rcases Verif.Tree.next_same h₀.inv hg.inv hr hend hn hi with ⟨_, e⟩ | ⟨x, o, _, _, e, _⟩
    · refine ⟨seen, g, M, .nil, hg, fun fuel hf => ?_⟩
      cases fuel with
      | zero => simp at hf
      | succ fuel =>
        unfold GTree.loop
        rw [e]; rfl
    · cases e
  | cons k K ih =>
    intro n it g M seen hK hg hM hr hn hi
    obtain ⟨q, x, c⟩ := k
    have hx := hK (q, x, c) (by simp)
    rcases Verif.Tree.next_same h₀.inv hg.inv hr hend hn hi with ⟨e, _⟩ | ⟨x', o, it1, n', e, e1, e2, e3, e4, e5⟩
    · cases e
    · cases e
      have hne : M q ≠ none := hg.mem.2 ⟨x, c, hx⟩
      cases hq : M q with
      | none => exact absurd hq hne
      | some en =>
        have hv := Verif.Tree.vals_at hg.inv hx
        rw [← hg.abs.entry q x c hx] at hv
        simp only [hat, hq] at hv
        have hent : g.entryAt it1 = .ok (some en) := by
          unfold GTree.entryAt
          rw [e2]
          show (g.tree.valsForNode x >>= _) = _
          rw [hv]; rfl
        obtain ⟨g1, f1, f2⟩ := execs_sinv hI hg (us := body (seen ++ [some en]))
          (fun y hy => ⟨(hb _ y hy).1, (hb _ y hy).2.1, (hM _).2 (hb _ y hy).2.2⟩)
        have hM1 : ∀ q, writes M (body (seen ++ [some en])) q ≠ none ↔ M₀ q ≠ none := fun q =>
          (writes_mem (fun y hy => (hM _).2 (hb _ y hy).2.2) q).trans (hM q)
        obtain ⟨seen', g', M', i1, i2, i3⟩ := ih n' it1 g1 _ (seen ++ [some en]) (fun y hy => hK y (by simp [hy])) f2 hM1 e5
          (by omega) e4
        refine ⟨seen', g', M', .cons hq i1, i2, fun fuel hf => ?_⟩
        cases fuel with
        | zero => simp at hf
        | succ fuel =>
          unfold GTree.loop
          rw [e1]
          show (g.entryAt it1 >>= fun e => g.execs (updates body (seen ++ [e])) >>= fun g =>
            GTree.loop (updates body) fuel g it1 (seen ++ [e])) = _
          rw [hent]
          show (g.execs (updates body (seen ++ [some en])) >>= fun g =>
            GTree.loop (updates body) fuel g it1 (seen ++ [some en])) = _
          unfold updates
          rw [f1]
          exact i3 fuel (by simpa using hf)

/-! ### Theorems -/

/-- **C85, partial** (tree16; tree32 as long as the map has room) A loop over the iterator that only updates claimed
prefixes ends, and visits every claimed prefix exactly once, in ascending order, with the entry that it has at this moment.
Missing: loops that claim or release (violated below), tree64. -/
theorem C85_updates_partial (hI : I = tree16 ∨ I = tree32) {length : Nat} {g : GTree I L} {M : Map I.P L} (hr : Reach I length g M)
    (body : List (Option (Entry I.P L)) → List (MyId I.P × L))
    (hb : ∀ seen, ∀ x ∈ body seen, x.1.len ≤ I.P.W ∧ x.1.id.toNat < 2 ^ length ∧ M (pre x.1) ≠ none) :
    ∃ qs seen g' M', qs.Pairwise (· < ·) ∧ (∀ q, q ∈ qs ↔ M q ≠ none) ∧ Visits body qs M [] seen M' ∧
      ∀ fuel, qs.length < fuel → g.iterate (updates body) fuel = .ok (seen, g') := by
  obtain ⟨s, hs⟩ := (hr.ginv hI).sinv
  obtain ⟨n, it', h1, h2, h3, h4⟩ := Verif.Tree.iter_start hs.inv
  rw [Verif.Tree.Sh.live_eq s []] at h2
  obtain ⟨seen, g', M', e1, e2, e3⟩ := loop_spec (ok_of hI) hs body hb h3 (s.entries []) n _ g M [] (fun _ h => h) hs
    (fun _ => Iff.rfl) h2 h1 h4
  refine ⟨_, seen, g', M', ?_, fun q => ?_, e1, fun fuel hf => e3 fuel (by simpa using hf)⟩
  · rw [List.pairwise_map]
    exact Sh.entries_sorted [] (.inr hs.inv.wf)
  · rw [hs.mem, List.mem_map]
    constructor
    · rintro ⟨⟨q, x, c⟩, h, rfl⟩; exact ⟨x, c, h⟩
    · rintro ⟨x, c, h⟩; exact ⟨_, h, rfl⟩

/-- a loop body that releases the entry just seen -/
def releaseSeen {P : Pkg} {L : Type} (seen : List (Option (Entry P L))) : List (Op P L) :=
  match seen.getLast? with
  | some (some e) => [.release e.id]
  | _ => []

/-- a new tree on which the calls are made, then the loop -/
def session (I : Impl) (length : Nat) (os : List (Op I.P Bool)) (body : List (Option (Entry I.P Bool)) → List (Op I.P Bool)) :
    Out (List (Option (Entry I.P Bool)) × GTree I Bool) :=
  match new I Bool length with
  | none => .panic "no tree"
  | some g => do
    let g ← g.execs os
    g.iterate body 10

/-- **C85, violated** A loop that releases the entries it visits panics: `Next` does not find its way back from the
node that was removed. -/
theorem C85_release_violated :
    session tree16 4 [.claim ⟨3, 16⟩ true] releaseSeen = .panic "unexpected state" ∧
    session tree32 4 [.claim ⟨3, 32⟩ true] releaseSeen = .panic "unexpected state" := by
  constructor <;> rfl

/-- **C85, violated** So does a loop that claims a prefix above the one it has reached. -/
theorem C85_claim_violated :
    session tree16 4 [.claim ⟨3, 16⟩ true] (fun _ => [.claim ⟨0, 12⟩ true]) = .panic "unexpected state" ∧
    session tree32 4 [.claim ⟨3, 32⟩ true] (fun _ => [.claim ⟨0, 28⟩ true]) = .panic "unexpected state" := by
  constructor <;> rfl

/-- **C85, violated** (tree16 and tree32 of length 4) The loop releases the first entry and claims another prefix. It ends
having visited nothing else, although 8/13 (8/29) is claimed all the time: `Get` finds it afterwards. -/
theorem C85_omits_violated :
    (∃ g, session tree16 4 [.claim ⟨0, 16⟩ true, .claim ⟨8, 13⟩ true]
        (fun seen => if seen.length = 1 then [.release ⟨0, 16⟩, .claim ⟨8, 16⟩ true] else []) =
          .ok ([some ⟨⟨0, 16⟩, true⟩], g) ∧ g.get ⟨8, 13⟩ = .ok (some ⟨⟨8, 13⟩, true⟩)) ∧
    ∃ g, session tree32 4 [.claim ⟨0, 32⟩ true, .claim ⟨8, 29⟩ true]
        (fun seen => if seen.length = 1 then [.release ⟨0, 32⟩, .claim ⟨8, 32⟩ true] else []) =
          .ok ([some ⟨⟨0, 32⟩, true⟩], g) ∧ g.get ⟨8, 29⟩ = .ok (some ⟨⟨8, 29⟩, true⟩) :=
  ⟨⟨_, rfl, rfl⟩, _, rfl, rfl⟩

theorem reach_claim (hI : I = tree16 ∨ I = tree32) {length : Nat} {g : GTree I L} {M : Map I.P L} (hr : Reach I length g M)
    {id : MyId I.P} (h1 : id.len ≤ I.P.W) (h2 : id.id.toNat < 2 ^ length) (l : L) (hroom : Room (put M id l)) :
    ∃ g', Reach I length g' (put M id l) := by
  obtain ⟨g', e, _⟩ := (claim_spec (ok_of hI) (hr.ginv hI) h1 l).1 h2 hroom
  refine ⟨g', .step hr (o := .claim id l) (r := .done) h1 ?_ ?_ hroom⟩
  · show (g.claimID id l >>= _) = _
    rw [e]; rfl
  · show if id.id.toNat < 2 ^ length then _ else _
    rw [if_pos h2]; exact ⟨rfl, rfl⟩

-- the hypotheses of the partial theorem: two claimed prefixes; the loop updates the second one, then sees the new labels
example : ∃ (g : GTree tree16 Bool) (M : Map tree16.P Bool), Reach tree16 4 g M ∧ M (pre (P := tree16.P) ⟨3, 16⟩) ≠ none ∧
    M (pre (P := tree16.P) ⟨8, 13⟩) ≠ none := by
  obtain ⟨g1, r1⟩ := reach_claim (.inl rfl) (.new (g := ⟨newTree id16, 15, 4⟩) rfl : Reach tree16 4 _ _) (id := ⟨3, 16⟩)
    (by decide) (by decide) true (fun h => by cases h)
  obtain ⟨g2, r2⟩ := reach_claim (.inl rfl) r1 (id := ⟨8, 13⟩) (by decide) (by decide) true (fun h => by cases h)
  refine ⟨g2, _, r2, ?_, ?_⟩
  · unfold put
    split
    · exact nofun
    · rw [if_pos rfl]; exact nofun
  · unfold put
    rw [if_pos rfl]; exact nofun
example : session tree16 4 [.claim ⟨3, 16⟩ true, .claim ⟨8, 13⟩ true] (updates fun _ => [(⟨8, 13⟩, false)]) =
    .ok ([some ⟨⟨3, 16⟩, true⟩, some ⟨⟨8, 13⟩, false⟩], (match session tree16 4 [.claim ⟨3, 16⟩ true, .claim ⟨8, 13⟩ true]
      (updates fun _ => [(⟨8, 13⟩, false)]) with | .ok (_, g) => g | _ => ⟨newTree id16, 0, 0⟩)) := rfl

end Verif.GTree
