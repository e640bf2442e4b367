import Verif.Conc.Bounded
import Verif.Conc.TermProps
import Verif.Tree.EndProps
import Verif.Conc.TreeTidy

/-! The loops of the trees of claimed prefixes that take no lock end once no further calls are started (C93). -/

set_option linter.unusedSectionVars false
namespace Verif.Conc
open Verif.Id Verif.GTree
open Verif.Tree (Out newTree Inv VAll WidthOk wgt need Ranked getV widthOk_of)

variable {I : Impl} {L : Type} [Labels L] {N : Nat}

/-! ### Sections -/

/-- the rounds that suffice after `c` steps -/
def rounds (I : Impl) (c : Nat) : Nat := 4 * ((c + 2) * (wgt (2 ^ (I.P.W + 1)) + 2)) + 40

theorem rounds_mono (a b : Nat) (h : a ≤ b) : rounds I a ≤ rounds I b := by
  have := Nat.mul_le_mul_right (wgt (2 ^ (I.P.W + 1)) + 2) (show a + 2 ≤ b + 2 by omega)
  unfold rounds
  omega

abbrev costC (m : GTree I L) (d : TClient I L) : Nat := cost m (d.compile tsec)

abbrev BdC (d : TClient I L) (w c : Nat) : Prop := Bd Tidy (rounds I) (d.compile tsec) w c

theorem BdC.up {d : TClient I L} {w c : Nat} (h : BdC d w c) {c' : Nat} (hc : c ≤ c') : BdC d w c' :=
  Bd.mono rounds_mono h (Nat.le_refl _) hc

theorem BdC.ret (r : TReply I L) (w c : Nat) : BdC (.ret r) w c := by
  show 1 ≤ rounds I c
  unfold rounds
  omega

/-- sections that only read -/
def TSec.Reads : TSec I L → Prop
  | .get _ | .children _ | .parents _ | .iterate => True
  | _ => False

/-- sections that change the tree, with ids that fit -/
def TSec.Fit : TSec I L → Prop
  | .set id _ => id.len ≤ I.P.W
  | .del id _ => id.len ≤ I.P.W
  | .delAll es => ∀ e ∈ es, e.id.len ≤ I.P.W
  | _ => False

theorem costC_call {m : GTree I L} {s : TSec I L} (hs : s.Reads ∨ s.Fit) {k : TSecR I L → TClient I L} {D : Nat}
    (hk : ∀ r, costC m (k r) ≤ D) : costC m (.call s k) ≤ D + 6 := by
  cases s with
  | get id => exact Nat.add_le_add_right (hk (.ofFound (m.get id))) 6
  | children id => exact Nat.add_le_add_right (hk (.ofList (m.children id))) 6
  | parents id => exact Nat.add_le_add_right (hk (.ofList (m.parents id))) 6
  | iterate => exact Nat.le_trans (Nat.add_le_add_right (hk .ok) 3) (by omega)
  | set id l => show 4 ≤ D + 6; omega
  | del id e => show 4 ≤ D + 6; omega
  | delAll es => show 4 ≤ D + 6; omega
  | setAll l ids => exact hs.elim False.elim False.elim

theorem BdC.read {s : TSec I L} (hs : s.Reads) {k : TSecR I L → TClient I L} {w c D : Nat}
    (hc : ∀ m r, Tidy m → costC m (k r) ≤ D) (hD : D + 6 ≤ rounds I c) (hk : ∀ r, BdC (k r) w c) : BdC (.call s k) w c := by
  have hm : ∀ i, rounds I c ≤ rounds I (c + i) := fun i => rounds_mono _ _ (by omega)
  have h1 := hm 1
  have h2 := hm 2
  have h3 := hm 3
  have h4 := hm 4
  have h5 := hm 5
  have key : ∀ f : GTree I L → TSecR I L,
      Bd Tidy (rounds I) ((withRLock (titerateP.bind fun _ => get f)).bind fun r => (k r).compile tsec) w c := by
    intro f
    refine ⟨fun m h => ?_, fun m h => ?_, fun m h => ?_, fun m0 h0 => ⟨fun m h => ?_, fun m h => ?_, fun m h => ⟨fun m' h' => ?_, ?_⟩⟩⟩
    · exact Nat.le_trans (Nat.add_le_add_right (hc m (f m) h) 6) hD
    · exact Nat.le_trans (Nat.add_le_add_right (hc m (f m) h) 5) (show _ ≤ rounds I (c + 1) by omega)
    · exact Nat.le_trans (Nat.add_le_add_right (hc m (f m) h) 4) (show _ ≤ rounds I (c + 2) by omega)
    · exact Nat.le_trans (Nat.add_le_add_right (hc m (f m) h) 3) (show _ ≤ rounds I (c + 3) by omega)
    · exact Nat.le_trans (Nat.add_le_add_right (hc m (f m) h) 2) (show _ ≤ rounds I (c + 4) by omega)
    · exact Nat.le_trans (Nat.add_le_add_right (hc m' (f m) h') 1) (show _ ≤ rounds I (c + 5) by omega)
    · exact (hk _).up (by omega)
  cases s with
  | get id => exact key _
  | children id => exact key _
  | parents id => exact key _
  | iterate =>
    refine ⟨fun m h => ?_, fun m h => ?_, fun m h => ⟨fun m' h' => ?_, ?_⟩⟩
    · exact Nat.le_trans (Nat.add_le_add_right (hc m .ok h) 3) (show _ ≤ rounds I c by omega)
    · exact Nat.le_trans (Nat.add_le_add_right (hc m .ok h) 2) (show _ ≤ rounds I (c + 1) by omega)
    · exact Nat.le_trans (Nat.add_le_add_right (hc m' .ok h') 1) (show _ ≤ rounds I (c + 2) by omega)
    · exact (hk _).up (by omega)
  | _ => exact hs.elim

theorem BdC.write (hP : WidthOk I.P.W) {s : TSec I L} (hs : s.Fit) {k : TSecR I L → TClient I L} {w c D : Nat}
    (hc : ∀ m r, Tidy m → costC m (k r) ≤ D) (hD : D + 6 ≤ rounds I c) (hk : ∀ r, BdC (k r) w c) : BdC (.call s k) (w + 1) c := by
  have hm : ∀ i, rounds I c ≤ rounds I (c + i) := fun i => rounds_mono _ _ (by omega)
  have h1 := hm 1
  have h2 := hm 2
  have h3 := hm 3
  have h4 := hm 4
  have key : ∀ f : GTree I L → Out (GTree I L), (∀ m, Tidy m → Tidy (after m (f m))) →
      Bd Tidy (rounds I) ((withLock (changeP f)).bind fun r => (k r).compile tsec) (w + 1) c := by
    intro f hf
    refine ⟨fun m h => ?_, fun m h => ?_, fun m h => ⟨?_, w, rfl, hf, fun m' h' => ?_, ?_⟩⟩
    · show 4 ≤ rounds I c; omega
    · show 2 ≤ rounds I (c + 1); omega
    · show 1 ≤ rounds I (c + 2); omega
    · have := hc m' (TSecR.ofTree (f m)) h'; show costC m' (k (.ofTree (f m))) + 1 ≤ rounds I (c + 3); omega
    · exact (hk _).up (by omega)
  cases s with
  | set id l => exact key _ fun m h => h.set hP hs l
  | del id e => exact key _ fun m h => h.after fun m' he => h.del hP hs he
  | delAll es => exact key _ fun m h => h.after fun m' he => h.delAll hP hs he
  | _ => exact hs.elim

/-! ### Loops -/

theorem costC_nextC {m : GTree I L} {r : Nat → Nat} (hr : Ranked m.tree.nodes r) {k : Bool → Tree.Iter → TClient I L} {D : Nat}
    (hD : 1 ≤ D) (hf : ∀ it, it.Pos → costC m (k true it) ≤ 4 * need m.tree.nodes r it + D + 6)
    (he : ∀ it, costC m (k false it) ≤ D) :
    ∀ (n : Nat) (it : Tree.Iter), it.Pos → costC m (nextC n it k) ≤ 4 * need m.tree.nodes r it + D + 3 := by
  intro n
  induction n with
  | zero => intro it _; show 1 ≤ _; omega
  | succ n ih =>
    intro it hp
    show costC m (match Tree.round m.tree it with
      | .ok (.cont it) => nextC n it k
      | .ok (.found it) => k true it
      | .ok (.finished it) => k false it
      | _ => .ret .panic) + 1 ≤ _
    cases hx : Tree.round m.tree it with
    | ok x =>
      cases x with
      | cont it' =>
        obtain ⟨h1, h2, _⟩ := Tree.round_need hr hp hx rfl
        have := ih it' h2
        simp only
        omega
      | found it' =>
        obtain ⟨h1, h2, _⟩ := Tree.round_need hr hp hx rfl
        have := hf it' h2
        simp only
        omega
      | finished it' =>
        have := he it'
        simp only
        omega
    | _ => show 2 ≤ _; omega

/-- a body of a loop that makes at most two steps -/
structure BodyOk {A : Type} (ok : A → Prop) (body : A → Nat → (A → TClient I L) → TClient I L) : Prop where
  cost : ∀ (m : GTree I L) acc i k D, 1 ≤ D → (∀ acc, costC m (k acc) ≤ D) → costC m (body acc i k) ≤ D + 2
  bd : ∀ acc i k w c, ok acc → (∀ m, Tidy m → ∃ D, 1 ≤ D ∧ D + 2 ≤ rounds I c ∧ ∀ acc, costC m (k acc) ≤ D) →
    (∀ acc, ok acc → BdC (k acc) w c) → BdC (body acc i k) w c

theorem costC_loopC {m : GTree I L} {r : Nat → Nat} (hr : Ranked m.tree.nodes r) {A : Type} {ok : A → Prop}
    {body : A → Nat → (A → TClient I L) → TClient I L} (hb : BodyOk ok body) {k : A → TClient I L} {D : Nat}
    (hD : 1 ≤ D) (hk : ∀ acc, costC m (k acc) ≤ D) :
    ∀ (n : Nat) (it : Tree.Iter) (acc : A), it.Pos → costC m (loopC N body n it acc k) ≤ 4 * need m.tree.nodes r it + D + 4 := by
  intro n
  induction n with
  | zero => intro it acc _; show 1 ≤ _; omega
  | succ n ih =>
    intro it acc hp
    refine Nat.add_le_add_right (costC_nextC hr hD ?_ ?_ _ it hp) 1
    · intro it' hp'
      show costC m (body acc it'.index fun acc => loopC N body n it' acc k) ≤ _
      exact Nat.le_trans (hb.cost m acc _ _ _ (by omega) fun acc => ih it' acc hp') (by omega)
    · intro it'
      exact hk acc

theorem need_tidy {m : GTree I L} (h : Tidy m) : ∃ r, Ranked m.tree.nodes r ∧ ∀ (it : Tree.Iter) (c : Nat), it.hist.length ≤ c →
    4 * need m.tree.nodes r it + 40 ≤ rounds I c := by
  obtain ⟨s, hs⟩ := h.inv
  obtain ⟨r, hr⟩ := hs.ranked
  refine ⟨r, hr, fun it c hc => ?_⟩
  have h1 := Tree.need_le hr it
  have h2 := Tree.wgt_mono h.len
  have h3 : (it.hist.length + 2) * (wgt m.tree.nodes.length + 2) ≤ (c + 2) * (wgt (2 ^ (I.P.W + 1)) + 2) :=
    Nat.mul_le_mul (by omega) (by omega)
  unfold rounds
  omega

theorem BdC.peek {f : GTree I L → TClient I L} {w c : Nat} (hc : ∀ m, Tidy m → costC m (f m) + 1 ≤ rounds I c)
    (h : ∀ m, Tidy m → BdC (f m) w (c + 1)) : BdC (.peek f) w c := ⟨hc, h⟩

theorem BdC.next {k : Bool → Tree.Iter → TClient I L} {w D : Nat} (hD : 1 ≤ D) (hD' : D ≤ 20)
    (hcf : ∀ m, Tidy m → ∀ r, Ranked m.tree.nodes r → ∀ it : Tree.Iter, it.Pos →
      costC m (k true it) ≤ 4 * need m.tree.nodes r it + D + 6)
    (hce : ∀ m it, Tidy m → costC m (k false it) ≤ D)
    (hf : ∀ (it : Tree.Iter) c, it.Pos → it.hist.length ≤ c → BdC (k true it) w c)
    (he : ∀ it c, BdC (k false it) w c) :
    ∀ (n : Nat) (it : Tree.Iter) (c : Nat), it.Pos → it.hist.length ≤ c → BdC (nextC n it k) w c := by
  intro n
  induction n with
  | zero => exact fun _ c _ _ => .ret _ _ _
  | succ n ih =>
    intro it c hp hh
    refine .peek (fun m hm => ?_) (fun m hm => ?_)
    · obtain ⟨r, hr, h1⟩ := need_tidy hm
      have h2 := costC_nextC hr hD (hcf m hm r hr) (fun it => hce m it hm) (n + 1) it hp
      have h3 := h1 it c hh
      exact Nat.le_trans h2 (by omega)
    · obtain ⟨r, hr, h1⟩ := need_tidy hm
      cases hx : Tree.round m.tree it with
      | ok x =>
        cases x with
        | cont it' =>
          obtain ⟨_, h2, h3⟩ := Tree.round_need hr hp hx rfl
          exact ih it' (c + 1) h2 (by omega)
        | found it' =>
          obtain ⟨_, h2, h3⟩ := Tree.round_need hr hp hx rfl
          exact hf it' (c + 1) h2 (by omega)
        | finished it' => exact he it' (c + 1)
      | _ => exact .ret _ _ _

theorem BdC.loop {A : Type} {ok : A → Prop} {body : A → Nat → (A → TClient I L) → TClient I L} (hb : BodyOk ok body)
    {k : A → TClient I L} {w D : Nat} (hD : 1 ≤ D) (hD' : D ≤ 20) (hc : ∀ m acc, Tidy m → costC m (k acc) ≤ D)
    (hk : ∀ acc c, ok acc → BdC (k acc) w c) :
    ∀ (n : Nat) (it : Tree.Iter) (acc : A) (c : Nat), it.Pos → it.hist.length ≤ c → ok acc → BdC (loopC N body n it acc k) w c := by
  intro n
  induction n with
  | zero => exact fun _ _ c _ _ _ => .ret _ _ _
  | succ n ih =>
    intro it acc c hp hh ha
    refine .peek (fun m hm => ?_) (fun m hm => ?_)
    · obtain ⟨r, hr, h1⟩ := need_tidy hm
      have h2 := costC_loopC (N := N) hr hb hD (fun acc => hc m acc hm) (n + 1) it acc hp
      have h3 := h1 it c hh
      exact Nat.le_trans h2 (by omega)
    · refine .next hD hD' ?_ ?_ ?_ ?_ _ it (c + 1) hp (by omega)
      · intro m hm r hr it' hp'
        show costC m (body acc it'.index fun acc => loopC N body n it' acc k) ≤ _
        exact Nat.le_trans (hb.cost m acc _ _ _ (by omega) fun acc => costC_loopC hr hb hD (fun acc => hc m acc hm) n it' acc hp')
          (by omega)
      · exact fun m it' hm => hc m acc hm
      · intro it' c' hp' hh'
        show BdC (body acc it'.index fun acc => loopC N body n it' acc k) w c'
        refine hb.bd acc _ _ w c' ha (fun m hm => ?_) fun acc ha => ih it' acc c' hp' hh' ha
        obtain ⟨r, hr, h1⟩ := need_tidy hm
        have h3 := h1 it' c' hh'
        exact ⟨4 * need m.tree.nodes r it' + D + 4, by omega, by omega,
          fun acc => costC_loopC hr hb hD (fun acc => hc m acc hm) n it' acc hp'⟩
      · exact fun it' c' => hk acc c' ha

theorem costC_walkC {m : GTree I L} {r : Nat → Nat} (hr : Ranked m.tree.nodes r) {A : Type} {ok : A → Prop}
    {body : A → Nat → (A → TClient I L) → TClient I L} (hb : BodyOk ok body) {k : A → TClient I L} {D : Nat}
    (hD : 1 ≤ D) (hk : ∀ acc, costC m (k acc) ≤ D) (acc : A) :
    costC m (walkC N body acc k) ≤ 4 * need m.tree.nodes r Tree.Tree.iterate + D + 5 :=
  Nat.add_le_add_right (costC_loopC hr hb hD hk _ _ acc Tree.iterate_pos) 1

theorem BdC.walk {A : Type} {ok : A → Prop} {body : A → Nat → (A → TClient I L) → TClient I L} (hb : BodyOk ok body)
    {k : A → TClient I L} {w D : Nat} (hD : 1 ≤ D) (hD' : D ≤ 20) (hc : ∀ m acc, Tidy m → costC m (k acc) ≤ D)
    (hk : ∀ acc c, ok acc → BdC (k acc) w c) {acc : A} (ha : ok acc) (c : Nat) : BdC (walkC N body acc k) w c := by
  refine .peek (fun m hm => ?_) (fun m hm => .loop hb hD hD' hc hk _ _ acc _ Tree.iterate_pos (Nat.zero_le _) ha)
  obtain ⟨r, hr, h1⟩ := need_tidy hm
  have h2 := costC_walkC (N := N) hr hb hD (fun acc => hc m acc hm) acc
  have h3 := h1 Tree.Tree.iterate c (Nat.zero_le _)
  exact Nat.le_trans h2 (by omega)

/-! ### The bodies -/

theorem costC_entryC {m : GTree I L} {i : Nat} {k : Option (Entry I.P L) → TClient I L} {D : Nat} (hD : 1 ≤ D)
    (hk : ∀ v, costC m (k v) ≤ D) : costC m (entryC i k) ≤ D + 1 := by
  refine Nat.add_le_add_right (?_ : costC m (match m.tree.valsForNode i with
    | .ok (v :: _) => k v
    | _ => .ret .panic) ≤ D) 1
  split
  · exact hk _
  · exact hD

theorem BdC.entry {i : Nat} {k : Option (Entry I.P L) → TClient I L} {w c : Nat}
    (hc : ∀ m, Tidy m → ∃ D, 1 ≤ D ∧ D + 1 ≤ rounds I c ∧ ∀ v, costC m (k v) ≤ D)
    (hk : ∀ v, OkEntry v → BdC (k v) w (c + 1)) : BdC (entryC i k) w c := by
  refine .peek (fun m hm => ?_) fun m hm => ?_
  · obtain ⟨D, h1, h2, h3⟩ := hc m hm
    exact Nat.le_trans (costC_entryC h1 h3) h2
  · cases hv : m.tree.valsForNode i with
    | ok l =>
      cases l with
      | nil => exact .ret _ _ _
      | cons v l => exact hk v (hm.vals.valsForNode hv v (by simp))
    | _ => exact .ret _ _ _

theorem allBody_ok : BodyOk (I := I) (L := L) (fun _ => True) allBody where
  cost m acc i k D hD hk := Nat.le_trans (costC_entryC hD fun v => hk _) (by omega)
  bd acc i k w c _ hc hk := by
    refine .entry (fun m hm => ?_) fun v _ => (hk _ trivial).up (by omega)
    obtain ⟨D, h1, h2, h3⟩ := hc m hm
    exact ⟨D, h1, by omega, fun v => h3 _⟩

theorem sizeBody_ok : BodyOk (I := I) (L := L) (fun _ => True) sizeBody where
  cost m acc i k D hD hk := Nat.le_trans (hk _) (by omega)
  bd acc i k w c _ _ hk := hk _ trivial

theorem labelBody_ok (sel : L → Bool) : BodyOk (I := I) (L := L) (fun acc => ∀ v ∈ acc, OkEntry v) (labelBody sel) where
  cost m acc i k D hD hk := by
    refine costC_entryC (D := D + 1) (by omega) fun v => ?_
    cases v with
    | none => show 1 ≤ _; omega
    | some e =>
      show costC m (if sel e.labels then entryC i fun v => k (acc ++ [v]) else k acc) ≤ _
      split
      · exact costC_entryC hD fun v => hk _
      · exact Nat.le_trans (hk _) (by omega)
  bd acc i k w c ha hc hk := by
    have hm1 : rounds I c ≤ rounds I (c + 1) := rounds_mono _ _ (by omega)
    refine .entry (fun m hm => ?_) fun v hv => ?_
    · obtain ⟨D, h1, h2, h3⟩ := hc m hm
      refine ⟨D + 1, by omega, by omega, fun v => ?_⟩
      cases v with
      | none => show 1 ≤ _; omega
      | some e =>
        show costC m (if sel e.labels then entryC i fun v => k (acc ++ [v]) else k acc) ≤ _
        split
        · exact costC_entryC h1 fun v => h3 _
        · exact Nat.le_trans (h3 _) (by omega)
    · cases v with
      | none => exact .ret _ _ _
      | some e =>
        show BdC (if sel e.labels then entryC i fun v => k (acc ++ [v]) else k acc) w (c + 1)
        split
        · refine .entry (fun m hm => ?_) fun v hv => ?_
          · obtain ⟨D, h1, h2, h3⟩ := hc m hm
            exact ⟨D, h1, by omega, fun v => h3 _⟩
          · refine (hk _ fun x hx => ?_).up (by omega)
            rcases List.mem_append.1 hx with hx | hx
            · exact ha x hx
            · rw [List.mem_singleton.1 hx]; exact hv
        · exact (hk _ ha).up (by omega)

/-! ### The calls -/

/-- the ids of a call fit; `ClaimRange` is left out -/
def TCall.Ends : TCall I L → Prop
  | .claim id _ => id.len ≤ I.P.W
  | .update id _ => id.len ≤ I.P.W
  | .release id => id.len ≤ I.P.W
  | .claimRange _ _ => False
  | _ => True

theorem costC_replyDone (m : GTree I L) (k : TReply I L) (r : TSecR I L) : costC m (replyDone k r) ≤ 1 := by
  cases r <;> exact Nat.le_refl _

theorem BdC.replyDone (k : TReply I L) (r : TSecR I L) (w c : Nat) : BdC (replyDone k r) w c := by
  cases r <;> exact .ret _ _ _

theorem rounds_ge (c : Nat) : 40 ≤ rounds I c := by unfold rounds; omega

theorem BdC.change (hP : WidthOk I.P.W) {s : TSec I L} (hs : s.Fit) (x : TReply I L) (c : Nat) : BdC (.call s (Conc.replyDone x)) 1 c :=
  .write hP hs (fun m r _ => costC_replyDone m x r) (by have := rounds_ge (I := I) c; omega) fun r => .replyDone x r 0 c

theorem BdC.release (hP : WidthOk I.P.W) {es : List (Option (Entry I.P L))} (hes : ∀ v ∈ es, OkEntry v) (c : Nat) : BdC (releaseC es) 1 c := by
  refine .write hP (s := .delAll (beforeNil es)) (fun e he => hes _ (mem_beforeNil he) e rfl) (D := 1) (fun m r _ => ?_) (by have := rounds_ge (I := I) c; omega) fun r => ?_
  · split
    · exact costC_replyDone m _ r
    · exact Nat.le_refl _
  · split
    · exact .replyDone _ r 0 c
    · exact .ret _ _ _

theorem costC_releaseC (m : GTree I L) (es : List (Option (Entry I.P L))) : costC m (releaseC es) ≤ 7 := by
  show 4 ≤ 7; omega

/-- `iterate` and the loop -/
theorem BdC.iter {A : Type} {ok : A → Prop} {body : A → Nat → (A → TClient I L) → TClient I L} (hb : BodyOk ok body)
    {k : A → TClient I L} {w D : Nat} (hD : 1 ≤ D) (hD' : D ≤ 20) (hc : ∀ m acc, Tidy m → costC m (k acc) ≤ D)
    (hk : ∀ acc c, ok acc → BdC (k acc) w c) {acc : A} (ha : ok acc) (c : Nat) :
    BdC (.call .iterate fun _ => walkC N body acc k) w c := by
  refine .read (s := .iterate) trivial (D := rounds I c - 6) (fun m _ hm => ?_) (by have := rounds_ge (I := I) c; omega)
    fun _ => .walk hb hD hD' hc hk ha c
  obtain ⟨r, hr, h1⟩ := need_tidy hm
  have h2 := costC_walkC (N := N) hr hb hD (fun acc => hc m acc hm) acc
  have h3 := h1 Tree.Tree.iterate c (Nat.zero_le _)
  exact Nat.le_trans h2 (by omega)

theorem bd_tcode (hP : WidthOk I.P.W) (g : GTree I L) {c : TCall I L} (hc : c.Ends) : BdC (tcode N g c) 1 0 := by
  have h40 := rounds_ge (I := I) 0
  cases c with
  | clone => exact .peek (fun m _ => show 2 ≤ _ by omega) fun m _ => .ret _ _ _
  | get id =>
    refine .read (s := .get id) trivial (D := 1) (fun m r _ => ?_) (by omega) fun r => ?_
    · split <;> exact Nat.le_refl _
    · split <;> exact .ret _ _ _
  | children id =>
    refine .read (s := .children id) trivial (D := 1) (fun m r _ => ?_) (by omega) fun r => ?_
    · split <;> exact Nat.le_refl _
    · split <;> exact .ret _ _ _
  | parents id =>
    refine .read (s := .parents id) trivial (D := 1) (fun m r _ => ?_) (by omega) fun r => ?_
    · split <;> exact Nat.le_refl _
    · split <;> exact .ret _ _ _
  | update id l =>
    simp only [tcode]
    split
    · exact .ret _ _ _
    · exact .change hP (s := .set id l) hc _ _
  | claim id l =>
    simp only [tcode]
    split
    · exact .ret _ _ _
    · exact .change hP (s := .set id l) hc _ _
  | claimFree l =>
    simp only [tcode]
    split
    · refine .read (s := .children _) trivial (D := 10) (fun m r _ => ?_) (by omega) fun r => ?_
      · split
        · split
          · next x _ =>
            exact Nat.le_trans (costC_call (s := .set ⟨x, I.P.W⟩ l) (.inr (Nat.le_refl I.P.W)) (costC_replyDone m _)) (by omega)
          · show 1 ≤ 10; omega
          · show 1 ≤ 10; omega
        · show 1 ≤ 10; omega
      · split
        · split
          · next x _ => exact .change hP (s := .set ⟨x, I.P.W⟩ l) (Nat.le_refl I.P.W) _ _
          · exact .ret _ _ _
          · exact .ret _ _ _
        · exact .ret _ _ _
    · exact .ret _ _ _
  | claimRange s l => exact hc.elim
  | release id =>
    simp only [tcode]
    split
    · exact .ret _ _ _
    · refine .read (s := .get id) trivial (D := 10) (fun m r _ => ?_) (by omega) fun r => ?_
      · split
        · next e => exact Nat.le_trans (costC_call (s := .del id e) (.inr hc) (costC_replyDone m _)) (by omega)
        · show 1 ≤ 10; omega
        · show 1 ≤ 10; omega
      · split
        · exact .change hP (s := .del id _) hc _ _
        · exact .ret _ _ _
        · exact .ret _ _ _
  | releaseByLabel sel =>
    exact .iter (labelBody_ok sel) (D := 7) (by omega) (by omega) (fun m es _ => costC_releaseC m es)
      (fun es c h => .release hP h c) (by simp) 0
  | getByLabel sel =>
    exact .iter (labelBody_ok sel) (D := 1) (by omega) (by omega) (fun m es _ => Nat.le_refl _)
      (fun es c h => .ret _ _ _) (by simp) 0
  | getAll =>
    exact .iter allBody_ok (D := 1) (by omega) (by omega) (fun m es _ => Nat.le_refl _)
      (fun es c h => .ret _ _ _) trivial 0
  | size =>
    exact .iter sizeBody_ok (D := 1) (by omega) (by omega) (fun m es _ => Nat.le_refl _)
      (fun es c h => .ret _ _ _) trivial 0

/-! ### The limit of the model -/

abbrev FarC (d : TClient I L) (n : Nat) : Prop := Far (· = TReply.stuck) (d.compile tsec) n

theorem FarC.ret {r : TReply I L} (h : r ≠ .stuck) (n : Nat) : FarC (.ret r) n := fun hr => absurd hr h

theorem FarC.call {s : TSec I L} {k : TSecR I L → TClient I L} {n : Nat} (h : ∀ r, FarC (k r) n) : FarC (.call s k) n := Far.bind h

theorem FarC.peek {f : GTree I L → TClient I L} {n : Nat} (h : ∀ m, FarC (f m) (n - 1)) : FarC (.peek f) n := .inr h

theorem FarC.down {d : TClient I L} {n n' : Nat} (h : FarC d n) (hn : n' ≤ n) : FarC d n' := Far.mono h hn

theorem FarC.next {k : Bool → Tree.Iter → TClient I L} : ∀ {n M : Nat} {it : Tree.Iter}, M ≤ n → (∀ b it, FarC (k b it) M) →
    FarC (nextC n it k) M := by
  intro n
  induction n with
  | zero => intro M it h _; cases Nat.le_zero.1 h; exact Far.zero _
  | succ n ih =>
    intro M it h hk
    refine .peek fun m => ?_
    have hk' : ∀ b it, FarC (k b it) (M - 1) := fun b it => (hk b it).down (by omega)
    split
    · exact ih (by omega) hk'
    · exact hk' _ _
    · exact hk' _ _
    · exact .ret (by simp) _

theorem FarC.loop {A : Type} {body : A → Nat → (A → TClient I L) → TClient I L}
    (hb : ∀ acc i k M, (∀ acc, FarC (k acc) M) → FarC (body acc i k) M) {k : A → TClient I L} :
    ∀ {n M : Nat} {it : Tree.Iter} {acc : A}, M ≤ n → M ≤ N → (∀ acc, FarC (k acc) M) → FarC (loopC N body n it acc k) M := by
  intro n
  induction n with
  | zero => intro M it acc h _ _; cases Nat.le_zero.1 h; exact Far.zero _
  | succ n ih =>
    intro M it acc h hN hk
    refine .peek fun m => .next (by omega) fun b it => ?_
    split
    · exact hb _ _ _ _ fun acc => ih (by omega) (by omega) fun acc => (hk acc).down (by omega)
    · exact (hk acc).down (by omega)

theorem FarC.walk {A : Type} {body : A → Nat → (A → TClient I L) → TClient I L}
    (hb : ∀ acc i k M, (∀ acc, FarC (k acc) M) → FarC (body acc i k) M) {k : A → TClient I L} {acc : A}
    (hk : ∀ acc, FarC (k acc) N) : FarC (walkC N body acc k) N :=
  .peek fun m => .loop hb (by omega) (by omega) fun acc => (hk acc).down (by omega)

theorem FarC.entry {i : Nat} {k : Option (Entry I.P L) → TClient I L} {M : Nat} (h : ∀ v, FarC (k v) M) : FarC (entryC i k) M := by
  refine .peek fun m => ?_
  split
  · exact (h _).down (by omega)
  · exact .ret (by simp) _

theorem FarC.label {sel : L → Bool} {acc : List (Option (Entry I.P L))} {i : Nat} {k : List (Option (Entry I.P L)) → TClient I L}
    {M : Nat} (h : ∀ acc, FarC (k acc) M) : FarC (labelBody sel acc i k) M := by
  refine .entry fun v => ?_
  split
  · exact .ret (by simp) _
  · split
    · exact .entry fun v => h _
    · exact h _

theorem FarC.replyDone {x : TReply I L} (hx : x ≠ .stuck) (r : TSecR I L) (n : Nat) : FarC (Conc.replyDone x r) n := by
  cases r with
  | ok => exact .ret hx _
  | _ => exact .ret (by simp) _

theorem far_tcode (g : GTree I L) (c : TCall I L) : FarC (tcode N g c) N := by
  cases c with
  | clone => exact .peek fun m => .ret (by simp) _
  | get id | children id | parents id =>
    refine .call fun r => ?_
    split <;> exact .ret (by simp) _
  | update id l | claim id l =>
    simp only [tcode]
    split
    · exact .ret (by simp) _
    · exact .call fun r => .replyDone (by simp) r _
  | claimFree l =>
    simp only [tcode]
    split
    · refine .call fun r => ?_
      split
      · split
        · exact .call fun r => .replyDone (by simp) r _
        · exact .ret (by simp) _
        · exact .ret (by simp) _
      · exact .ret (by simp) _
    · exact .ret (by simp) _
  | claimRange s l => exact .ret (by simp) _
  | release id =>
    simp only [tcode]
    split
    · exact .ret (by simp) _
    · refine .call fun r => ?_
      split
      · exact .call fun r => .replyDone (by simp) r _
      · exact .ret (by simp) _
      · exact .ret (by simp) _
  | releaseByLabel sel =>
    refine .call fun _ => .walk (fun _ _ _ _ h => .label h) fun es => .call fun r => ?_
    split
    · exact .replyDone (by simp) r _
    · exact .ret (by simp) _
  | getByLabel sel =>
    refine .call fun _ => .walk (fun _ _ _ _ h => .label h) fun es => .ret ?_ _
    unfold replyList
    split <;> simp
  | getAll => exact .call fun _ => .walk (fun _ _ _ _ h => .entry fun _ => h _) fun es => .ret (by simp) _
  | size => exact .call fun _ => .walk (fun _ _ _ _ h => h _) fun es => .ret (by simp) _

/-! ### C93 -/

/-- **C93 for the trees, the loops without lock**: suppose `k` steps have been made, with ids no longer than the width and
without `ClaimRange`. If no further calls are started then at most `B` further steps are made, whatever the scheduler does and
whatever the number `N` of rounds that the model allows for a loop; and if it allows many then no loop comes to this limit.
So a loop of the code, which has no limit, ends. -/
theorem C93_tree_loops_partial (hP : I.P = id16 ∨ I.P = id32 ∨ I.P = id64) (k : Nat) :
    ∃ B, ∀ (N length : Nat) (g₀ : GTree I L), new I L length = some g₀ → ∀ (g : Cfg (TCall I L) (GTree I L) (TReply I L)) H,
      ExecN (tprog N g₀) g₀ k g H → (∀ n c, Ev.inv n c ∈ H → c.Ends) →
      ∀ j g', OwnsN (tprog N g₀) g j g' → j ≤ B ∧ (k + B < N → ∀ x ∈ g'.th, x.prog ≠ some (.ret .stuck)) := by
  have hW := widthOk_of hP
  refine ⟨stepsB (rounds I) k (k * 1) k (k * rounds I k), fun N length g₀ h0 g H h hS j g' ho => ?_⟩
  have hcode : ∀ c : TCall I L, c.Ends → Bd Tidy (rounds I) (tprog N g₀ c) 1 0 ∧ Far (· = TReply.stuck) (tprog N g₀ c) N := by
    intro c hc
    have h1 := bd_tcode (N := N) hW g₀ hc
    have h2 := far_tcode (N := N) g₀ c
    cases c with
    | claimRange s l => exact hc.elim
    | _ => exact ⟨h1, h2⟩
  obtain ⟨h1, h2⟩ := bounded rounds_mono (Tidy.new h0) hcode h hS ho
  exact ⟨h1, fun hN x hx hr => h2 hN x hx _ hr rfl⟩

/-- **C93 for the trees, part that holds**: with `ClaimID`, `Update`, `GetByLabel`, `GetAll`, `Size`, `ReleaseByLabel` and `Clone`
all calls return, and the loops end by themselves. -/
theorem C93_tree_plain_partial (hP : I.P = id16 ∨ I.P = id32 ∨ I.P = id64) (k : Nat) :
    ∃ B, ∀ (N length : Nat) (g₀ : GTree I L), B < N → new I L length = some g₀ → ∀ (g : Cfg (TCall I L) (GTree I L) (TReply I L)) H,
      ExecN (tprog N g₀) g₀ k g H → (∀ n c, Ev.inv n c ∈ H → c.Plain ∧ c.Ends) →
      AllReturn (tprog N g₀) g ∧ ∀ g', Owns (tprog N g₀) g g' → ∀ x ∈ g'.th, x.prog ≠ some (.ret .stuck) := by
  obtain ⟨B, hB⟩ := C93_tree_loops_partial (L := L) hP k
  refine ⟨k + B, fun N length g₀ hN h0 g H h hS => ⟨?_, fun g' ho => ?_⟩⟩
  · exact all_return TCall.Plain (fun g H h hn => C78_tree_no_deadlock_partial h hn) h.exec fun n c hc => (hS n c hc).1
  · obtain ⟨j, ho⟩ := ho.ownsN
    exact (hB N length g₀ h0 g H h (fun n c hc => (hS n c hc).2) j g' ho).2 hN

/-- `GetAll` is in its loop, `ClaimID` holds the lock -/
example (N : Nat) : ∃ g H, ExecN (tprog N (newG tree16 Bool 4)) (newG tree16 Bool 4) 8 g H ∧
    (∀ n c, Ev.inv n c ∈ H → c.Plain ∧ c.Ends) ∧ g.Pending 0 ∧ g.Pending 1 ∧ new tree16 Bool 4 = some (newG tree16 Bool 4) := by
  have h1 := ((ExecN.init (code := tprog N (newG tree16 Bool 4)) (m₀ := newG tree16 Bool 4)).step (.inv .getAll)).step
    (.inv (.claim ⟨3, 16⟩ true))
  have h2 := (((h1.step (.rlock (n := 0) rfl (by simp [NoWriter]))).step (.read (n := 0) rfl)).step
    (.runlock (n := 0) rfl)).step (.read (n := 0) rfl)
  have h3 := (h2.step (.wait (n := 1) rfl (by simp [NoWriter]))).step (.lock (n := 1) rfl (by simp [NoReader]))
  refine ⟨_, _, h3, ?_, ⟨_, _, rfl, rfl⟩, ⟨_, _, rfl, rfl⟩, rfl⟩
  intro n c hc
  simp only [List.nil_append, List.cons_append, List.append_nil, Option.toList_some, Option.toList_none, List.mem_cons,
    Ev.inv.injEq, List.not_mem_nil, or_false] at hc
  rcases hc with ⟨_, rfl⟩ | ⟨_, rfl⟩
  · exact ⟨trivial, trivial⟩
  · exact ⟨trivial, Nat.le_refl 16⟩

end Verif.Conc
