import Verif.Conc.TreeModel
import Verif.Conc.Keeps
import Verif.Tree.EndProps
import Verif.Tree.ValsAll
import Verif.GTree.Refine

/-! What holds for the tree of claimed prefixes at every moment, and what the loops that take no lock find there. -/

set_option linter.unusedSectionVars false
namespace Verif.Conc
open Verif.Id Verif.GTree
open Verif.Tree (Out newTree Inv VAll WidthOk widthOk_of)

variable {I : Impl} {L : Type} [Labels L] {N : Nat}

/-! ### The tree -/

/-- what holds for the tree at all times -/
structure Tidy (m : GTree I L) : Prop where
  inv : ∃ s, Inv I.P.W m.tree s
  len : m.tree.nodes.length ≤ 2 ^ (I.P.W + 1)
  vals : VAll (fun v : Option (Entry I.P L) => ∀ e, v = some e → e.id.len ≤ I.P.W) m.tree.vals

theorem Tidy.new {n : Nat} {g : GTree I L} (h : new I L n = some g) : Tidy g := by
  unfold GTree.new at h
  split at h
  · cases h
  · cases h
    refine ⟨⟨_, Inv.new I.P⟩, ?_, ?_⟩
    · show 2 ≤ _
      have := Nat.pow_le_pow_right (n := 2) (by omega) (show 1 ≤ I.P.W + 1 by omega)
      omega
    · exact ⟨fun _ h => (nomatch h), fun k e h => (nomatch h)⟩

theorem Tidy.exec (hP : WidthOk I.P.W) {m : GTree I L} (h : Tidy m) {o : Tree.Op I.P (Option (Entry I.P L))} {r} {t'}
    (ho : o.id.len ≤ I.P.W) (he : o.exec m.tree = .ok (r, t'))
    (hv : VAll (fun v : Option (Entry I.P L) => ∀ e, v = some e → e.id.len ≤ I.P.W) t'.vals) : Tidy { m with tree := t' } := by
  obtain ⟨s, hs⟩ := h.inv
  obtain ⟨s', h1, h2, _⟩ := Tree.exec_mem hP hs ho he
  refine ⟨⟨s', h1⟩, ?_, hv⟩
  rcases h2 with h2 | h2
  · have := h.len
    simp only
    omega
  · have h3 := h1.perm.length_eq
    have h4 := h1.wf.few
    simp [h2] at h3
    simp only
    omega

theorem Tidy.set (hP : WidthOk I.P.W) {m : GTree I L} (h : Tidy m) {id : MyId I.P} (hid : id.len ≤ I.P.W) (l : L) :
    Tidy (after m (m.set id ⟨id, l⟩)) := by
  obtain ⟨s, hs⟩ := h.inv
  cases he : m.tree.set id (some ⟨id, l⟩) with
  | ok x =>
    obtain ⟨b, c, t'⟩ := x
    have : m.set id ⟨id, l⟩ = .ok { m with tree := t' } := by unfold GTree.set; rw [he]; rfl
    rw [this]
    refine h.exec hP (o := .set id (some ⟨id, l⟩)) (r := .added b c) hid (by simp only [Tree.Op.exec]; rw [he]; rfl) ?_
    exact h.vals.tset hP hs hid (by rintro e ⟨⟩; exact hid) he
  | _ =>
    have : after m (m.set id ⟨id, l⟩) = m := by unfold GTree.set; rw [he]; rfl
    rw [this]
    exact h

theorem Tidy.del (hP : WidthOk I.P.W) {m m' : GTree I L} (h : Tidy m) {id : MyId I.P} (hid : id.len ≤ I.P.W) {e : Entry I.P L}
    (he : m.del id e = .ok m') : Tidy m' := by
  unfold GTree.del at he
  obtain ⟨⟨d, t'⟩, h1, he⟩ := Tree.Out.of_bind he
  cases he
  exact h.exec hP (o := .delete id _ (some e)) (r := .deleted d) hid (by simp only [Tree.Op.exec]; rw [h1]; rfl) (h.vals.delete h1)

theorem Tidy.delAll (hP : WidthOk I.P.W) {es : List (Entry I.P L)} (hes : ∀ e ∈ es, e.id.len ≤ I.P.W) :
    ∀ {m m' : GTree I L}, Tidy m → m.delAll es = .ok m' → Tidy m' := by
  induction es with
  | nil => intro m m' h he; cases he; exact h
  | cons e es ih =>
    intro m m' h he
    obtain ⟨m1, h1, he⟩ := Tree.Out.of_bind he
    exact ih (fun e he => hes e (by simp [he])) (h.del hP (hes e (by simp)) h1) he

theorem Tidy.after {m : GTree I L} (h : Tidy m) {x : Out (GTree I L)} (hx : ∀ m', x = .ok m' → Tidy m') : Tidy (after m x) := by
  cases x with
  | ok m' => exact hx m' rfl
  | _ => exact h

/-- the entry fits -/
def OkEntry (v : Option (Entry I.P L)) : Prop := ∀ e, v = some e → e.id.len ≤ I.P.W

theorem mem_beforeNil {A : Type} {e : A} : ∀ {es : List (Option A)}, e ∈ beforeNil es → some e ∈ es
  | [], h => nomatch h
  | none :: _, h => nomatch h
  | some x :: es, h => by
    rcases List.mem_cons.1 h with rfl | h
    · simp
    · exact List.mem_cons_of_mem _ (mem_beforeNil h)

/-! ### Sections -/

/-- sections whose arguments fit; `setAll` is left out -/
def TSec.Fits : TSec I L → Prop
  | .set id _ => id.len ≤ I.P.W
  | .del id _ => id.len ≤ I.P.W
  | .delAll es => ∀ e ∈ es, e.id.len ≤ I.P.W
  | .setAll _ _ => False
  | _ => True

/-- sections that keep the tree tidy -/
def TSec.Tidies (x : TSec I L) : Prop := x.Fits ∨ ∃ l ids, x = .setAll l ids ∧ ∀ id ∈ ids, id.len ≤ I.P.W

theorem keeps_changeP {f : GTree I L → Out (GTree I L)} (hf : ∀ m, Tidy m → Tidy (after m (f m))) : Keeps Tidy (changeP f) :=
  .read fun _ _ => .write hf (.ret _)

theorem keeps_setAllP (hP : WidthOk I.P.W) (l : L) : ∀ {ids : List (MyId I.P)}, (∀ id ∈ ids, id.len ≤ I.P.W) → Keeps Tidy (setAllP l ids)
  | [], _ => .ret _
  | id :: ids, h => by
    refine (keeps_changeP fun m hm => hm.set hP (h id (by simp)) l).bind fun r => ?_
    split
    · exact keeps_setAllP hP l fun i hi => h i (by simp [hi])
    · exact .ret _

theorem keeps_tsec (hP : WidthOk I.P.W) {x : TSec I L} (hx : x.Tidies) : Keeps Tidy (tsec x) := by
  have hread : ∀ f : GTree I L → TSecR I L, Keeps Tidy (withRLock (titerateP.bind fun _ => get f)) :=
    fun f => .rlock (.rlock (.read fun _ _ => .runlock (.read fun _ _ => .runlock (.ret _))))
  have hlock : ∀ {p : Prog (GTree I L) (TSecR I L)}, Keeps Tidy p → Keeps Tidy (withLock p) :=
    fun h => .lock (h.bind fun _ => .unlock (.ret _))
  rcases hx with hx | ⟨l, ids, rfl, h⟩
  · cases x with
    | get id => exact hread _
    | children id => exact hread _
    | parents id => exact hread _
    | iterate => exact .rlock (.read fun _ _ => .runlock (.ret _))
    | set id l => exact hlock (keeps_changeP fun m hm => hm.set hP hx l)
    | del id e => exact hlock (keeps_changeP fun m hm => hm.after fun m' he => hm.del hP hx he)
    | delAll es => exact hlock (keeps_changeP fun m hm => hm.after fun m' he => hm.delAll hP hx he)
    | setAll l ids => cases hx
  · exact hlock (keeps_setAllP hP l h)

/-! ### The loop of `ReleaseByLabel` -/

/-- a loop that collects entries, and then releases them -/
inductive Walks : TClient I L → Prop
  | ret (r) : Walks (.ret r)
  | peek {k} : (∀ m, Tidy m → Walks (k m)) → Walks (.peek k)
  | iter {k} : (∀ r, Walks (k r)) → Walks (.call .iterate k)
  | delAll {es k} : (∀ e ∈ es, e.id.len ≤ I.P.W) → (∀ r, ∃ r', k r = .ret r') → Walks (.call (.delAll es) k)

theorem walks_releaseC {es : List (Option (Entry I.P L))} (h : ∀ v ∈ es, OkEntry v) : Walks (releaseC es) := by
  refine .delAll (fun e he => h _ (mem_beforeNil he) e rfl) fun r => ?_
  split
  · unfold replyDone
    split <;> exact ⟨_, rfl⟩
  · exact ⟨_, rfl⟩

theorem walks_nextC {k : Bool → Tree.Iter → TClient I L} (hk : ∀ b it, Walks (k b it)) : ∀ n it, Walks (nextC n it k)
  | 0, _ => .ret _
  | n + 1, it => by
    refine .peek fun g _ => ?_
    split
    · exact walks_nextC hk n _
    · exact hk _ _
    · exact hk _ _
    · exact .ret _

theorem walks_entryC {i : Nat} {k : Option (Entry I.P L) → TClient I L} (hk : ∀ v, OkEntry v → Walks (k v)) : Walks (entryC i k) := by
  refine .peek fun m hm => ?_
  cases hv : m.tree.valsForNode i with
  | ok l =>
    cases l with
    | nil => exact .ret _
    | cons v l => exact hk v (hm.vals.valsForNode hv v (by simp))
  | _ => exact .ret _

theorem walks_labelBody (sel : L → Bool) {acc : List (Option (Entry I.P L))} (ha : ∀ v ∈ acc, OkEntry v) (i : Nat)
    {k : List (Option (Entry I.P L)) → TClient I L} (hk : ∀ a, (∀ v ∈ a, OkEntry v) → Walks (k a)) : Walks (labelBody sel acc i k) := by
  refine walks_entryC fun v _ => ?_
  split
  · exact .ret _
  · split
    · refine walks_entryC fun v hv => hk _ fun x hx => ?_
      rcases List.mem_append.1 hx with hx | hx
      · exact ha x hx
      · rw [List.mem_singleton.1 hx]; exact hv
    · exact hk _ ha

theorem walks_release (g : GTree I L) (sel : L → Bool) : Walks (tcode N g (.releaseByLabel sel)) := by
  refine .iter fun _ => .peek fun g _ => ?_
  have loop : ∀ n it acc, (∀ v ∈ acc, OkEntry v) → Walks (loopC (I := I) N (labelBody sel) n it acc releaseC) := by
    intro n
    induction n with
    | zero => exact fun _ _ _ => .ret _
    | succ n ih =>
      intro it acc ha
      refine .peek fun g _ => walks_nextC (fun b it => ?_) _ _
      split
      · exact walks_labelBody sel ha _ fun a ha => ih _ _ ha
      · exact walks_releaseC ha
  exact loop _ _ _ (fun v hv => nomatch hv)

theorem Walks.within {S : TSec I L → Prop} (hi : S .iterate) (hd : ∀ es : List (Entry I.P L), (∀ e ∈ es, e.id.len ≤ I.P.W) → S (.delAll es))
    {d : TClient I L} (h : Walks d) : d.Within Tidy S := by
  induction h with
  | ret r => exact .ret r
  | peek _ ih => exact .peek ih
  | iter _ ih => exact .call hi ih
  | delAll h1 h2 =>
    refine .call (hd _ h1) fun r => ?_
    obtain ⟨r', hr'⟩ := h2 r
    rw [hr']
    exact .ret _

end Verif.Conc
