import Verif.Conc.TreeAtomic
import Verif.Conc.TreeLin
import Verif.GTree.Cell64Props

/-! tree64 with concurrent calls: C116. -/

set_option linter.unusedSectionVars false
namespace Verif.Conc
open Verif.Id Verif.GTree
open Verif.Tree (Out newTree)

variable {L : Type} [Labels L] {N : Nat}

/-! ### Specification -/

/-- the reply to a call with the given result (`none`: a panic) -/
def replyOf : Option (Result id64 L) → TReply tree64 L
  | some .done => .done
  | some .err => .err
  | some (.got e) => .got e
  | none => .panic

/-- the reply with these entries, or a panic -/
def replyEntries : Out (List (Entry id64 L)) → TReply tree64 L
  | .ok es => .entries es
  | _ => .panic

/-- One call on a tree64, which is a set of prefixes with one entry that all of them share (`C92_exact_partial`). -/
def Shared.DoesT (length : Nat) (st : Shared L) : TCall tree64 L → Shared L → TReply tree64 L → Prop
  | .clone, st', r => st' = st ∧ r = .done
  | .get id, st', r => st' = st ∧ r = match st.get id with
    | .ok (some e) => .got e
    | .ok none => .err
    | _ => .panic
  | .update id l, st', r => ∃ o, st.Does length (.update id l) o st' ∧ r = replyOf o
  | .claim id l, st', r => ∃ o, st.Does length (.claim id l) o st' ∧ r = replyOf o
  | .claimFree l, st', r => ∃ o, st.Does length (.claimFree l) o st' ∧ r = replyOf o
  | .claimRange s l, st', r => ∃ o, st.Does length (.claimRange s l) o st' ∧ r = replyOf o
  | .release id, st', r => ∃ o, st.Does length (.release id) o st' ∧ r = replyOf o
  | .releaseByLabel sel, st', r => ∃ o, st.Does length (.releaseByLabel sel) o st' ∧ r = replyOf o
  | .children id, st', r => st' = st ∧
    (id.len ≤ 64 → r = replyEntries (st.over fun e => pre id <+: pre e.id ∧ pre id ≠ pre e.id))
  | .parents id, st', r => st' = st ∧
    (id.len ≤ 64 → r = replyEntries (st.over fun e => (pre e.id <+: pre id ∨ pre id <+: pre e.id) ∧ e.id.len < 64))
  | .getByLabel sel, st', r => st' = st ∧ r = replyEntries (st.byLabel sel)
  | .getAll, st', r => st' = st ∧ r = .all (List.replicate st.keys.length st.cell)
  | .size, st', r => st' = st ∧ r = .nat st.keys.length

/-- a whole history -/
inductive SharedRun (length : Nat) : Shared L → List (TCall tree64 L) → List (TReply tree64 L) → Shared L → Prop
  | nil (st) : SharedRun length st [] [] st
  | cons {st st' st'' c cs r rs} : Shared.DoesT length st c st' r → SharedRun length st' cs rs st'' →
      SharedRun length st (c :: cs) (r :: rs) st''

/-! ### Proof -/

/-- the first round of a loop -/
theorem alone_walk_first {I : Impl} {m : GTree I L} {A : Type} {body : A → Nat → (A → TClient I L) → TClient I L}
    {k : A → TClient I L} {acc : A} {p : Nat × List (Option (Entry I.P L))} {vis : List (Nat × List (Option (Entry I.P L)))}
    (h : m.tree.visit = .ok (p :: vis)) :
    m.tree.valsForNode p.1 = .ok p.2 ∧ ∃ k', alone (walkC N body acc k) m = alone (body acc p.1 k') m := by
  have h' : (Tree.next m.tree Tree.Tree.iterate >>= fun x => if x.1 then
      (m.tree.valsForNode x.2.index >>= fun v => Tree.visitLoop m.tree m.tree.nodes.length x.2 >>= fun l => .ok ((x.2.index, v) :: l))
    else .ok []) = .ok (p :: vis) := h
  cases hn : Tree.next m.tree Tree.Tree.iterate with
  | ok x =>
    obtain ⟨b, it'⟩ := x
    rw [hn] at h'
    cases b with
    | false => cases h'
    | true =>
      have h2 : (m.tree.valsForNode it'.index >>= fun v => Tree.visitLoop m.tree m.tree.nodes.length it' >>= fun l =>
        .ok ((it'.index, v) :: l)) = .ok (p :: vis) := h'
      cases hv : m.tree.valsForNode it'.index with
      | ok v =>
        rw [hv] at h2
        have h3 : (Tree.visitLoop m.tree m.tree.nodes.length it' >>= fun l => .ok ((it'.index, v) :: l)) = .ok (p :: vis) := h2
        cases hl : Tree.visitLoop m.tree m.tree.nodes.length it' with
        | ok l =>
          rw [hl] at h3
          cases h3
          refine ⟨hv, fun acc => loopC N body (N + m.tree.nodes.length) it' acc k, ?_⟩
          show alone (nextC (N + (3 * m.tree.nodes.length + 1)) Tree.Tree.iterate fun b it =>
            if b then body acc it.index fun acc => loopC N body (N + m.tree.nodes.length) it acc k else k acc) m = _
          rw [alone_nextC (nextLoop_more N hn)]
          rfl
        | _ => rw [hl] at h3; cases h3
      | _ => rw [hv] at h2; cases h2
  | _ => rw [hn] at h'; cases h'

/-- the entries, if the cell is not nil -/
theorem entries64_some {length : Nat} {m : GTree tree64 L} {st : Shared L} (h : CInv length m st) {e : Entry id64 L}
    (he : st.cell = some e) : m.entries = .ok ((List.replicate st.keys.length (e : Entry tree64.P L)).map some) := by
  refine (entries64 h).trans ?_
  rw [he]
  exact congrArg Out.ok List.map_replicate.symm

/-- the loop over the labels -/
theorem walkLabel64 {length : Nat} {m : GTree tree64 L} {st : Shared L} (h : CInv length m st) {sel : L → Bool}
    {k : List (Option (Entry tree64.P L)) → TClient tree64 L} :
    alone (walkC N (labelBody sel) [] k) m = match st.byLabel sel with
      | .ok es => alone (k (es.map some)) m
      | _ => (m, .panic) := by
  have hent := entries64 h
  obtain ⟨s, hs⟩ := h.tree
  obtain ⟨xs, h1, h2⟩ := Verif.Tree.cell_visit hs
  unfold Shared.byLabel
  cases hk : st.keys with
  | nil =>
    rw [hk] at hent
    exact alone_walkLabel (l := []) hent
  | cons q ks =>
    cases hc : st.cell with
    | none =>
      rw [hk] at h1
      cases xs with
      | nil => cases h1
      | cons x xs =>
        obtain ⟨h3, k', h4⟩ := alone_walk_first (N := N) (body := labelBody sel) (acc := []) (k := k) h2
        rw [h4]
        unfold labelBody
        rw [alone_entryC h3, hc]
        rfl
    | some e =>
      refine (alone_walkLabel (entries64_some h hc)).trans ?_
      show alone (k (List.map some _)) m = alone (k (List.map some _)) m
      congr 3
      rw [hk]
      by_cases hse : sel e.labels = true
      · rw [if_pos hse]
        exact List.filter_replicate_of_pos (p := fun e : Entry id64 L => sel e.labels) hse
      · rw [if_neg hse]
        exact List.filter_replicate_of_neg (p := fun e : Entry id64 L => sel e.labels) hse

theorem choose64 (g : GTree tree64 L) (b : Builder tree64.P) (ch : List (Entry tree64.P L)) :
    ∀ x, chooseFree g b ch ≠ .ok (.ok x) := by
  intro x hx
  unfold chooseFree at hx
  cases h3 : removeAll ch b with
  | ok b' =>
    rw [h3] at hx
    simp only [Verif.Tree.Out.bind_ok] at hx
    cases h4 : b'.ipSet with
    | ok y =>
      obtain ⟨y1, y2, y3⟩ := y
      rw [h4] at hx
      simp only [ofRes, Verif.Tree.Out.bind_ok] at hx
      cases y3 with
      | true => cases hx
      | false =>
        have h6 := removeFreePrefix64 y2
        cases h5 : IDSet.removeFreePrefix (P := tree64.P) y2 tree64.P.W with
        | ok z =>
          rw [h5] at hx
          cases z with
          | none => cases hx
          | some z => exact h6 z h5
        | _ => rw [h5] at hx; cases hx
    | _ => rw [h4] at hx; cases hx
  | _ => rw [h3] at hx; cases hx

theorem scode_release {I : Impl} (g : GTree I L) (id : MyId I.P) :
    scode N g (.release id) = if !g.valid id then .ret .err else .call (.get id) fun
      | .found (some e) => .call (.del id e) (replyDone .done)
      | .found none => .ret .done
      | _ => .ret .panic := by
  simp only [scode, tcode]
  split
  · rfl
  · congr 1
    funext x
    cases x with
    | found o => cases o <;> rfl
    | _ => rfl

theorem does_release_pos {length : Nat} {st : Shared L} {id : MyId id64} (hlt : id.id.toNat < 2 ^ length) (o st') :
    (match st.get id with
      | .ok none => o = some .done ∧ st' = st
      | .ok (some _) => o = some .done ∧ Are st'.keys (fun q => q ≠ pre id ∧ q ∈ st.keys) ∧ st'.cell = none
      | _ => o = none ∧ st' = st) → st.Does length (.release id) o st' := by
  intro hx
  simp only [Shared.Does]
  rw [if_pos hlt]
  exact hx

theorem does_release_neg {length : Nat} {st : Shared L} {id : MyId id64} (hlt : ¬ id.id.toNat < 2 ^ length) :
    st.Does length (.release id) (some .err) st := by
  simp only [Shared.Does]
  rw [if_neg hlt]
  exact ⟨trivial, trivial⟩

/-- the reply of a call that changes the tree -/
def doneOf {I : Impl} : TSecR I L → TReply I L
  | .ok => .done
  | _ => .panic

theorem alone_releaseC {I : Impl} (m : GTree I L) (es : List (Entry I.P L)) :
    alone (releaseC (es.map some)) m = (after m (m.delAll es), doneOf (TSecR.ofTree (m.delAll es))) := by
  rw [releaseC, alone_call, beforeNil_map, if_pos (by simp)]
  simp only [tsem]
  cases TSecR.ofTree (m.delAll es) <;> rfl

/-- one call, undisturbed -/
theorem solo64 {length : Nat} {m : GTree tree64 L} {st : Shared L} (h : CInv length m st) {c : TCall tree64 L} (hc : c.Sized) :
    ∃ st', CInv length (alone (scode N (newG tree64 L length) c) m).1 st' ∧
      Shared.DoesT length st c st' (alone (scode N (newG tree64 L length) c) m).2 := by
  have hv : ∀ id : MyId id64, (newG tree64 L length).valid id = true ↔ id.id.toNat < 2 ^ length :=
    fun id => valid_size (I := tree64) rfl h.le (by decide) id
  have hclaim : ∀ {c : TCall tree64 L} {id : MyId id64} {l : L}, c = .claim id l ∨ c = .update id l → id.len ≤ 64 →
      ∃ st' r, CInv length (alone (scode N (newG tree64 L length) c) m).1 st' ∧
        (alone (scode N (newG tree64 L length) c) m).2 = replyOf (some r) ∧ st.Does length (.claim id l) (some r) st' := by
    intro c id l hc hid
    have hcode : scode N (newG tree64 L length) c = if !(newG tree64 L length).valid id then .ret .err else .call (.set id l) (replyDone .done) := by
      rcases hc with rfl | rfl <;> rfl
    rw [hcode]
    by_cases hlt : id.id.toNat < 2 ^ length
    · obtain ⟨g', st', e1, e2, e3, e4⟩ := set64 h id hid l
      have hal : alone (.call (.set id l) (replyDone .done)) m = (g', .done) := by
        rw [alone_call]
        have e1' : GTree.set (I := tree64) m id ⟨id, l⟩ = .ok g' := e1
        simp only [tsem, e1']
        rfl
      rw [if_neg (by simp [(hv id).2 hlt]), hal]
      refine ⟨st', .done, e2, rfl, ?_⟩
      simp only [Shared.Does, if_pos hlt]
      exact ⟨trivial, e3, e4⟩
    · rw [if_pos (by simpa using fun h => hlt ((hv id).1 h))]
      refine ⟨st, .err, h, rfl, ?_⟩
      simp only [Shared.Does, if_neg hlt]
      exact ⟨trivial, trivial⟩
  have hread : ∀ id : MyId tree64.P, alone (scode N (newG tree64 L length) (.children id)) m = (m, replyEntries (m.children id)) ∧
      alone (scode N (newG tree64 L length) (.parents id)) m = (m, replyEntries (m.parents id)) := by
    intro id
    simp only [scode, tcode]
    rw [alone_call, alone_call]
    simp only [tsem]
    constructor
    · cases m.children id <;> rfl
    · cases m.parents id <;> rfl
  have hwalk : ∀ (f : Nat × List (Option (Entry id64 L)) → List (Option (Entry id64 L))) (l : List Nat) acc,
      (∀ x, f (x, [st.cell]) = [st.cell]) →
      (l.map (fun x => (x, [st.cell]))).foldl (fun acc p => acc ++ f p) acc = acc ++ List.replicate l.length st.cell := by
    intro f l acc hf
    induction l generalizing acc with
    | nil => simp
    | cons x l ih =>
      rw [List.map_cons, List.foldl_cons, ih, hf, List.length_cons, List.replicate_succ, List.append_assoc]
      rfl
  cases c with
  | clone => exact ⟨st, h, rfl, rfl⟩
  | get id =>
    have hal : alone (scode N (newG tree64 L length) (.get id)) m = (m, match st.get id with
        | .ok (some e) => .got e
        | .ok none => .err
        | _ => .panic) := by
      show alone (.call (.get id) _) m = _
      rw [alone_call]
      simp only [tsem]
      have hg : GTree.get (I := tree64) m id = st.get id := get64 h id
      rw [hg]
      cases st.get id with
      | ok o => cases o <;> rfl
      | _ => rfl
    rw [hal]
    exact ⟨st, h, rfl, rfl⟩
  | update id l =>
    obtain ⟨st', r, h1, h2, h3⟩ := hclaim (.inr rfl) hc
    exact ⟨st', h1, some r, h3, h2⟩
  | claim id l =>
    obtain ⟨st', r, h1, h2, h3⟩ := hclaim (.inl rfl) hc
    exact ⟨st', h1, some r, h3, h2⟩
  | claimFree l =>
    have key : ∀ d : TClient tree64 L, (alone d m = (m, .err) ∨ alone d m = (m, .panic)) →
        ∃ st', CInv length (alone d m).1 st' ∧ Shared.DoesT length st (.claimFree l) st' (alone d m).2 := by
      rintro d (hd | hd) <;> rw [hd]
      · exact ⟨st, h, some .err, ⟨.inl rfl, rfl⟩, rfl⟩
      · exact ⟨st, h, none, ⟨.inr rfl, rfl⟩, rfl⟩
    apply key
    cases hb : ofRes (Builder.empty.addId (⟨0, tree64.rootLen (newG tree64 L length).length⟩ : MyId tree64.P)) with
    | ok b =>
      simp only [scode, tcode, hb]
      rw [alone_call]
      simp only [tsem]
      cases hch : m.children ⟨0, tree64.rootLen (newG tree64 L length).length⟩ with
      | ok ch =>
        simp only [TSecR.ofList]
        have hno := choose64 (newG tree64 L length) b ch
        cases hf : chooseFree (newG tree64 L length) b ch with
        | ok o =>
          cases o with
          | ok x => exact absurd hf (hno x)
          | err => exact .inl rfl
        | _ => exact .inr rfl
      | _ => exact .inr rfl
    | _ =>
      simp only [scode, tcode, hb]
      exact .inr rfl
  | claimRange s l =>
    cases hp : (parseRange s : Option (Rng tree64.P)) with
    | none =>
      have hal : alone (scode N (newG tree64 L length) (.claimRange s l)) m = (m, .err) := by
        simp only [scode, hp]; rfl
      rw [hal]
      exact ⟨st, h, some .err, .inl ⟨(by rintro ⟨x, hx⟩; cases hp.symm.trans hx), rfl, rfl⟩, rfl⟩
    | some x =>
      obtain ⟨ids, hi, hl⟩ := ids64 x
      obtain ⟨is, last, rfl⟩ := list_last (appendRangeIDs_ne _ _ _ _ _ hi)
      obtain ⟨g', st', a1, a2, a3, a4, _⟩ := setAll64 l _ h hl
      have hi' : Rng.ids (P := tree64.P) x = some (is ++ [last]) := hi
      have hal : alone (scode N (newG tree64 L length) (.claimRange s l)) m = (g', .done) := by
        simp only [scode, hp, hi']
        rw [alone_call]
        simp only [tsem]
        erw [setAllS_of_setAll l a1]
        rfl
      rw [hal]
      exact ⟨st', a2, some .done, .inr ⟨x, is, last, hp, hi, rfl, a3, a4 _ _ rfl⟩, rfl⟩
  | release id =>
    have hcode := scode_release (N := N) (newG tree64 L length) id
    rw [hcode]
    by_cases hlt : id.id.toNat < 2 ^ length
    · rw [if_neg (by simp [(hv id).2 hlt]), alone_call]
      have hg : GTree.get (I := tree64) m id = st.get id := get64 h id
      simp only [tsem, hg]
      have hd := does_release_pos (st := st) (id := id) hlt
      cases hs : st.get id with
      | ok o =>
        rw [hs] at hd
        cases o with
        | none => exact ⟨st, h, some .done, hd _ _ ⟨rfl, rfl⟩, rfl⟩
        | some e =>
          have hc' : st.cell = some e ∧ e.id = id := by
            unfold Shared.get at hs
            split at hs
            · cases hs
            · cases hs
            · rename_i e' hk hc
              have hs := Out.ok.inj hs
              split at hs
              · rename_i he
                cases hs
                exact ⟨hc, he⟩
              · cases hs
          obtain ⟨g', st', a1, a2, a3, a4⟩ := del64 h hc'.1
          rw [hc'.2] at a1 a3
          have hal : alone (.call (.del id e) (replyDone .done)) m = (g', .done) := by
            rw [alone_call]
            have a1' : GTree.del (I := tree64) m id e = .ok g' := a1
            simp only [tsem, a1']
            rfl
          simp only [TSecR.ofFound]
          rw [hal]
          exact ⟨st', a2, some .done, hd _ _ ⟨rfl, a3, a4⟩, rfl⟩
      | _ =>
        rw [hs] at hd
        exact ⟨st, h, none, hd _ _ ⟨rfl, rfl⟩, rfl⟩
    · rw [if_pos (by simpa using fun h => hlt ((hv id).1 h))]
      exact ⟨st, h, some .err, does_release_neg hlt, rfl⟩
  | releaseByLabel sel =>
    have hal : alone (scode N (newG tree64 L length) (.releaseByLabel sel)) m = match st.byLabel sel with
        | .ok es => (after m (m.delAll es), doneOf (TSecR.ofTree (m.delAll es)))
        | _ => (m, .panic) := by
      show alone (.call .iterate fun _ => walkC N (labelBody sel) [] releaseC) m = _
      rw [alone_iterate, walkLabel64 h]
      cases st.byLabel sel with
      | ok es =>
        refine (alone_releaseC m es).trans ?_
        rfl
      | _ => rfl
    rw [hal]
    simp only [Shared.DoesT, Shared.Does, Shared.byLabel]
    cases hk : st.keys with
    | nil => exact ⟨st, h, some .done, ⟨rfl, rfl⟩, rfl⟩
    | cons k ks =>
      cases hc' : st.cell with
      | none => exact ⟨st, h, none, ⟨rfl, rfl⟩, rfl⟩
      | some e =>
        simp only
        by_cases hse : sel e.labels = true
        · obtain ⟨g', st', a1, a2, a3, a4⟩ := del64 h hc'
          rw [hk] at a3
          have hl := (h.wf e hc').2
          have hn : pre e.id ∉ st'.keys := fun hx => ((a3.2 _).1 hx).1 rfl
          have hall : m.delAll (List.replicate (k :: ks).length e) = .ok g' := by
            show (m.del e.id e >>= fun g => g.delAll (List.replicate ks.length e)) = _
            rw [a1]
            exact delAll64_none a2 hl hn ks.length
          rw [if_pos hse]
          erw [hall]
          refine ⟨st', a2, some .done, ?_, rfl⟩
          rw [if_pos hse]
          exact ⟨rfl, a3, a4⟩
        · rw [if_neg hse]
          refine ⟨st, h, some .done, ?_, rfl⟩
          rw [if_neg hse]
          exact ⟨rfl, rfl⟩
  | children id =>
    have hal := (hread id).1
    rw [hal]
    exact ⟨st, h, rfl, fun hid => congrArg replyEntries (over64 h id hid).1⟩
  | parents id =>
    have hal := (hread id).2
    rw [hal]
    exact ⟨st, h, rfl, fun hid => congrArg replyEntries (over64 h id hid).2⟩
  | getByLabel sel =>
    have hal : alone (scode N (newG tree64 L length) (.getByLabel sel)) m = (m, replyEntries (st.byLabel sel)) := by
      show alone (.call .iterate fun _ => walkC N (labelBody sel) [] fun es => .ret (replyList es)) m = _
      rw [alone_iterate, walkLabel64 h]
      cases st.byLabel sel with
      | ok es =>
        exact congrArg (fun r => (m, r)) (replyList_map (I := tree64) es)
      | _ => rfl
    rw [hal]
    exact ⟨st, h, rfl, rfl⟩
  | getAll =>
    obtain ⟨s, hs⟩ := h.tree
    obtain ⟨xs, h1, h2⟩ := Verif.Tree.cell_visit hs
    have hal : alone (scode N (newG tree64 L length) .getAll) m = (m, .all (List.replicate st.keys.length st.cell)) := by
      show alone (.call .iterate fun _ => walkC N allBody [] fun es => .ret (.all es)) m = _
      rw [alone_iterate, alone_walkC h2 (f := fun acc p => acc ++ [p.2.head?.join])]
      · have hw := hwalk (fun p => [p.2.head?.join]) xs [] (fun x => rfl)
        rw [h1, List.nil_append] at hw
        exact congrArg (fun l => (m, TReply.all (I := tree64) l)) hw
      · intro p hp hpv acc k
        obtain ⟨x, _, rfl⟩ := List.mem_map.1 hp
        exact alone_entryC hpv
    rw [hal]
    exact ⟨st, h, rfl, rfl⟩
  | size =>
    obtain ⟨s, hs⟩ := h.tree
    obtain ⟨xs, h1, h2⟩ := Verif.Tree.cell_visit hs
    have hal : alone (scode N (newG tree64 L length) .size) m = (m, .nat st.keys.length) := by
      show alone (.call .iterate fun _ => walkC N sizeBody 0 fun n => .ret (.nat n)) m = _
      rw [alone_iterate, alone_walkC h2 (f := fun n _ => n + 1) (fun p hp hpv acc k => rfl), foldl_count, List.length_map, h1, Nat.zero_add]
      rfl
    rw [hal]
    exact ⟨st, h, rfl, rfl⟩

theorem runs64 {length : Nat} {m m' : GTree tree64 L} {Q : List (Nat × TCall tree64 L × TReply tree64 L)}
    (h : SRuns (fun m c m' r => alone (scode N (newG tree64 L length) c) m = (m', r)) m Q m')
    (hQ : ∀ x ∈ Q, x.2.1.Sized) : ∀ {st : Shared L}, CInv length m st →
    ∃ st', CInv length m' st' ∧ SharedRun length st (Q.map (·.2.1)) (Q.map (·.2.2)) st' := by
  induction h with
  | nil => exact fun hm => ⟨_, hm, .nil _⟩
  | @cons m m' m'' n c r Q hc _ ih =>
    intro st hm
    obtain ⟨st1, h1, h2⟩ := solo64 (N := N) hm (hQ _ (List.mem_cons_self ..))
    rw [hc] at h1 h2
    obtain ⟨st2, h3, h4⟩ := ih (fun x hx => hQ x (List.mem_cons_of_mem _ hx)) h1
    exact ⟨st2, h3, .cons h2 h4⟩

/-- **C116, tree64** (of every length): if `ClaimRange` overlaps with no call, and the calls that are not one critical section
with no call that changes the tree, then the calls are linearizable, as calls on a set of prefixes with one entry that all
of them share (`C92_exact_partial`). -/
theorem C116_tree64 {length : Nat} (hle : length ≤ 64) {g : Cfg (TCall tree64 L) (GTree tree64 L) (TReply tree64 L)} {H}
    (h : Exec (tprog N (newG tree64 L length)) (newG tree64 L length) g H) (hz : ∀ n c, Ev.inv n c ∈ H → c.Sized)
    (ha : Alone TCall.Loops H) (hs : ∀ n c, Ev.inv n c ∈ H → ¬ c.Single → ¬ Crossed TCall.Changes H n) :
    LinearizableBy (fun cs rs => ∃ st, SharedRun length ⟨[], none⟩ cs rs st) H := by
  obtain ⟨g', h'⟩ := exec_sync h ha
  obtain ⟨a, _, Q, _, _, ho, hr, _⟩ := atomic_order h' hs
  obtain ⟨st, _, h2⟩ := runs64 hr (fun x hx => hz _ _ (ho.inv x hx)) (st := ⟨[], none⟩)
    ⟨⟨_, Verif.Tree.cell_new⟩, rfl, hle, by simp⟩
  exact ⟨Q, ho.nodup, ⟨st, h2⟩, ho.inv, ho.ret, ho.order⟩

/-- The hypotheses of `C116_atomic` and `C116_tree64` can be met: two overlapping `ClaimID`, then `Get` of the first id, which
fails, then `GetAll`, which returns the second entry twice. -/
example : ∃ g H, Exec (tprog 0 (newG tree64 Bool 8)) (newG tree64 Bool 8) g H ∧ (∀ n c, Ev.inv n c ∈ H → c.Sized) ∧
    Alone TCall.Loops H ∧ (∀ n c, Ev.inv n c ∈ H → ¬ c.Single → ¬ Crossed TCall.Changes H n) ∧
    H = [.inv 0 (.claim ⟨1, 64⟩ true), .inv 1 (.claim ⟨2, 64⟩ false), .ret 0 .done, .ret 1 .done, .inv 2 (.get ⟨1, 64⟩),
      .ret 2 .err, .inv 3 .getAll, .ret 3 (.all [some ⟨⟨2, 64⟩, false⟩, some ⟨⟨2, 64⟩, false⟩])] := by
  obtain ⟨g, hg⟩ := exec_of_follow (code := tprog 0 (newG tree64 Bool 8)) (m₀ := newG tree64 Bool 8)
    (H := [.inv 0 (.claim ⟨1, 64⟩ true), .inv 1 (.claim ⟨2, 64⟩ false), .ret 0 .done, .ret 1 .done, .inv 2 (.get ⟨1, 64⟩),
      .ret 2 .err, .inv 3 .getAll, .ret 3 (.all [some ⟨⟨2, 64⟩, false⟩, some ⟨⟨2, 64⟩, false⟩])])
    ([.start (.claim ⟨1, 64⟩ true), .start (.claim ⟨2, 64⟩ false)] ++ steps 0 6 ++ steps 1 6 ++ [.start (.get ⟨1, 64⟩)] ++
      steps 2 7 ++ [.start .getAll] ++ steps 3 19) rfl
  have hB : ∀ m c, Ev.inv m c ∈ ([.inv 0 (.claim ⟨1, 64⟩ true), .inv 1 (.claim ⟨2, 64⟩ false), .ret 0 .done, .ret 1 .done,
      .inv 2 (.get ⟨1, 64⟩), .ret 2 .err, .inv 3 .getAll, .ret 3 (.all [some ⟨⟨2, 64⟩, false⟩, some ⟨⟨2, 64⟩, false⟩])] :
      List (Ev (TCall tree64 Bool) (TReply tree64 Bool))) →
      (m = 0 ∧ c = .claim ⟨1, 64⟩ true) ∨ (m = 1 ∧ c = .claim ⟨2, 64⟩ false) ∨
      (m = 2 ∧ c = (.get ⟨1, 64⟩ : TCall tree64 Bool)) ∨ m = 3 ∧ c = .getAll := by
    intro m c hm
    simpa only [List.mem_cons, Ev.inv.injEq, reduceCtorEq, List.not_mem_nil, or_false, false_or] using hm
  refine ⟨g, _, hg, ?_, ?_, ?_, rfl⟩
  · intro n c hc
    rcases hB n c hc with ⟨_, rfl⟩ | ⟨_, rfl⟩ | ⟨_, rfl⟩ | ⟨_, rfl⟩
    · exact Nat.le_refl _
    · exact Nat.le_refl _
    · trivial
    · trivial
  · intro n c hn hc m c' hm hne ho
    rcases hB n c hn with ⟨_, rfl⟩ | ⟨_, rfl⟩ | ⟨_, rfl⟩ | ⟨_, rfl⟩ <;> cases hc
  · rintro n c hn hc ⟨m, c', hne, hch, hm, ho⟩
    rcases hB n c hn with ⟨_, rfl⟩ | ⟨_, rfl⟩ | ⟨_, rfl⟩ | ⟨rfl, rfl⟩
    · exact hc trivial
    · exact hc trivial
    · exact hc trivial
    · rcases hB m c' hm with ⟨rfl, rfl⟩ | ⟨rfl, rfl⟩ | ⟨rfl, rfl⟩ | ⟨rfl, rfl⟩
      · exact ho.1 ⟨.done, _, sublist_of_get 2 6 rfl rfl (by decide)⟩
      · exact ho.1 ⟨.done, _, sublist_of_get 3 6 rfl rfl (by decide)⟩
      · exact hch
      · exact hch

end Verif.Conc
