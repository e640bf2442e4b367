import Verif.Conc.TreeRace
import Verif.Conc.Rely
import Verif.Conc.Sched

/-! Reading a tree of claimed prefixes without lock: C80. -/

set_option linter.unusedSectionVars false
namespace Verif.Conc
open Verif.Id Verif.GTree
open Verif.Tree (Out AtMost newTree)

variable {I : Impl} {L : Type} [Labels L] {N : Nat}

/-- the calls that change the tree -/
def TCall.Changes : TCall I L → Prop
  | .update _ _ | .claim _ _ | .claimFree _ | .claimRange _ _ | .release _ | .releaseByLabel _ => True
  | _ => False

/-! ### The readers alone -/

/-- what a program does if nothing else happens -/
def alone (d : TClient I L) (m : GTree I L) : GTree I L × TReply I L := (d.compile tsec).exec m

theorem alone_nextC {m : GTree I L} {k : Bool → Tree.Iter → TClient I L} : ∀ {n : Nat} {it it' : Tree.Iter} {b : Bool},
    Tree.nextLoop m.tree n it = .ok (b, it') → alone (nextC n it k) m = alone (k b it') m
  | 0, it, it', b, h => by cases h
  | n + 1, it, it', b, h => by
    have h' : (Tree.round m.tree it >>= fun r => match r with
      | .cont it => Tree.nextLoop m.tree n it
      | .found it => .ok (true, it)
      | .finished it => .ok (false, it)) = .ok (b, it') := h
    show alone (match Tree.round m.tree it with
      | .ok (.cont it) => nextC n it k
      | .ok (.found it) => k true it
      | .ok (.finished it) => k false it
      | _ => .ret .panic) m = _
    cases hr : Tree.round m.tree it with
    | ok x =>
      rw [hr] at h'
      cases x with
      | cont it => exact alone_nextC h'
      | found it => cases h'; rfl
      | finished it => cases h'; rfl
    | _ => rw [hr] at h'; cases h'

theorem nextLoop_more {T : Type} {t : Tree.Tree T} (N : Nat) : ∀ {n : Nat} {it : Tree.Iter} {x : Bool × Tree.Iter},
    Tree.nextLoop t n it = .ok x → Tree.nextLoop t (N + n) it = .ok x
  | 0, it, x, h => by cases h
  | n + 1, it, x, h => by
    have h' : (Tree.round t it >>= fun r => match r with
      | .cont it => Tree.nextLoop t n it
      | .found it => .ok (true, it)
      | .finished it => .ok (false, it)) = .ok x := h
    show (Tree.round t it >>= fun r => match r with
      | .cont it => Tree.nextLoop t (N + n) it
      | .found it => .ok (true, it)
      | .finished it => .ok (false, it)) = .ok x
    cases hr : Tree.round t it with
    | ok y =>
      rw [hr] at h'
      cases y with
      | cont it => exact nextLoop_more N (n := n) h'
      | found it => exact h'
      | finished it => exact h'
    | _ => rw [hr] at h'; cases h'

theorem alone_entryC {m : GTree I L} {k : Option (Entry I.P L) → TClient I L} {i : Nat} {v vs}
    (h : m.tree.valsForNode i = .ok (v :: vs)) : alone (entryC i k) m = alone (k v) m := by
  show alone (match m.tree.valsForNode i with
    | .ok (v :: _) => k v
    | _ => .ret .panic) m = _
  rw [h]

theorem alone_loopC {m : GTree I L} {A : Type} {body : A → Nat → (A → TClient I L) → TClient I L}
    {f : A → Nat × List (Option (Entry I.P L)) → A} {k : A → TClient I L} : ∀ {n : Nat} {it : Tree.Iter} {acc : A}
    {vis : List (Nat × List (Option (Entry I.P L)))} {M : Nat}, Tree.visitLoop m.tree n it = .ok vis → n ≤ M →
    (∀ p ∈ vis, m.tree.valsForNode p.1 = .ok p.2 → ∀ acc k, alone (body acc p.1 k) m = alone (k (f acc p)) m) →
    alone (loopC N body M it acc k) m = alone (k (vis.foldl f acc)) m
  | 0, it, acc, vis, _, h, _, _ => by cases h
  | n + 1, it, acc, vis, 0, h, hM, _ => by omega
  | n + 1, it, acc, vis, M + 1, h, hM, hb => by
    have h' : (Tree.next m.tree it >>= fun x => if x.1 then
        (m.tree.valsForNode x.2.index >>= fun v => Tree.visitLoop m.tree n x.2 >>= fun l => .ok ((x.2.index, v) :: l))
      else .ok []) = .ok vis := h
    show alone (nextC (N + (3 * m.tree.nodes.length + 1)) it fun b it =>
      if b then body acc it.index fun acc => loopC N body M it acc k else k acc) m = _
    cases hn : Tree.next m.tree it with
    | ok x =>
      obtain ⟨b, it'⟩ := x
      rw [hn] at h'
      rw [alone_nextC (nextLoop_more N hn)]
      cases b with
      | true =>
        have h2 : (m.tree.valsForNode it'.index >>= fun v => Tree.visitLoop m.tree n it' >>= fun l =>
          .ok ((it'.index, v) :: l)) = .ok vis := h'
        cases hv : m.tree.valsForNode it'.index with
        | ok v =>
          rw [hv] at h2
          have h3 : (Tree.visitLoop m.tree n it' >>= fun l => .ok ((it'.index, v) :: l)) = .ok vis := h2
          cases hl : Tree.visitLoop m.tree n it' with
          | ok l =>
            rw [hl] at h3
            cases h3
            show alone (body acc it'.index fun acc => loopC N body M it' acc k) m = _
            rw [hb (it'.index, v) (List.mem_cons_self ..) hv]
            exact alone_loopC hl (Nat.le_of_succ_le_succ hM) fun p hp => hb p (List.mem_cons_of_mem _ hp)
          | _ => rw [hl] at h3; cases h3
        | _ => rw [hv] at h2; cases h2
      | false => cases h'; rfl
    | _ => rw [hn] at h'; cases h'

theorem alone_walkC {m : GTree I L} {A : Type} {body : A → Nat → (A → TClient I L) → TClient I L}
    {f : A → Nat × List (Option (Entry I.P L)) → A} {k : A → TClient I L} {acc : A}
    {vis : List (Nat × List (Option (Entry I.P L)))} (h : m.tree.visit = .ok vis)
    (hb : ∀ p ∈ vis, m.tree.valsForNode p.1 = .ok p.2 → ∀ acc k, alone (body acc p.1 k) m = alone (k (f acc p)) m) :
    alone (walkC N body acc k) m = alone (k (vis.foldl f acc)) m :=
  alone_loopC (n := m.tree.nodes.length + 1) h (Nat.le_add_left _ _) hb

theorem alone_iterate {m : GTree I L} {k : TSecR I L → TClient I L} : alone (.call .iterate k) m = alone (k .ok) m := rfl

/-- the values that are visited -/
theorem firsts_some {l : List (Entry I.P L)} : ∀ {vis : List (Nat × List (Option (Entry I.P L)))},
    firsts vis = .ok (l.map some) →
    (∀ p ∈ vis, ∃ e vs, p.2 = some e :: vs) ∧ vis.length = l.length ∧
    ∀ (A : Type) (f : A → Nat × List (Option (Entry I.P L)) → A) (h : A → Entry I.P L → A) (acc : A),
      (∀ acc i e vs, f acc (i, some e :: vs) = h acc e) → vis.foldl f acc = l.foldl h acc := by
  induction l with
  | nil =>
    intro vis h
    cases vis with
    | nil => exact ⟨by simp, rfl, fun _ _ _ _ _ => rfl⟩
    | cons p vis =>
      obtain ⟨i, vs⟩ := p
      cases vs with
      | nil => cases h
      | cons v vs =>
        have h' : (firsts vis >>= fun l => .ok (v :: l)) = .ok [] := h
        cases hf : firsts vis with
        | ok x => rw [hf] at h'; cases h'
        | _ => rw [hf] at h'; cases h'
  | cons e l ih =>
    intro vis h
    cases vis with
    | nil => cases h
    | cons p vis =>
      obtain ⟨i, vs⟩ := p
      cases vs with
      | nil => cases h
      | cons v vs =>
        have h' : (firsts vis >>= fun l => .ok (v :: l)) = .ok (some e :: l.map some) := h
        cases hf : firsts vis with
        | ok x =>
          rw [hf] at h'
          have h2 : (Out.ok (v :: x)) = .ok (some e :: l.map some) := h'
          injection h2 with h2
          injection h2 with h3 h4
          subst h3 h4
          obtain ⟨i1, i2, i3⟩ := ih hf
          refine ⟨?_, by simp [i2], ?_⟩
          · intro p hp
            rcases List.mem_cons.1 hp with rfl | hp
            · exact ⟨_, _, rfl⟩
            · exact i1 p hp
          · intro A f g acc hfg
            rw [List.foldl_cons, List.foldl_cons, hfg]
            exact i3 A f g _ hfg
        | _ => rw [hf] at h'; cases h'

/-- the reply of a reader, if the entries are `l` -/
def readReply (l : List (Entry I.P L)) : TCall I L → TReply I L
  | .getAll => .all (l.map some)
  | .getByLabel sel => .entries (l.filter fun e => sel e.labels)
  | .size => .nat l.length
  | _ => .panic

theorem foldl_snoc_map {A B : Type} (f : A → B) (l : List A) : ∀ acc, l.foldl (fun acc a => acc ++ [f a]) acc = acc ++ l.map f := by
  induction l with
  | nil => simp
  | cons a l ih => intro acc; simp [ih]

theorem foldl_snoc_filter {A B : Type} (f : A → Bool) (g : A → B) (l : List A) :
    ∀ acc, l.foldl (fun acc a => if f a then acc ++ [g a] else acc) acc = acc ++ (l.filter f).map g := by
  induction l with
  | nil => simp
  | cons a l ih =>
    intro acc
    rw [List.foldl_cons, ih, List.filter_cons]
    split <;> simp

theorem foldl_count {A : Type} (l : List A) : ∀ n, l.foldl (fun n _ => n + 1) n = n + l.length := by
  induction l with
  | nil => simp
  | cons a l ih => intro n; rw [List.foldl_cons, ih, List.length_cons]; omega

theorem beforeNil_map {A : Type} (l : List A) : beforeNil (l.map some) = l := by
  induction l with
  | nil => rfl
  | cons a l ih => exact congrArg (a :: ·) ih

theorem replyList_map (l : List (Entry I.P L)) : replyList (l.map some) = .entries l := by
  unfold replyList
  rw [if_pos (by simp), beforeNil_map]

/-- the loop over the labels, on a tree that nobody changes -/
theorem alone_walkLabel {m : GTree I L} {l : List (Entry I.P L)} (hl : m.entries = .ok (l.map some)) {sel : L → Bool}
    {k : List (Option (Entry I.P L)) → TClient I L} :
    alone (walkC N (labelBody sel) [] k) m = alone (k ((l.filter fun e => sel e.labels).map some)) m := by
  have hl' : (m.tree.visit >>= fun vis => firsts vis) = .ok (l.map some) := hl
  cases hv : m.tree.visit with
  | ok vis =>
    rw [hv] at hl'
    obtain ⟨h1, h2, h3⟩ := firsts_some (l := l) (vis := vis) hl'
    rw [alone_walkC hv (f := fun acc p => match p.2 with
      | some e :: _ => if sel e.labels then acc ++ [some e] else acc
      | _ => acc)]
    · rw [h3 _ _ (fun acc e => if sel e.labels then acc ++ [some e] else acc) _ (fun _ _ _ _ => rfl),
        foldl_snoc_filter (fun e : Entry I.P L => sel e.labels) some]
      rfl
    · intro p hp hpv acc k
      obtain ⟨e, vs, he⟩ := h1 p hp
      rw [he] at hpv ⊢
      unfold labelBody
      rw [alone_entryC hpv]
      simp only
      by_cases hs : sel e.labels
      · rw [if_pos hs, if_pos hs, alone_entryC hpv]
      · rw [if_neg hs, if_neg hs]
  | _ => rw [hv] at hl'; cases hl'

/-- the readers on a tree that nobody changes -/
theorem alone_reader (g₀ : GTree I L) {m : GTree I L} {l : List (Entry I.P L)} (hl : m.entries = .ok (l.map some)) {c : TCall I L}
    (hc : c = .getAll ∨ (∃ sel, c = .getByLabel sel) ∨ c = .size) : alone (tcode N g₀ c) m = (m, readReply l c) := by
  have hl' : (m.tree.visit >>= fun vis => firsts vis) = .ok (l.map some) := hl
  cases hv : m.tree.visit with
  | ok vis =>
    rw [hv] at hl'
    obtain ⟨h1, h2, h3⟩ := firsts_some (l := l) (vis := vis) hl'
    rcases hc with rfl | ⟨sel, rfl⟩ | rfl
    · show alone (.call .iterate fun _ => walkC N allBody [] fun es => .ret (.all es)) m = _
      rw [alone_iterate]
      rw [alone_walkC hv (f := fun acc p => acc ++ [p.2.head?.join])]
      · rw [h3 _ _ (fun acc e => acc ++ [some e]) _ (fun _ _ _ _ => rfl), foldl_snoc_map]
        rfl
      · intro p hp hpv acc k
        obtain ⟨e, vs, he⟩ := h1 p hp
        rw [he] at hpv ⊢
        exact alone_entryC hpv
    · show alone (.call .iterate fun _ => walkC N (labelBody sel) [] fun es => .ret (replyList es)) m = _
      rw [alone_iterate, alone_walkLabel hl]
      show (m, replyList _) = _
      rw [replyList_map]
      rfl
    · show alone (.call .iterate fun _ => walkC N sizeBody 0 fun n => .ret (.nat n)) m = _
      rw [alone_iterate]
      rw [alone_walkC hv (f := fun n _ => n + 1) (fun p hp hpv acc k => rfl)]
      rw [foldl_count, h2, Nat.zero_add]
      rfl
  | _ => rw [hv] at hl'; cases hl'

/-! ### C80 -/

theorem uses_noW {S : TSec I L → Prop} {pk : Prop} (hS : ∀ s, S s → NoW (tsec s)) {d : TClient I L} (h : d.Uses S pk) :
    NoW (d.compile tsec) := by
  induction h with
  | ret r => exact .ret r
  | call hs _ ih => exact (hS _ hs).bind ih
  | peek _ _ ih => exact .read ih

theorem tprog_noW (g₀ : GTree I L) (c : TCall I L) (hc : ¬ c.Changes) : NoW (tprog N g₀ c) := by
  have hS : ∀ s : TSec I L, ((∃ i, s = .get i) ∨ (∃ i, s = .children i) ∨ (∃ i, s = .parents i) ∨ s = .iterate) → NoW (tsec s) := by
    rintro s (⟨i, rfl⟩ | ⟨i, rfl⟩ | ⟨i, rfl⟩ | rfl)
    · exact .rlock (.rlock (.read fun _ => .runlock (.read fun _ => .runlock (.ret _))))
    · exact .rlock (.rlock (.read fun _ => .runlock (.read fun _ => .runlock (.ret _))))
    · exact .rlock (.rlock (.read fun _ => .runlock (.read fun _ => .runlock (.ret _))))
    · exact .rlock (.read fun _ => .runlock (.ret _))
  have hu : (tcode N g₀ c).Uses (fun s => (∃ i, s = .get i) ∨ (∃ i, s = .children i) ∨ (∃ i, s = .parents i) ∨ s = .iterate) True := by
    cases c with
    | clone => exact .peek trivial fun _ => .ret _
    | get id | children id | parents id =>
      refine .call (by simp) fun r => ?_
      split <;> exact .ret _
    | getByLabel sel => exact .call (by simp) fun r => uses_walkC trivial (uses_labelBody trivial sel) (fun es => .ret _) _
    | getAll => exact .call (by simp) fun r => uses_walkC trivial (uses_allBody trivial) (fun es => .ret _) _
    | size => exact .call (by simp) fun r => uses_walkC trivial (fun _ _ _ hk => hk _) (fun es => .ret _) _
    | _ => exact absurd trivial hc
  cases c with
  | claimRange s l => exact absurd trivial hc
  | _ => exact uses_noW hS hu

/-- the sections of an execution from a new tree -/
theorem exec_effs (hI : I = tree16 ∨ I = tree32) {length : Nat} (hle : length ≤ I.P.W)
    {a : ACfg (TCall I L) (TSec I L) (TSecR I L) (GTree I L) (TReply I L)} {see G H}
    (ha : AExec (tcode N (newG I L length)) tsem see (newG I L length) a G H) (hfit : ∀ x ∈ G, x.2.1.Fits)
    (hf : ∀ n c, Ev.inv n c ∈ H → c.Fits) (hH : I.P.W = 32 → H.length ≤ 2 ^ 31 ∨ length ≤ 31) :
    G.countP (fun x => x.2.1.isSet) ≤ H.length ∧ GInv length a.mem (effs Map.empty G) ∧
      ∀ x ∈ G, x.2.1.changes = true → x.2.2 = .ok := by
  have F := ha.facts
  have hstarted : ∀ x ∈ G, ∃ c d, Ev.inv x.1 c ∈ H ∧ (tcode N (newG I L length) c).Path (callsOf G x.1) d :=
    fun x hx => F.started ha.hasRet (x := x.2) hx
  have hlow : length ≤ 31 → ∀ x ∈ G, x.2.1.Low := by
    intro hl x hx
    obtain ⟨c, d, h1, h2⟩ := hstarted x hx
    exact tpath_low (ok_of hI) hle hl (hf _ c h1) h2 _ (mem_callsOf.2 hx)
  have hcount : G.countP (fun x => x.2.1.isSet) ≤ H.length := by
    have h1 := countP_callsOf G (fun x => x.1.isSet) ?_ a.th.length
    · have h2 : G.countP (fun e => decide (e.1 < a.th.length) && e.2.1.isSet) = G.countP (fun x => x.2.1.isSet) := by
        apply List.countP_congr
        intro x hx
        have := F.bound x hx
        simp [this]
      have := ha.threads_le
      omega
    · intro i
      by_cases hi : ∃ x ∈ G, x.1 = i
      · obtain ⟨x, hx, rfl⟩ := hi
        obtain ⟨c, d, _, h2⟩ := hstarted x hx
        exact (tcode_sets _ c).path h2
      · have : callsOf G i = [] := by
          unfold callsOf
          rw [List.map_eq_nil_iff, List.filter_eq_nil_iff]
          intro x hx hxi
          exact hi ⟨x, hx, by simpa using hxi⟩
        rw [this]; simp
  obtain ⟨h1, _, _, h3⟩ := runs_ginv (ok_of hI) F.runs ((reach_new (I := I) (L := L) hle).ginv hI) hfit (k := 0)
    (fun hw => (hH hw).imp (fun h => by omega) (fun h => ⟨lowMap_empty, hlow h⟩)) ⟨[], Nat.le_refl _, fun q hq => absurd rfl hq⟩
  exact ⟨hcount, h1, h3⟩

/-- **C80, part that holds** (tree16; tree32 of length at most 31, or as long as at most `2^31` events have happened): a `GetAll`,
`GetByLabel` or `Size` that does not overlap with a call that changes the tree does not panic, and returns
what the tree contains at some moment during the call. Missing: overlapping calls (violated below), histories with
`ClaimRange` (see C87), tree64. -/
theorem C80_reads_partial (hI : I = tree16 ∨ I = tree32) {length : Nat} (hle : length ≤ I.P.W)
    {g : Cfg (TCall I L) (GTree I L) (TReply I L)} {H} (h : Exec (tprog N (newG I L length)) (newG I L length) g H)
    (hf : ∀ n c, Ev.inv n c ∈ H → c.Fits) (hH : I.P.W = 32 → H.length ≤ 2 ^ 31 ∨ length ≤ 31)
    {n : Nat} {c : TCall I L} {r : TReply I L} (hi : Ev.inv n c ∈ H) (hr : Ev.ret n r ∈ H)
    (hc : c = .getAll ∨ (∃ sel, c = .getByLabel sel) ∨ c = .size) (hq : ¬ Disturbed TCall.Changes H n) :
    ∃ g₁ H₁ M l, Exec (tprog N (newG I L length)) (newG I L length) g₁ H₁ ∧ H₁ <+: H ∧ g₁.Pending n ∧
      GInv length g₁.mem M ∧ Listing l M ∧ r = readReply l c ∧ r ≠ .panic := by
  have hnc : ¬ c.Changes := by rcases hc with rfl | ⟨sel, rfl⟩ | rfl <;> exact id
  rcases exec_snapshot (tprog_noW (newG I L length)) h hi hr hnc with ⟨g₁, H₁, e1, e2, e3, e4, e5⟩ | hd
  · have hf1 : ∀ n c, Ev.inv n c ∈ H₁ → c.Fits := fun n c hx => hf n c (e2.subset hx)
    obtain ⟨a, G, ha, hR, hfits⟩ := tsim (ok_of hI) hle (texec e1 hf1) hf1
    obtain ⟨_, i3, _⟩ := exec_effs hI hle ha (fun x hx => (hfits x hx).1) hf1 (fun hw => (hH hw).imp (fun h => by have := e2.length_le; omega) id)
    have hmem : a.mem = g₁.mem := by
      refine hR.mem ?_
      intro x hx hw
      obtain ⟨i, hix⟩ := List.mem_iff_getElem?.1 hx
      have hia : ∃ y, a.th[i]? = some y :=
        ⟨_, List.getElem?_eq_getElem (by rw [← hR.len]; exact (List.getElem?_eq_some_iff.1 hix).1)⟩
      obtain ⟨y, hy⟩ := hia
      have ht := hR.th i x y hix hy
      cases ht with
      | writing _ =>
        have := (exec_noW (tprog_noW (newG I L length)) e1 _ hx (e4 _ hx (by simp))).1
        cases this
      | _ => cases hw
    rw [hmem] at i3
    obtain ⟨l, l1, l2, _⟩ := entries_spec i3
    have hcr : tprog N (newG I L length) c = (tcode N (newG I L length) c).compile tsec := by
      rcases hc with rfl | ⟨sel, rfl⟩ | rfl <;> rfl
    have hal := alone_reader (N := N) (newG I L length) l2 hc
    have hre : r = readReply l c := by
      rw [e5, hcr]; exact congrArg Prod.snd hal
    refine ⟨g₁, H₁, _, l, e1, e2, e3, i3, l1, hre, ?_⟩
    rw [hre]
    rcases hc with rfl | ⟨sel, rfl⟩ | rfl <;> simp [readReply]
  · exact absurd hd hq

/-- the schedule for the next theorems: call `n` makes `k` steps -/
def steps {κ : Type} (n k : Nat) : List (Move κ) := List.replicate k (.go n)

/-- **C80, violated** (tree16 of length 4): `GetAll`, `GetByLabel` and `ReleaseByLabel` panic if an entry that they
have reached is released before they read it. -/
theorem C80_entry_violated {c : TCall tree16 Bool}
    (hc : c = .getAll ∨ c = .getByLabel (fun _ => true) ∨ c = .releaseByLabel (fun _ => true)) :
    ∃ g, Exec (tprog 0 (newG tree16 Bool 4)) (newG tree16 Bool 4) g
      [.inv 0 (.claim ⟨3, 16⟩ true), .ret 0 .done, .inv 1 c, .inv 2 (.release ⟨3, 16⟩), .ret 2 .done, .ret 1 .panic] := by
  rcases hc with rfl | rfl | rfl
  · exact exec_of_follow ([.start (.claim ⟨3, 16⟩ true)] ++ steps 0 6 ++ [.start .getAll] ++ steps 1 7 ++
      [.start (.release ⟨3, 16⟩)] ++ steps 2 12 ++ steps 1 2) rfl
  · exact exec_of_follow ([.start (.claim ⟨3, 16⟩ true)] ++ steps 0 6 ++ [.start (.getByLabel fun _ => true)] ++ steps 1 7 ++
      [.start (.release ⟨3, 16⟩)] ++ steps 2 12 ++ steps 1 2) rfl
  · exact exec_of_follow ([.start (.claim ⟨3, 16⟩ true)] ++ steps 0 6 ++ [.start (.releaseByLabel fun _ => true)] ++ steps 1 7 ++
      [.start (.release ⟨3, 16⟩)] ++ steps 2 12 ++ steps 1 2) rfl

/-- **C80, violated** (tree16 of length 4): `Size` panics if the prefix next to the one it has reached is released, as
the two nodes of the tree become one. -/
theorem C80_size_violated : ∃ g, Exec (tprog 0 (newG tree16 Bool 4)) (newG tree16 Bool 4) g
    [.inv 0 (.claim ⟨3, 16⟩ true), .ret 0 .done, .inv 1 (.claim ⟨9, 16⟩ true), .ret 1 .done, .inv 2 .size,
      .inv 3 (.release ⟨9, 16⟩), .ret 3 .done, .ret 2 .panic] :=
  exec_of_follow ([.start (.claim ⟨3, 16⟩ true)] ++ steps 0 6 ++ [.start (.claim ⟨9, 16⟩ true)] ++ steps 1 6 ++
    [.start .size] ++ steps 2 8 ++ [.start (.release ⟨9, 16⟩)] ++ steps 3 12 ++ steps 2 3) rfl

/-- **C80, violated** (tree16 of length 4): the prefix 8/13 is claimed before `GetAll` starts and never released,
but `GetAll` does not list it. -/
theorem C80_omits_violated : ∃ g, Exec (tprog 0 (newG tree16 Bool 4)) (newG tree16 Bool 4) g
    [.inv 0 (.claim ⟨0, 16⟩ true), .ret 0 .done, .inv 1 (.claim ⟨8, 13⟩ true), .ret 1 .done, .inv 2 .getAll,
      .inv 3 (.release ⟨0, 16⟩), .ret 3 .done, .inv 4 (.claim ⟨8, 16⟩ true), .ret 4 .done,
      .ret 2 (.all [some ⟨⟨8, 16⟩, true⟩])] :=
  exec_of_follow ([.start (.claim ⟨0, 16⟩ true)] ++ steps 0 6 ++ [.start (.claim ⟨8, 13⟩ true)] ++ steps 1 6 ++
    [.start .getAll] ++ steps 2 7 ++ [.start (.release ⟨0, 16⟩)] ++ steps 3 12 ++ [.start (.claim ⟨8, 16⟩ true)] ++
    steps 4 6 ++ steps 2 7) rfl

/-- the hypotheses of `C80_reads_partial`: `GetAll` between two claims, at the same time as `Children` -/
example : ∃ g H, Exec (tprog 0 (newG tree16 Bool 4)) (newG tree16 Bool 4) g H ∧ (∀ n c, Ev.inv n c ∈ H → c.Fits) ∧
    Ev.inv 1 .getAll ∈ H ∧ Ev.ret 1 (.all [some ⟨⟨3, 16⟩, true⟩]) ∈ H ∧ ¬ Disturbed TCall.Changes H 1 := by
  refine ⟨_, _, exec_of_follow' ([.start (.claim ⟨3, 16⟩ true)] ++ steps 0 6 ++ [.start .getAll] ++ steps 1 7 ++
    [.start (.children ⟨0, 14⟩)] ++ steps 2 3 ++ steps 1 5 ++ [.start (.claim ⟨4, 16⟩ true)] ++ steps 3 1) rfl, ?_, ?_, ?_, ?_⟩
  · intro n c hc
    simp only [List.nil_append, List.cons_append, List.append_nil, Option.toList_some, Option.toList_none, List.mem_cons,
      Ev.inv.injEq, List.not_mem_nil, or_false, reduceCtorEq, false_or] at hc
    rcases hc with ⟨_, rfl⟩ | ⟨_, rfl⟩ | ⟨_, rfl⟩ | ⟨_, rfl⟩
    · exact Nat.le_refl _
    · trivial
    · trivial
    · exact Nat.le_refl _
  · exact .tail _ (.tail _ (.head _))
  · exact .tail _ (.tail _ (.tail _ (.tail _ (.head _))))
  · rintro ⟨m, c, hb, hm, h1, h2⟩
    simp only [List.nil_append, List.cons_append, List.append_nil, Option.toList_some, Option.toList_none, List.mem_cons,
      Ev.inv.injEq, List.not_mem_nil, or_false, reduceCtorEq, false_or] at hm
    rcases hm with ⟨rfl, rfl⟩ | ⟨rfl, rfl⟩ | ⟨rfl, rfl⟩ | ⟨rfl, rfl⟩
    · exact h1 ⟨.done, .getAll, .cons _ (.cons_cons _ (.cons_cons _ (List.nil_sublist _)))⟩
    · exact hb
    · exact hb
    · exact h2 ⟨.all [some ⟨⟨3, 16⟩, true⟩], .claim ⟨4, 16⟩ true,
        .cons _ (.cons _ (.cons _ (.cons _ (.cons_cons _ (.cons_cons _ (List.nil_sublist _))))))⟩

end Verif.Conc
