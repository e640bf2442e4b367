import Verif.Conc.TreeRead
import Verif.Conc.Between
import Verif.GTree.IterProps

/-!
Property C119: `GetAll`, `GetByLabel` and `Size` while others replace the entries of claimed prefixes. The loops run without
lock; the tree keeps its shape, so that they visit the same nodes, but the entries may be old or new ones.
-/

set_option linter.unusedSectionVars false
namespace Verif.Conc
open Verif.Id Verif.GTree
open Verif.Tree (Out Sh Iter Run widthOk_of)

variable {I : Impl} {L : Type} [Labels L] {N : Nat}

/-! ### Specification -/

/-- the call replaces the entry of a prefix that is claimed in `M` -/
def TCall.Replaces (M : Map I.P L) (c : TCall I L) : Prop :=
  ∃ id l, (c = .update id l ∨ c = .claim id l) ∧ id.len ≤ I.P.W ∧ M (pre id) ≠ none

/-- of the prefixes `qs`, some have an entry with matching labels; an entry of each of these is picked -/
inductive Picks {P : Pkg} {L : Type} (had : List Bool → Entry P L → Prop) (sel : L → Bool) :
    List (List Bool) → List (Entry P L) → Prop
  | nil : Picks had sel [] []
  | skip {q qs e es} : had q e → sel e.labels = false → Picks had sel qs es → Picks had sel (q :: qs) es
  | take {q qs e e' es} : had q e → sel e.labels = true → had q e' → Picks had sel qs es → Picks had sel (q :: qs) (e' :: es)

theorem Picks.imp {P : Pkg} {L : Type} {had had' : List Bool → Entry P L → Prop} (h : ∀ q e, had q e → had' q e) {sel : L → Bool}
    {qs : List (List Bool)} {es : List (Entry P L)} (hp : Picks had sel qs es) : Picks had' sel qs es := by
  induction hp with
  | nil => exact .nil
  | skip a1 a2 _ ih => exact .skip (h _ _ a1) a2 ih
  | take a1 a2 a3 _ ih => exact .take (h _ _ a1) a2 (h _ _ a3) ih

/-- the reply `r` lists the prefixes `qs` with entries that they had -/
def Listed (had : List Bool → Entry I.P L → Prop) (qs : List (List Bool)) : TCall I L → TReply I L → Prop
  | .getAll, r => ∃ es, r = .all (es.map some) ∧ List.Forall₂ had qs es
  | .getByLabel sel, r => ∃ es, r = .entries es ∧ Picks had sel qs es
  | .size, r => r = .nat qs.length
  | _, _ => False

/-! ### The loops -/

section
variable {length : Nat} {s : Sh} {P : GTree I L → Prop} {t : Tree.Tree (Option (Entry I.P L))}

theorem saw_nextC (ht : Verif.Tree.Inv I.P.W t s) (hP : ∀ m, P m → Verif.Tree.Inv I.P.W m.tree s)
    {k : Bool → Iter → TClient I L} {r : TReply I L} : ∀ {n : Nat} {it it' : Iter} {b : Bool}, it.At s →
    Tree.nextLoop t n it = .ok (b, it') → ((nextC n it k).compile tsec).SawP P (.ret r) → ((k b it').compile tsec).SawP P (.ret r)
  | 0, it, it', b, _, h, _ => by cases h
  | n + 1, it, it', b, hi, h, hs => by
    obtain ⟨m, hm, hs⟩ := hs.read
    obtain ⟨e1, e2⟩ := Verif.Tree.round_same ht (hP m hm) hi
    simp only [e1] at hs
    have h' : (Tree.round t it >>= fun r => match r with
      | .cont it => Tree.nextLoop t n it
      | .found it => .ok (true, it)
      | .finished it => .ok (false, it)) = .ok (b, it') := h
    cases hr : Tree.round t it with
    | ok x =>
      rw [hr] at h' hs
      have ha := e2 x hr
      cases x with
      | cont it => exact saw_nextC ht hP ha h' hs
      | found it => cases h'; exact hs
      | finished it => cases h'; exact hs
    | _ => rw [hr] at h'; cases h'

/-- the loop goes through the prefixes; each round changes the result by `R` -/
inductive Folds {A : Type} (R : List Bool → A → A → Prop) : List (List Bool) → A → A → Prop
  | nil {a} : Folds R [] a a
  | cons {q qs a b c} : R q a b → Folds R qs b c → Folds R (q :: qs) a c

theorem saw_loopC (ht : Verif.Tree.Inv I.P.W t s) (hP : ∀ m, P m → Verif.Tree.Inv I.P.W m.tree s) {A : Type}
    {body : A → Nat → (A → TClient I L) → TClient I L} {R : List Bool → A → A → Prop} {k : A → TClient I L} {r : TReply I L}
    (hb : ∀ q x c, (q, x, c) ∈ s.entries [] → ∀ acc k, ((body acc x k).compile tsec).SawP P (.ret r) →
      ∃ acc', R q acc acc' ∧ ((k acc').compile tsec).SawP P (.ret r))
    {it' : Iter} (hend : Verif.Tree.round t it' = .ok (.finished it')) :
    ∀ (K : List (List Bool × Nat × Nat)) (n M : Nat) (it : Iter) (acc : A), (∀ x ∈ K, x ∈ s.entries []) →
      Run t n it (K.map (·.2.1)) it' → n ≤ 3 * s.idxs.length → it.At s → K.length < M →
      ((loopC N body M it acc k).compile tsec).SawP P (.ret r) →
      ∃ acc', Folds R (K.map (·.1)) acc acc' ∧ ((k acc').compile tsec).SawP P (.ret r) := by
  intro K
  induction K with
  | nil =>
    intro n M it acc _ hr hn hi hM hs
    cases M with
    | zero => simp at hM
    | succ M =>
      obtain ⟨m, hm, hs⟩ := hs.read
      have hl := (hP m hm).idxs_le
      rcases Verif.Tree.nextLoop_run hr hend (fuel := N + (3 * m.tree.nodes.length + 1)) (by omega) with
        ⟨_, e⟩ | ⟨_, _, _, _, e, _⟩
      · exact ⟨acc, .nil, saw_nextC ht hP hi e hs⟩
      · cases e
  | cons x K ih =>
    intro n M it acc hK hr hn hi hM hs
    cases M with
    | zero => simp at hM
    | succ M =>
      obtain ⟨m, hm, hs⟩ := hs.read
      have hl := (hP m hm).idxs_le
      rcases Verif.Tree.nextLoop_run hr hend (fuel := N + (3 * m.tree.nodes.length + 1)) (by omega) with
        ⟨e, _⟩ | ⟨y, out', it1, n', e, e1, e2, e3, e4⟩
      · cases e
      · cases e
        have ha := (Verif.Tree.nextLoop_same ht ht _ hi).2 _ e1
        have hs := saw_nextC ht hP hi e1 hs
        simp only [if_true, e2] at hs
        obtain ⟨q, i, c⟩ := x
        obtain ⟨acc1, r1, hs⟩ := hb q i c (hK _ (List.mem_cons_self ..)) _ _ hs
        obtain ⟨acc', r2, hs⟩ := ih n' M it1 acc1 (fun z hz => hK z (List.mem_cons_of_mem _ hz)) e4 (by omega) ha
          (by simpa using hM) hs
        exact ⟨acc', .cons r1 r2, hs⟩

theorem entries_le (s : Sh) : (s.entries []).length ≤ s.idxs.length := by
  have h : ∀ s : Sh, s.live.length ≤ s.idxs.length := by
    intro s
    induction s with
    | nil => simp [Sh.live]
    | node i p c ch ih =>
      have h0 := ih false
      have h1 := ih true
      simp only [Sh.live, Sh.idxs, List.length_append, List.length_cons]
      split <;> simp <;> omega
  have := h s
  rw [Sh.live_eq s [], List.length_map] at this
  exact this

theorem saw_walkC (hP : ∀ m, P m → Verif.Tree.Inv I.P.W m.tree s) {A : Type}
    {body : A → Nat → (A → TClient I L) → TClient I L} {R : List Bool → A → A → Prop} {k : A → TClient I L} {r : TReply I L}
    (hb : ∀ q x c, (q, x, c) ∈ s.entries [] → ∀ acc k, ((body acc x k).compile tsec).SawP P (.ret r) →
      ∃ acc', R q acc acc' ∧ ((k acc').compile tsec).SawP P (.ret r)) {acc : A}
    (hs : ((walkC N body acc k).compile tsec).SawP P (.ret r)) :
    ∃ acc', Folds R ((s.entries []).map (·.1)) acc acc' ∧ ((k acc').compile tsec).SawP P (.ret r) := by
  obtain ⟨m, hm, hs⟩ := hs.read
  have ht := hP m hm
  have hl := ht.idxs_le
  have hl2 := entries_le s
  obtain ⟨n, it', h1, h2, h3, h4⟩ := Verif.Tree.iter_start ht
  rw [Verif.Tree.Sh.live_eq s []] at h2
  exact saw_loopC ht hP hb h3 (s.entries []) n _ _ acc (fun _ h => h) h2 h1 h4 (by omega) hs

/-- a prefix and an entry that it has in a memory with `P` -/
def HadIn (length : Nat) (P : GTree I L → Prop) (q : List Bool) (e : Entry I.P L) : Prop :=
  ∃ m, P m ∧ ∃ M, GInv length m M ∧ M q = some e

theorem saw_entryC (hP : ∀ m, P m → ∃ M, SInv length s m M) {q : List Bool} {x c : Nat} (hx : (q, x, c) ∈ s.entries [])
    {k : Option (Entry I.P L) → TClient I L} {r : TReply I L} (hs : ((entryC x k).compile tsec).SawP P (.ret r)) :
    ∃ e, HadIn length P q e ∧ ((k (some e)).compile tsec).SawP P (.ret r) := by
  obtain ⟨m, hm, hs⟩ := hs.read
  obtain ⟨M, hM⟩ := hP m hm
  have hne : M q ≠ none := hM.mem.2 ⟨x, c, hx⟩
  cases hq : M q with
  | none => exact absurd hq hne
  | some e =>
    have hv := Verif.Tree.vals_at hM.inv hx
    rw [← hM.abs.entry q x c hx] at hv
    simp only [hat, hq] at hv
    simp only [hv] at hs
    exact ⟨e, ⟨m, hm, M, hM.ginv, hq⟩, hs⟩

theorem folds_all {had : List Bool → Entry I.P L → Prop} {qs : List (List Bool)} {a b : List (Option (Entry I.P L))}
    (h : Folds (fun q acc acc' => ∃ e, had q e ∧ acc' = acc ++ [some e]) qs a b) :
    ∃ es, b = a ++ es.map some ∧ List.Forall₂ had qs es := by
  induction h with
  | nil => exact ⟨[], by simp, .nil⟩
  | cons h _ ih =>
    obtain ⟨e, h1, rfl⟩ := h
    obtain ⟨es, rfl, h3⟩ := ih
    exact ⟨e :: es, by simp, .cons h1 h3⟩

theorem folds_size {A : Type} {qs : List (List Bool)} {a b : Nat} (h : Folds (fun _ acc acc' => acc' = acc + 1) qs a b) :
    b = a + qs.length := by
  induction h with
  | nil => simp
  | cons h _ ih => rw [ih, h, List.length_cons]; omega

theorem folds_label {had : List Bool → Entry I.P L → Prop} {sel : L → Bool} {qs : List (List Bool)}
    {a b : List (Option (Entry I.P L))}
    (h : Folds (fun q acc acc' => (∃ e, had q e ∧ sel e.labels = false ∧ acc' = acc) ∨
      ∃ e e', had q e ∧ sel e.labels = true ∧ had q e' ∧ acc' = acc ++ [some e']) qs a b) :
    ∃ es, b = a ++ es.map some ∧ Picks had sel qs es := by
  induction h with
  | nil => exact ⟨[], by simp, .nil⟩
  | cons h _ ih =>
    obtain ⟨es, rfl, h3⟩ := ih
    rcases h with ⟨e, h1, h2, rfl⟩ | ⟨e, e', h1, h2, h4, rfl⟩
    · exact ⟨es, rfl, .skip h1 h2 h3⟩
    · exact ⟨e' :: es, by simp, .take h1 h2 h4 h3⟩

/-- the readers, if all the trees they see have the same shape -/
theorem saw_reader (g₀ : GTree I L) (hP : ∀ m, P m → ∃ M, SInv length s m M) {c : TCall I L} {r : TReply I L}
    (hc : c = .getAll ∨ (∃ sel, c = .getByLabel sel) ∨ c = .size) (hs : (tprog N g₀ c).SawP P (.ret r)) :
    Listed (HadIn length P) ((s.entries []).map (·.1)) c r := by
  have hP' : ∀ m, P m → Verif.Tree.Inv I.P.W m.tree s := fun m hm => (hP m hm).elim fun _ h => h.inv
  rcases hc with rfl | ⟨sel, rfl⟩ | rfl
  · obtain ⟨m, _, hs⟩ := hs.rlock.read
    obtain ⟨acc, h1, h2⟩ := saw_walkC (N := N) (body := allBody) (acc := []) (k := fun es => .ret (.all es)) hP'
      (R := fun q acc acc' => ∃ e, HadIn length P q e ∧ acc' = acc ++ [some e])
      (fun q x c hx acc k hs => by
        obtain ⟨e, h1, h2⟩ := saw_entryC hP hx hs
        exact ⟨_, ⟨e, h1, rfl⟩, h2⟩) hs.runlock
    obtain ⟨es, rfl, h3⟩ := folds_all h1
    exact ⟨es, by simpa using h2.ret, h3⟩
  · obtain ⟨m, _, hs⟩ := hs.rlock.read
    obtain ⟨acc, h1, h2⟩ := saw_walkC (N := N) (body := labelBody sel) (acc := []) (k := fun es => .ret (replyList es)) hP'
      (R := fun q acc acc' => (∃ e, HadIn length P q e ∧ sel e.labels = false ∧ acc' = acc) ∨
      ∃ e e', HadIn length P q e ∧ sel e.labels = true ∧ HadIn length P q e' ∧ acc' = acc ++ [some e'])
      (fun q x c hx acc k hs => by
        obtain ⟨e, h1, h2⟩ := saw_entryC hP hx hs
        simp only at h2
        by_cases hsel : sel e.labels = true
        · rw [if_pos hsel] at h2
          obtain ⟨e', h3, h4⟩ := saw_entryC hP hx h2
          exact ⟨_, .inr ⟨e, e', h1, hsel, h3, rfl⟩, h4⟩
        · rw [if_neg hsel] at h2
          exact ⟨_, .inl ⟨e, h1, by simpa using hsel, rfl⟩, h2⟩) hs.runlock
    obtain ⟨es, rfl, h3⟩ := folds_label h1
    refine ⟨es, ?_, h3⟩
    have := h2.ret
    rw [List.nil_append, replyList_map] at this
    exact this
  · obtain ⟨m, _, hs⟩ := hs.rlock.read
    obtain ⟨acc, h1, h2⟩ := saw_walkC (N := N) (body := sizeBody) (acc := 0) (k := fun n => .ret (.nat n)) hP'
      (R := fun _ acc acc' => acc' = acc + 1) (fun q x c hx acc k hs => ⟨_, rfl, hs⟩) hs.runlock
    have h3 := folds_size (A := Unit) h1
    rw [Nat.zero_add] at h3
    rw [h3] at h2
    exact h2.ret

end

/-! ### Replacing an entry -/

/-- the shape stays -/
def Stays (length : Nat) (s : Sh) (m m' : GTree I L) : Prop := (∃ M, SInv length s m M) → ∃ M, SInv length s m' M

theorem grows_replace (hI : I = tree16 ∨ I = tree32) (g₀ : GTree I L) {length : Nat} {s : Sh} {c : TCall I L}
    (hc : c.Changes → ∃ id l, (c = .update id l ∨ c = .claim id l) ∧ id.len ≤ I.P.W ∧ ∃ x n, (pre id, x, n) ∈ s.entries []) :
    Grows (Stays length s) (tprog N g₀ c) := by
  by_cases hch : c.Changes
  · obtain ⟨id, l, h1, h2, h3⟩ := hc hch
    have hw : ∀ m : GTree I L, Stays length s m (after m (m.set id ⟨id, l⟩)) := by
      rintro m ⟨M, hM⟩
      obtain ⟨g', e1, e2⟩ := set_sinv (ok_of hI) hM h2 (hM.mem.2 h3) l
      rw [e1]
      exact ⟨_, e2⟩
    have hsec : Grows (Stays length s) (tsec (.set id l) : Prog (GTree I L) (TSecR I L)) :=
      Grows.withLock (.read fun _ => .write hw (.ret _))
    have hd : ∀ r : TSecR I L, Grows (Stays length s) ((replyDone (I := I) (L := L) .done r).compile tsec) := by
      intro r
      cases r <;> exact .ret _
    have : Grows (Stays length s) ((if !g₀.valid id then (.ret .err : TClient I L) else .call (.set id l) (replyDone .done)).compile tsec) := by
      split
      · exact .ret _
      · exact hsec.bind hd
    rcases h1 with rfl | rfl <;> exact this
  · exact (tprog_noW g₀ c hch).grows

/-! ### Theorems -/

/-- **C119, partial** (tree16; tree32 while it has room) A `GetAll`, `GetByLabel` or `Size` that overlaps only with calls that
replace the entries of prefixes claimed when it starts (and with calls that change nothing) lists exactly the claimed
prefixes, in order, each once, each with an entry that it had at a moment during the call. -/
theorem C119_replaced_partial (hI : I = tree16 ∨ I = tree32) {g₀ m₀ : GTree I L}
    {g₁ g₂ g : Cfg (TCall I L) (GTree I L) (TReply I L)} {H₁ H₂ : List (Ev (TCall I L) (TReply I L))} {n : Nat} {c : TCall I L}
    (h₁ : Exec (tprog N g₀) m₀ g₁ H₁) (hs : Step (tprog N g₀) g₁ (some (.inv n c)) g₂) (h₂ : Later (tprog N g₀) g₂ g H₂)
    {r : TReply I L} (hr : Ev.ret n r ∈ H₂) (hc : c = .getAll ∨ (∃ sel, c = .getByLabel sel) ∨ c = .size)
    {length : Nat} {M : Map I.P L} (hM : GInv length g₁.mem M)
    (ho : ∀ m d, Ev.inv m d ∈ H₁ ++ .inv n c :: H₂ → d.Changes → Overlap (H₁ ++ .inv n c :: H₂) m n → d.Replaces M) :
    ∃ qs, qs.Pairwise (· < ·) ∧ (∀ q, q ∈ qs ↔ M q ≠ none) ∧
      Listed (fun q e => ∃ g', Between (tprog N g₀) g₂ g H₂ n g' ∧ ∃ M', GInv length g'.mem M' ∧ M' q = some e) qs c r := by
  obtain ⟨s, hS⟩ := hM.sinv
  have hE : Exec (tprog N g₀) m₀ g₂ (H₁ ++ [.inv n c]) := .step h₁ hs
  have hmem : g₂.mem = g₁.mem := by cases hs; rfl
  have hth : g₂.th[n]? = some ⟨c, some (tprog N g₀ c), 0, .none⟩ := by
    cases hs
    simp
  have hd : ¬ Disturbed (fun d => d.Changes ∧ ¬ d.Replaces M) ((H₁ ++ [.inv n c]) ++ H₂) n := by
    rw [List.append_assoc]
    rintro ⟨m, d, ⟨h1, h2⟩, h3, h4⟩
    exact h2 (ho m d h3 h1 h4)
  have hgr : ∀ d : TCall I L, ¬ (d.Changes ∧ ¬ d.Replaces M) → Grows (Stays length s) (tprog N g₀ d) := by
    intro d hnd
    refine grows_replace hI g₀ fun hch => ?_
    obtain ⟨id, l, k1, k2, k3⟩ := Classical.not_not.1 fun h => hnd ⟨hch, h⟩
    exact ⟨id, l, k1, k2, hS.mem.1 k3⟩
  obtain ⟨x, hx, hres⟩ := later_saw (le := Stays length s) (fun _ h => h) (fun h h' k => h' (h k)) hgr hE hth rfl h₂ hd
  have hsaw : ∃ l, (tprog N g₀ c).Saw l (.ret r) ∧ ∀ m ∈ l, ∃ g', Between (tprog N g₀) g₂ g H₂ n g' ∧
      Stays length s g₂.mem g'.mem ∧ g'.mem = m := by
    rcases hres with ⟨p, l, _, _, hno, _⟩ | ⟨_, h⟩
    · exact absurd hr (hno r)
    · exact h r hr
  obtain ⟨l, hl1, hl2⟩ := hsaw
  have hlist := saw_reader (length := length) (s := s) (N := N) g₀ (c := c) (r := r)
    (P := fun m => ∃ g', Between (tprog N g₀) g₂ g H₂ n g' ∧ Stays length s g₂.mem g'.mem ∧ g'.mem = m)
    (by
      rintro m ⟨g', _, h1, rfl⟩
      exact h1 ⟨M, hmem ▸ hS⟩) hc ⟨l, hl1, hl2⟩
  refine ⟨(s.entries []).map (·.1), ?_, fun q => ?_, ?_⟩
  rotate_left 2
  · have himp : ∀ q e, HadIn length (fun m => ∃ g', Between (tprog N g₀) g₂ g H₂ n g' ∧ Stays length s g₂.mem g'.mem ∧ g'.mem = m) q e →
        ∃ g', Between (tprog N g₀) g₂ g H₂ n g' ∧ ∃ M', GInv length g'.mem M' ∧ M' q = some e := by
      rintro q e ⟨m, ⟨g', k1, k2, rfl⟩, k3⟩
      exact ⟨g', k1, k3⟩
    rcases hc with rfl | ⟨sel, rfl⟩ | rfl
    · obtain ⟨es, k1, k2⟩ := hlist
      exact ⟨es, k1, k2.imp himp⟩
    · obtain ⟨es, k1, k2⟩ := hlist
      exact ⟨es, k1, k2.imp himp⟩
    · exact hlist
  · rw [List.pairwise_map]
    exact Sh.entries_sorted [] (.inr hS.inv.wf)
  · rw [hS.mem, List.mem_map]
    constructor
    · rintro ⟨⟨q, x, c⟩, h, rfl⟩; exact ⟨x, c, h⟩
    · rintro ⟨x, c, h⟩; exact ⟨_, h, rfl⟩

/-! ### The tree at all moments -/

theorem Keeps.and {κ σ β : Type} {J J' : σ → Prop} {p : Prog σ β} (h : Keeps J p) : Keeps J' p → Keeps (fun m => J m ∧ J' m) p := by
  induction h with
  | ret r => exact fun _ => .ret r
  | read _ ih => intro h'; cases h' with | read k => exact .read fun s hs => ih s hs.1 (k s hs.2)
  | write h1 _ ih => intro h'; cases h' with | write k1 k2 => exact .write (fun m hm => ⟨h1 m hm.1, k1 m hm.2⟩) (ih k2)
  | rlock _ ih => intro h'; cases h' with | rlock k => exact .rlock (ih k)
  | runlock _ ih => intro h'; cases h' with | runlock k => exact .runlock (ih k)
  | lock _ ih => intro h'; cases h' with | lock k => exact .lock (ih k)
  | unlock _ ih => intro h'; cases h' with | unlock k => exact .unlock (ih k)

theorem Client.Within.and_uses {κ₀ ρ₀ σ ρ : Type} {J J' : σ → Prop} (hJ : ∀ s, J' s → J s) {S S' : κ₀ → Prop} {pk : Prop}
    {d : Client κ₀ ρ₀ σ ρ} (h : d.Within J S) : d.Uses S' pk → d.Within J' (fun x => S x ∧ S' x) := by
  induction h with
  | ret r => exact fun _ => .ret r
  | call h1 _ ih => intro h'; cases h' with | call k1 k2 => exact .call ⟨h1, k1⟩ fun r => ih r (k2 r)
  | peek _ ih => intro h'; cases h' with | peek k1 k2 => exact .peek fun s hs => ih s (hJ s hs) (k2 s)

/-- what the sections keep -/
def Shaped (length : Nat) (m : GTree I L) : Prop := ∃ M, GInv length m M ∧ (I.P.W = 32 → LowMap M)

theorem shaped_sem (hI : Ok I) {length : Nat} {x : TSec I L} (hx : x.Fits) (hl : I.P.W = 32 → x.Low) {m : GTree I L}
    (h : Shaped length m) : Shaped length (tsem m x).1 := by
  obtain ⟨M, h1, h2⟩ := h
  have hlow : I.P.W = 32 → LowMap (x.eff M) := fun hw => eff_low (h2 hw) hx (hl hw)
  exact ⟨_, (tsem_inv hI h1 hx fun hw => low_room hI (hlow hw) hw).1, hlow⟩

theorem keeps_shaped (hI : Ok I) {length : Nat} {x : TSec I L} (hx : x.Fits) (hl : I.P.W = 32 → x.Low) :
    Keeps (Shaped length) (tsec x) := by
  have hsem : ∀ m, Shaped length m → Shaped length (tsem m x).1 := fun m h => shaped_sem hI hx hl h
  cases x with
  | get id | children id | parents id => exact .rlock (.rlock (.read fun _ _ => .runlock (.read fun _ _ => .runlock (.ret _))))
  | iterate => exact .rlock (.read fun _ _ => .runlock (.ret _))
  | set id l | del id e | delAll es => exact .lock (.read fun _ _ => .write hsem (.unlock (.ret _)))
  | setAll l ids => cases hx

/-- At every moment of an execution from a new tree (tree16; tree32 of length at most 31), the tree represents a map: this is
`hM` of `C119_replaced_partial`. -/
theorem C119_moments (hI : I = tree16 ∨ I = tree32) {length : Nat} (hle : length ≤ I.P.W) (h32 : I.P.W = 32 → length ≤ 31)
    {g : Cfg (TCall I L) (GTree I L) (TReply I L)} {H} (h : Exec (tprog N (newG I L length)) (newG I L length) g H)
    (hf : ∀ n c, Ev.inv n c ∈ H → c.Fits) : ∃ M, GInv length g.mem M := by
  have hok := ok_of hI
  have hstart : Tidy (newG I L length) ∧ Shaped length (newG I L length) :=
    ⟨tidy_new hle, _, (reach_new (I := I) (L := L) hle).ginv hI, fun _ => lowMap_empty⟩
  have := (exec_holds (J := fun m => Tidy m ∧ Shaped length m) (texec h hf) hstart fun n c hn => ?_).1
  · obtain ⟨_, M, h1, _⟩ := this
    exact ⟨M, h1⟩
  · have hfit := hf n c hn
    have hu : (tcode N (newG I L length) c).Uses (fun x => I.P.W = 32 → x.Low) True :=
      tcode_uses (newG I L length) hfit _ True (fun _ _ => trivial) (fun _ _ => trivial) (fun _ _ => trivial) (fun _ => trivial)
        (fun i _ _ hv hw => by
          obtain ⟨i', h1, h2⟩ := hv
          have := (valid_size rfl hle hok.pos i').1 h1
          have hp : 2 ^ length ≤ 2 ^ 31 := Nat.pow_le_pow_right (by decide) (h32 hw)
          show i.id.toNat < _
          rw [← h2]
          omega) (fun _ _ _ _ _ => trivial) (fun _ _ _ _ => trivial) (fun _ => trivial)
    refine ((tcode_within (N := N) (newG I L length) hfit).and_uses (J' := fun m => Tidy m ∧ Shaped length m) (fun _ h => h.1) hu).keeps
      fun x hx => ?_
    exact Keeps.and (κ := Unit) (keeps_tsec (widthOk_of (by rcases hok with h | h <;> simp [h])) (.inl hx.1.1)) (keeps_shaped hok hx.1.1 hx.2)

/-- **C119, violated** (tree16 of length 4): `GetByLabel` reads each entry twice. An update between the two makes it return an
entry whose labels do not match. -/
theorem C119_label_violated : ∃ g, Exec (tprog 0 (newG tree16 Bool 4)) (newG tree16 Bool 4) g
    [.inv 0 (.claim ⟨3, 16⟩ true), .ret 0 .done, .inv 1 (.getByLabel id), .inv 2 (.update ⟨3, 16⟩ false), .ret 2 .done,
      .ret 1 (.entries [⟨⟨3, 16⟩, false⟩])] :=
  exec_of_follow ([.start (.claim ⟨3, 16⟩ true)] ++ steps 0 6 ++ [.start (.getByLabel id)] ++ steps 1 8 ++
    [.start (.update ⟨3, 16⟩ false)] ++ steps 2 6 ++ steps 1 5) rfl

theorem follow_later {κ σ ρ : Type} {code : κ → Prog σ ρ} : ∀ {l : List (Move κ)} {g g' : Cfg κ σ ρ} {H H' : List (Ev κ ρ)},
    follow code l g H = some (g', H') → ∃ H'', H' = H ++ H'' ∧ Later code g g' H''
  | [], _, _, _, _, h => by cases h; exact ⟨[], by simp, .refl⟩
  | mv :: l, g, _, H, _, h => by
    unfold follow at h
    cases ha : act code g mv with
    | none => rw [ha] at h; cases h
    | some x =>
      rw [ha] at h
      obtain ⟨H'', rfl, h2⟩ := follow_later h
      exact ⟨x.1.toList ++ H'', by simp, (by simpa using Later.refl.step (act_sound ha) : Later code g x.2 x.1.toList).trans h2⟩

/-- two prefixes are claimed -/
def replaceStart : Cfg (TCall tree16 Bool) (GTree tree16 Bool) (TReply tree16 Bool) :=
  match follow (tprog 0 (newG tree16 Bool 4)) ([.start (.claim ⟨3, 16⟩ true)] ++ steps 0 6 ++ [.start (.claim ⟨9, 16⟩ true)] ++
    steps 1 6) ⟨newG tree16 Bool 4, []⟩ [] with
  | some (g, _) => g
  | none => ⟨newG tree16 Bool 4, []⟩

/-- and `GetAll` has started -/
def replaceCall : Cfg (TCall tree16 Bool) (GTree tree16 Bool) (TReply tree16 Bool) :=
  ⟨replaceStart.mem, replaceStart.th ++ [⟨.getAll, some (tprog 0 (newG tree16 Bool 4) .getAll), 0, .none⟩]⟩

/-- the hypotheses of `C119_replaced_partial`: two prefixes are claimed; `GetAll` reads the first entry, then both are updated,
then it reads the second one. The reply has the old first and the new second entry, as the tree never had. -/
example : ∃ (g₁ g₂ g : Cfg (TCall tree16 Bool) (GTree tree16 Bool) (TReply tree16 Bool)) (H₁ H₂ : List (Ev (TCall tree16 Bool) (TReply tree16 Bool)))
    (M : Map tree16.P Bool),
    Exec (tprog 0 (newG tree16 Bool 4)) (newG tree16 Bool 4) g₁ H₁ ∧
    Step (tprog 0 (newG tree16 Bool 4)) g₁ (some (.inv 2 .getAll)) g₂ ∧ Later (tprog 0 (newG tree16 Bool 4)) g₂ g H₂ ∧
    Ev.ret 2 (.all [some ⟨⟨3, 16⟩, true⟩, some ⟨⟨9, 16⟩, false⟩]) ∈ H₂ ∧ GInv 4 g₁.mem M ∧
    ∀ m d, Ev.inv m d ∈ H₁ ++ .inv 2 .getAll :: H₂ → d.Changes → Overlap (H₁ ++ .inv 2 .getAll :: H₂) m 2 → d.Replaces M := by
  have h₁ : Exec (tprog 0 (newG tree16 Bool 4)) (newG tree16 Bool 4) replaceStart
      [.inv 0 (.claim ⟨3, 16⟩ true), .ret 0 .done, .inv 1 (.claim ⟨9, 16⟩ true), .ret 1 .done] :=
    exec_of_follow' ([.start (.claim ⟨3, 16⟩ true)] ++ steps 0 6 ++ [.start (.claim ⟨9, 16⟩ true)] ++ steps 1 6) rfl
  obtain ⟨H₂, e, h₂⟩ := follow_later (code := tprog 0 (newG tree16 Bool 4)) (H := []) (g := replaceCall)
    (l := steps 2 9 ++ [.start (.update ⟨3, 16⟩ false)] ++ steps 3 6 ++ [.start (.update ⟨9, 16⟩ false)] ++ steps 4 6 ++ steps 2 10)
    (H' := [.inv 3 (.update ⟨3, 16⟩ false), .ret 3 .done, .inv 4 (.update ⟨9, 16⟩ false), .ret 4 .done,
      .ret 2 (.all [some ⟨⟨3, 16⟩, true⟩, some ⟨⟨9, 16⟩, false⟩])]) rfl
  rw [List.nil_append] at e
  subst e
  obtain ⟨M, hM⟩ := C119_moments (.inl rfl) (by decide) (fun h => by cases h) h₁ (by
    intro n c hc
    simp only [List.mem_cons, Ev.inv.injEq, List.not_mem_nil, or_false, reduceCtorEq, false_or] at hc
    rcases hc with ⟨_, rfl⟩ | ⟨_, rfl⟩ <;> exact Nat.le_refl _)
  have hin : ∀ {id : MyId tree16.P} {e}, replaceStart.mem.get id = .ok (some e) → M (pre id) ≠ none := by
    intro id e he hn
    rw [get_spec hM, hn] at he
    cases he
  have h3 : M (pre (P := tree16.P) ⟨3, 16⟩) ≠ none := hin (e := ⟨⟨3, 16⟩, true⟩) rfl
  have h9 : M (pre (P := tree16.P) ⟨9, 16⟩) ≠ none := hin (e := ⟨⟨9, 16⟩, true⟩) rfl
  refine ⟨_, replaceCall, _, _, _, M, h₁, .inv _, h₂, by simp, hM, ?_⟩
  intro m d hd hch hov
  simp only [List.cons_append, List.nil_append, List.mem_cons, Ev.inv.injEq, List.not_mem_nil, or_false, reduceCtorEq,
    false_or] at hd
  rcases hd with ⟨rfl, rfl⟩ | ⟨rfl, rfl⟩ | ⟨rfl, rfl⟩ | ⟨rfl, rfl⟩ | ⟨rfl, rfl⟩
  · exact ⟨_, _, .inr rfl, Nat.le_refl _, h3⟩
  · exact ⟨_, _, .inr rfl, Nat.le_refl _, h9⟩
  · cases hch
  · exact ⟨_, _, .inl rfl, Nat.le_refl _, h3⟩
  · exact ⟨_, _, .inl rfl, Nat.le_refl _, h9⟩

end Verif.Conc
