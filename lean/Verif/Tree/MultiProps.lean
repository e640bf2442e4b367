import Verif.Tree.Props

/-! Trees with several values under a prefix: a tree is a map from prefixes to lists of values (C99), and what
`Set` and `Delete` do to these lists (C47, C48). -/

set_option linter.unusedSectionVars false
namespace Verif.Tree
open Verif.Id
variable {T : Type} [Inhabited T] {P : Pkg}

/-! ### Specification -/

/-- one of the values is a duplicate of `v` -/
def dupB (m : Option (T → T → Bool)) (v : T) (l : List T) : Bool :=
  match m with
  | none => false
  | some m => l.any (fun x => m x v)

/-- `xs` appended to `acc`, leaving out what is a duplicate of an earlier one -/
def distinct (m : T → T → Bool) : List T → List T → List T
  | acc, [] => acc
  | acc, x :: xs => if acc.any (fun y => m y x) then distinct m acc xs else distinct m (acc ++ [x]) xs

/-- the values under the prefix of a call after it -/
def Op.values (l : List T) : Op P T → List T
  | .set _ v => match l with
    | [] => [v]
    | _ :: r => v :: r
  | .add _ v m => if dupB m v l then l else l ++ [v]
  | .delete _ m v => distinct m [] (l.filter (fun x => !m x v))

/-- the result of a call, `l` being the values under its prefix -/
def Op.reply (l : List T) : Op P T → Res
  | .set _ _ => .added l.isEmpty (max 1 l.length)
  | .add _ v m => .added (!dupB m v l) (if dupB m v l then l.length else l.length + 1)
  | .delete _ m v => .deleted (l.filter (fun x => m x v)).length

/-- the map after a call -/
def Op.lists (o : Op P T) (M : List Bool → List T) : List Bool → List T :=
  fun q => if q = o.pfx then o.values (M q) else M q

/-- the map after a history -/
def listsOf : List (Op P T) → (List Bool → List T) → List Bool → List T
  | [], M => M
  | o :: os, M => listsOf os (o.lists M)

/-- the results of a history -/
def repliesOf : List (Op P T) → (List Bool → List T) → List Res
  | [], _ => []
  | o :: os, M => o.reply (M o.pfx) :: repliesOf os (o.lists M)

/-- at most `2^W` values under a prefix, and for width 32 no more nodes needed than there are keys for -/
def Fits (W : Nat) (M : List Bool → List T) : Prop :=
  (∀ q, (M q).length ≤ 2 ^ W) ∧
  (W = 32 → NeedsAtMost (2 ^ 32) (fun q => M q ≠ []))

/-! ### Lemmas -/

theorem addL_eq (m : Option (T → T → Bool)) (v : T) (l : List T) :
    addL m none v l = if dupB m v l then l else l ++ [v] := by
  cases m with
  | none => rfl
  | some m =>
    unfold addL dupB
    simp only
    cases hf : l.findIdx? (fun x => m x v) with
    | none =>
      have : l.any (fun x => m x v) = false := by
        rw [List.findIdx?_eq_none_iff] at hf
        simpa using hf
      simp [this]
    | some j =>
      obtain ⟨hj, hm, _⟩ := List.findIdx?_eq_some_iff_getElem.1 hf
      have : l.any (fun x => m x v) = true := List.any_eq_true.2 ⟨l[j], List.getElem_mem hj, hm⟩
      simp [this]

theorem foldl_addL (m : T → T → Bool) : ∀ (l acc : List T),
    l.foldl (fun acc x => addL (some m) none x acc) acc = distinct m acc l := by
  intro l
  induction l with
  | nil => intro acc; rfl
  | cons x xs ih =>
    intro acc
    rw [List.foldl_cons, ih, addL_eq]
    show _ = (if acc.any (fun y => m y x) then _ else _)
    unfold dupB
    simp only
    split <;> rfl

theorem addL_set_list (v : T) (l : List T) :
    addL (some (fun _ _ => true)) (some (fun _ => v)) v l = match l with | [] => [v] | _ :: r => v :: r := by
  cases l with
  | nil => rfl
  | cons x r => simp [addL, List.findIdx?_cons]

/-- one call -/
theorem exec_multi (hP : P.W = 16 ∨ P.W = 32) {t : Tree T} {s : Sh} {M : List Bool → List T}
    (h : Inv P.W t s) (ha : Abs t s M) (hsz : t.nodes.length ≤ 2 ^ (64 - P.W) + 1) (hf : Fits P.W M)
    (o : Op P T) (ho : o.id.len ≤ P.W) (hf' : Fits P.W (o.lists M)) :
    ∃ t' s', o.exec t = .ok (o.reply (M o.pfx), t') ∧ Inv P.W t' s' ∧ Abs t' s' (o.lists M) ∧
      t'.nodes.length ≤ 2 ^ (64 - P.W) + 1 := by
  have hP' : WidthOk P.W := by rcases hP with h | h <;> simp [WidthOk, h]
  have hpf : o.pfx = bitsId o.id := pfx_id o.id ho
  -- an addition
  have hadd : ∀ (v : T) (m : Option (T → T → Bool)) (u : Option (T → T)),
      addL m u v (M (bitsId o.id)) = o.values (M (bitsId o.id)) → o.values (M (bitsId o.id)) ≠ [] →
      ∃ bb c' t' s', t.add o.id v m u = .ok (bb, c', t') ∧ Inv P.W t' s' ∧ Abs t' s' (o.lists M) ∧
        c' = (o.values (M (bitsId o.id))).length ∧ c' = (M (bitsId o.id)).length + bb.toNat ∧
        t'.nodes.length ≤ 2 ^ (64 - P.W) + 1 := by
    intro v m u he hne
    have hlt : (addL m u v (M (bitsId o.id))).length ≤ 2 ^ P.W := by
      have := hf'.1 o.pfx
      unfold Op.lists at this
      rw [if_pos rfl, hpf] at this
      rw [he]; exact this
    obtain ⟨bb, c', t', s', h1, h2, h3, h4, h5, h6⟩ := add_abs hP' h ha o.id ho v m u hf.1 hlt
    have hsz' : t'.nodes.length ≤ 2 ^ (64 - P.W) + 1 := by
      refine h2.bound h3 hsz ?_
      rcases hP with hP | hP
      · exact .inl hP
      · refine .inr ⟨hP, (hf'.2 hP).mono ?_⟩
        · rintro q ⟨x, c, hx⟩
          show o.lists M q ≠ []
          unfold Op.lists
          rw [hpf]
          split
          · rename_i hq; rw [hq]; exact hne
          · rename_i hq
            rcases (h6 q).1 ⟨x, c, hx⟩ with h | ⟨x', c', h'⟩
            · exact absurd h hq
            · exact (ha.entry_iff h.wf (q := q)).2 ⟨x', c', h'⟩
    obtain ⟨g1, g2, g3⟩ := h5 hsz'
    refine ⟨bb, c', t', s', h1, h2, ?_, by rw [g2, he], g3, hsz'⟩
    have : o.lists M = setM M (bitsId o.id) (addL m u v (M (bitsId o.id))) := by
      funext q
      unfold Op.lists setM
      rw [hpf, he]
      split
      · rename_i hq; rw [hq]
      · rfl
    rw [this]; exact g1
  cases o with
  | set id v =>
    obtain ⟨bb, c', t', s', h1, h2, h3, h4, h5, h6⟩ := hadd v (some (fun _ _ => true)) (some (fun _ => v))
      (addL_set_list v _) (by show (match M (bitsId id) with | [] => [v] | _ :: r => v :: r) ≠ []; split <;> simp)
    refine ⟨t', s', ?_, h2, h3, h6⟩
    rw [exec_set (id := id) h1, hpf]
    change c' = (match M (bitsId id) with | [] => [v] | _ :: r => v :: r).length at h4
    change c' = (M (bitsId id)).length + _ at h5
    show Out.ok (Res.added bb c', t') = Out.ok (Res.added (M (bitsId id)).isEmpty (max 1 (M (bitsId id)).length), t')
    cases hm : M (bitsId id) with
    | nil =>
      rw [hm] at h4 h5
      cases bb
      · simp at h4 h5; omega
      · simp at h4 h5; simp [h4]
    | cons a r =>
      rw [hm] at h4 h5
      cases bb
      · have : max 1 (r.length + 1) = r.length + 1 := by omega
        simp at h4 h5; simp [h4, this]
      · simp at h4 h5; omega
  | add id v m =>
    have hne : (Op.add id v m : Op P T).values (M (bitsId id)) ≠ [] := by
      show (if dupB m v (M (bitsId id)) then _ else _) ≠ []
      split
      · rename_i hd
        intro hm
        rw [hm] at hd
        cases m <;> simp [dupB] at hd
      · simp
    obtain ⟨bb, c', t', s', h1, h2, h3, h4, h5, h6⟩ := hadd v m none (addL_eq m v _) hne
    refine ⟨t', s', ?_, h2, h3, h6⟩
    rw [exec_add (id := id) h1, hpf]
    change c' = (if dupB m v (M (bitsId id)) then M (bitsId id) else M (bitsId id) ++ [v]).length at h4
    change c' = (M (bitsId id)).length + _ at h5
    show Out.ok (Res.added bb c', t') = Out.ok (Res.added (!dupB m v (M (bitsId id)))
      (if dupB m v (M (bitsId id)) then (M (bitsId id)).length else (M (bitsId id)).length + 1), t')
    cases hd : dupB m v (M (bitsId id)) with
    | false =>
      rw [hd] at h4
      cases bb
      · simp at h4 h5; omega
      · simp at h4 h5; simp [h4]
    | true =>
      rw [hd] at h4
      cases bb
      · simp at h4 h5; simp [h4]
      · simp at h4 h5; omega
  | delete id m v =>
    obtain ⟨t', s', h1, h2, h3, h4⟩ := delete_abs hP' h ha id ho v m hf.1 hsz
    refine ⟨t', s', ?_, h2, ?_, by omega⟩
    · rw [exec_delete h1, hpf]
      rfl
    · have : (Op.delete id m v : Op P T).lists M = setM M (bitsId id)
          (keepL m ((M (bitsId id)).filter (fun x => !m x v))) := by
        funext q
        unfold Op.lists setM keepL
        rw [hpf, foldl_addL]
        show (if q = bitsId id then _ else _) = _
        split
        · rename_i hq; rw [hq]; rfl
        · rfl
      rw [this]; exact h4

theorem run_multi (hP : P.W = 16 ∨ P.W = 32) : ∀ {os : List (Op P T)} {t : Tree T} {s : Sh}
    {M : List Bool → List T}, Inv P.W t s → Abs t s M → t.nodes.length ≤ 2 ^ (64 - P.W) + 1 →
    (∀ o ∈ os, o.id.len ≤ P.W) → (∀ n, Fits P.W (listsOf (os.take n) M)) →
    ∃ t' s', run t os = .ok (repliesOf os M, t') ∧ Inv P.W t' s' ∧ Abs t' s' (listsOf os M) ∧
      t'.nodes.length ≤ 2 ^ (64 - P.W) + 1 := by
  intro os
  induction os with
  | nil => intro t s M h ha hsz _ _; exact ⟨t, s, rfl, h, ha, hsz⟩
  | cons o os ih =>
    intro t s M h ha hsz ho hb
    obtain ⟨t1, s1, h1, h2, h3, h4⟩ := exec_multi hP h ha hsz (hb 0) o (ho o (by simp)) (hb 1)
    obtain ⟨t2, s2, g1, g2, g3, g4⟩ := ih h2 h3 h4 (fun o' h' => ho o' (by simp [h'])) (fun n => hb (n + 1))
    refine ⟨t2, s2, ?_, g2, g3, g4⟩
    rw [run, h1]
    simp only [Out.bind_ok]
    rw [g1]
    rfl

/-! ### C99 -/

/-- **C99, partial** (width 16 with at most `2^16` values under a prefix; width 32 with at most `2^32` values under
a prefix and prefixes that need at most `2^32` nodes) Every history of `Set`, `Add` and `Delete` has the results of the map
from prefixes to lists of values, and leaves the values of the map under every prefix; iteration yields
the lists that are not empty, in the order of the prefixes. Missing: more values or prefixes and width 64, where
prefixes share values (`C50`). -/
theorem C99_multimap_partial (hP : P = id16 ∨ P = id32) (os : List (Op P T)) (hos : ∀ o ∈ os, o.id.len ≤ P.W)
    (hb : ∀ n, Fits P.W (listsOf (os.take n) (fun _ => []))) :
    ∃ t, run (newTree P) os = .ok (repliesOf os (fun _ => []), t) ∧
      (∀ q l, Holds P.W t q l ↔ l = listsOf os (fun _ => []) q) ∧
      ∃ L : List (List Bool × List T), L.Pairwise (fun a b => a.1 < b.1) ∧
        (∀ q l, (q, l) ∈ L ↔ listsOf os (fun _ => []) q = l ∧ l ≠ []) ∧
        ∃ vis, t.visit = .ok vis ∧ vis.map (·.2) = L.map (·.2) := by
  have hW : P.W = 16 ∨ P.W = 32 := by rcases hP with rfl | rfl <;> simp [id16, id32]
  have hnew : Abs (newTree P : Tree T) (Sh.node 1 [] 0 (fun _ => .nil)) (fun _ => []) := abs_new P
  obtain ⟨t, s, h1, h2, h3, h4⟩ := run_multi hW (Inv.new (T := T) P) hnew
    (by rcases hW with h | h <;> rw [h] <;> exact Nat.le_trans (Nat.le_refl 2) (by decide)) hos hb
  refine ⟨t, h1, fun q l => h2.holds h3, (s.entries []).map (fun e => (e.1, listsOf os (fun _ => []) e.1)), ?_, ?_,
    _, visit_spec h2, ?_⟩
  · rw [List.pairwise_map]
    exact Sh.entries_sorted [] (.inr h2.wf)
  · intro q l
    rw [List.mem_map]
    constructor
    · rintro ⟨⟨q', x, c⟩, hx, he⟩
      cases he
      exact ⟨rfl, (h3.entry_iff h2.wf).2 ⟨x, c, hx⟩⟩
    · rintro ⟨rfl, hne⟩
      obtain ⟨x, c, hx⟩ := (h3.entry_iff h2.wf).1 hne
      exact ⟨(q, x, c), hx, rfl⟩
  · rw [List.map_map, List.map_map]
    apply List.map_congr_left
    rintro ⟨q, x, c⟩ hx
    exact (h3.entry q x c hx).symm

/-- three values under one prefix and one under another; 3 and 5 match 1 -/
def ops99 : List (Op id16 Nat) := [.add ⟨7, 16⟩ 1 none, .add ⟨7, 16⟩ 2 none, .add ⟨7, 16⟩ 3 none, .set ⟨0, 8⟩ 9,
  .set ⟨7, 16⟩ 5, .add ⟨7, 16⟩ 7 (some (fun a b => a % 2 == b % 2)), .delete ⟨7, 16⟩ (fun a b => a % 2 == b % 2) 4]

example : (∀ o ∈ ops99, o.id.len ≤ id16.W) ∧
    repliesOf ops99 (fun _ => []) = [.added true 1, .added true 2, .added true 3, .added true 1, .added false 3,
      .added false 3, .deleted 1] ∧
    listsOf ops99 (fun _ => []) (pfx (7 : BitVec 16) 16) = [5] ∧
    listsOf (ops99.take 6) (fun _ => []) (pfx (7 : BitVec 16) 16) = [5, 2, 3] ∧
    listsOf ops99 (fun _ => []) (pfx (0 : BitVec 16) 8) = [9] := by decide

/-- no list is longer than the history -/
theorem listsOf_length : ∀ (os : List (Op P T)) (M : List Bool → List T) (q : List Bool) (n : Nat),
    (∀ q, (M q).length ≤ n) → (listsOf os M q).length ≤ n + os.length := by
  intro os
  induction os with
  | nil => intro M q n h; exact h q
  | cons o os ih =>
    intro M q n h
    have := ih (o.lists M) q (n + 1) (by
      intro q
      have hq := h q
      unfold Op.lists
      split
      · have hd : ∀ (m : T → T → Bool) (l acc : List T), (distinct m acc l).length ≤ acc.length + l.length := by
          intro m l
          induction l with
          | nil => intro acc; simp [distinct]
          | cons x xs ih =>
            intro acc
            unfold distinct
            split
            · have := ih acc; simp; omega
            · have := ih (acc ++ [x]); simp at this ⊢; omega
        cases o with
        | set id v =>
          show (match M q with | [] => [v] | _ :: r => v :: r).length ≤ _
          cases hm : M q with
          | nil => simp
          | cons a r => rw [hm] at hq; simp at hq ⊢; omega
        | add id v m =>
          show (if dupB m v (M q) then M q else M q ++ [v]).length ≤ _
          split
          · omega
          · simp; omega
        | delete id m v =>
          have h1 := hd m ((M q).filter (fun x => !m x v)) []
          have h2 := List.length_filter_le (fun x => !m x v) (M q)
          show (distinct m [] _).length ≤ _
          simp at h1
          omega
      · omega)
    simp only [List.length_cons]
    show (listsOf os (o.lists M) q).length ≤ _
    omega

-- so the hypothesis holds for width 16 and histories of at most `2^16` calls
example (os : List (Op id16 Nat)) (h : os.length ≤ 2 ^ 16) (n : Nat) :
    Fits id16.W (listsOf (os.take n) (fun _ => [])) := by
  refine ⟨fun q => ?_, fun h => absurd h (by decide)⟩
  have := listsOf_length (os.take n) (fun _ => []) q 0 (by simp)
  have h2 : (os.take n).length ≤ os.length := by simp; omega
  show _ ≤ 2 ^ 16
  omega

/-! ### C47, C48 -/

/-- **C47, partial** Exactly what `Delete` does, for every match function: the values that match are removed and
counted; of the others, those that match an earlier one are lost as well; other prefixes keep their values;
provided the keys of the value map do not overlap (`Small`). Missing: overlapping keys, width 64. -/
theorem C47_delete_exact_partial (hP : P = id16 ∨ P = id32 ∨ P = id64) {t : Tree T} (h : Reach P t)
    (hs : Small P.W t) (id : MyId P) (hid : id.len ≤ P.W) (m : T → T → Bool) (v : T) {l : List T}
    (hl : Holds P.W t (pfx id.id id.len) l) :
    ∃ t', t.delete id m v = .ok ((l.filter (fun x => m x v)).length, t') ∧
      Holds P.W t' (pfx id.id id.len) (distinct m [] (l.filter (fun x => !m x v))) ∧
      ∀ q, q ≠ pfx id.id id.len → ∀ l', Holds P.W t q l' ↔ Holds P.W t' q l' := by
  have hP' := widthOk_of hP
  obtain ⟨s, hi⟩ := h.inv hP'
  rw [pfx_id id hid] at *
  have hl' := (hi.holds hi.abs).1 hl
  obtain ⟨t', s', h1, h2, h3, h4⟩ := delete_abs hP' hi hi.abs id hid v m (hs.counts_le hi hi.abs) hs.nodes
  rw [← hl'] at h1 h4
  refine ⟨t', h1, ?_, ?_⟩
  · rw [h2.holds h4]
    unfold setM keepL
    rw [if_pos rfl, foldl_addL]
  · intro q hq l'
    rw [hi.holds hi.abs, h2.holds h4]
    unfold setM
    rw [if_neg hq]

/-- **C48, partial** Exactly what `Set` does, all three widths, every reached tree (with at most `2^64` values under
the prefix): it replaces the first value, and keeps the others, which it should not. -/
theorem C48_set_exact_partial (hP : P = id16 ∨ P = id32 ∨ P = id64) {t : Tree T} (h : Reach P t) (id : MyId P)
    (hid : id.len ≤ P.W) (v : T) {l : List T} (hl : Holds P.W t (pfx id.id id.len) l) (hlen : l.length ≤ 2 ^ 64) :
    ∃ t', t.set id v = .ok (l.isEmpty, max 1 l.length, t') ∧ Holds P.W t' (pfx id.id id.len) (v :: l.tail) := by
  have hP' := widthOk_of hP
  obtain ⟨s, hi⟩ := h.inv hP'
  rw [pfx_id id hid] at *
  obtain ⟨bb, c', t', s', k, c0, used, h1, h2, h3, h4, h5, h6, h7, h8⟩ := add_spec hP' hi id hid v
    (some (fun _ _ => true)) (some (fun _ => v))
  have hent := h3.entries h2 (d := P.W) (pre := []) (.inr hi.wf)
  simp only [List.nil_append] at hent
  obtain ⟨e1, e2⟩ := hent
  have hk' : (bitsId id, k, c') ∈ s'.entries [] := (e1 _ _ _).2 (.inl ⟨rfl, rfl, rfl⟩)
  have hl0 : l = valsAt t.vals (t.key k) c0 := by
    rw [(hi.holds hi.abs).1 hl]
    by_cases hc0 : c0 = 0
    · subst hc0
      rw [hi.abs.none _ (fun x c hx => ((e2 x c).1 hx).2.2 ((e2 x c).1 hx).2.1)]
      rfl
    · exact hi.abs.entry _ _ _ ((e2 k c0).2 ⟨rfl, rfl, hc0⟩)
  have hc0 : c0 = l.length := by rw [hl0, length_valsAt]
  have hv1 : bb = (valStep t.vals (t.key k) c0 v (some (fun _ _ => true)) (some (fun _ => v))).1 := congrArg Prod.fst h5
  have hv2 : t'.vals = (valStep t.vals (t.key k) c0 v (some (fun _ _ => true)) (some (fun _ => v))).2 :=
    congrArg Prod.snd h5
  have hb := valStep_set t.vals (t.key k) c0 v
  have hL : addL (some (fun _ _ => true)) (some (fun _ => v)) v l = v :: l.tail := by
    rw [addL_set_list]; cases l <;> rfl
  have hself : valsAt t'.vals (t.key k) c' = v :: l.tail := by
    rw [← hL, h6, hv1, hv2, hl0]
    refine valStep_self v _ _ ?_
    rw [hb]
    by_cases hz : c0 = 0
    · simp [hz]
    · simp [hz]; omega
  have hlen' : c' = (v :: l.tail).length := by rw [← hself, length_valsAt]
  refine ⟨t', ?_, ?_⟩
  · show t.add id v _ _ = _
    rw [h1, hv1, hb, hlen', hc0]
    cases l with
    | nil => rfl
    | cons a r =>
      have : max 1 (r.length + 1) = r.length + 1 := by omega
      simp [this]
  · rw [h4.holds h4.abs, h4.abs.entry _ _ _ hk', h4.key, ← hi.key]
    exact hself.symm

/-- the hypotheses are met by a tree with three values under a prefix -/
example : ∃ t : Tree Nat, Reach id64 t ∧ Holds 64 t (pfx (7 : BitVec 64) 64) [1, 3, 2] := by
  refine ⟨_, reach_of ([.add ⟨7, 64⟩ 1 none, .add ⟨7, 64⟩ 3 none, .add ⟨7, 64⟩ 2 none] : List (Op id64 Nat)) (by decide) rfl,
    .inl ⟨2, ?_, rfl⟩⟩
  exact at_left rfl (by decide) rfl (by decide) rfl

end Verif.Tree
