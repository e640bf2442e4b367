import Verif.Errs.IdxProps
import Verif.GTree.FreeProps

/-!
C109, C110: the error texts of the trees of claimed prefixes.
-/

namespace Verif.GTree
open Verif.Id
open Verif.Tree (Out)
open Verif.IdxTable (Spells Names spells1 spells2' numeral_num nonDigit nonDigit_iff names_first head_ascii)
variable {I : Impl} {L : Type} [Labels L]

/-! ### texts and failures -/

theorem validateMsg_none (g : GTree I L) (id : MyId I.P) : g.validateMsg id = none ↔ g.valid id = true := by
  unfold GTree.validateMsg GTree.valid
  split <;> simp_all

theorem getLoopMsg_none {P : Pkg} (id : MyId P) : ∀ l : List (Option (Entry P L)),
    ((∃ m, getLoopMsg id l = .ok (some m)) ↔ getLoop id l = .ok none) ∧
    (getLoopMsg id l = .ok none ↔ ∃ e, getLoop id l = .ok (some e))
  | [] => ⟨⟨fun _ => rfl, fun _ => ⟨_, rfl⟩⟩, ⟨fun h => (by cases h), fun ⟨e, h⟩ => (by cases h)⟩⟩
  | none :: es => ⟨⟨fun ⟨m, h⟩ => (by cases h), fun h => (by cases h)⟩, ⟨fun h => (by cases h), fun ⟨e, h⟩ => (by cases h)⟩⟩
  | some e :: es => by
    have ih := getLoopMsg_none id es
    unfold getLoopMsg getLoop
    show (((∃ m, (if e.id = id then (pure none : Out _) else getLoopMsg id es) = .ok (some m)) ↔
      (if e.id = id then (pure (some e) : Out _) else getLoop id es) = .ok none)) ∧
      (((if e.id = id then (pure none : Out _) else getLoopMsg id es) = .ok none) ↔
      ∃ x, (if e.id = id then (pure (some e) : Out _) else getLoop id es) = .ok (some x))
    by_cases h : e.id = id
    · rw [if_pos h, if_pos h]
      exact ⟨⟨fun ⟨m, h⟩ => (by cases h), fun h => (by cases h)⟩, ⟨fun _ => ⟨e, rfl⟩, fun _ => rfl⟩⟩
    · rw [if_neg h, if_neg h]
      exact ih

theorem findFreeMsg_cases (bt : Text) (g : GTree I L) :
    (∃ x, g.findFree = .ok (.ok x) ∧ g.findFreeMsg bt = .ok none) ∨
    (∃ m, g.findFree = .ok .err ∧ g.findFreeMsg bt = .ok (some m)) ∨
    ((∀ r, g.findFree ≠ .ok r) ∧ ∀ r, g.findFreeMsg bt ≠ .ok r) := by
  unfold GTree.findFree GTree.findFreeMsg
  dsimp only
  have bindOk : ∀ {α β : Type} (a : α) (f : α → Out β), ((Out.ok a : Out α) >>= f) = f a := fun _ _ => rfl
  have bindNo : ∀ {α β : Type} {x : Out α} (f : α → Out β), (∀ a, x ≠ .ok a) → ∀ r, (x >>= f) ≠ .ok r := by
    intro α β x f hx r h
    cases x with
    | ok a => exact hx a rfl
    | panic m => cases h
    | realloc => cases h
    | diverge => cases h
  have cs : ∀ {α : Type} (x : Out α), (∃ a, x = .ok a) ∨ ∀ a, x ≠ .ok a := by
    intro α x
    cases x with
    | ok a => exact .inl ⟨a, rfl⟩
    | panic m => exact .inr (fun a h => by cases h)
    | realloc => exact .inr (fun a h => by cases h)
    | diverge => exact .inr (fun a h => by cases h)
  rcases cs (ofRes ((Builder.empty : Builder I.P).addId ⟨0, I.rootLen g.length⟩)) with ⟨b, hb⟩ | hb
  · rw [hb, bindOk, bindOk]
    rcases cs (g.children ⟨0, I.rootLen g.length⟩) with ⟨ch, hch⟩ | hch
    · rw [hch, bindOk, bindOk]
      rcases cs (removeAll ch b) with ⟨b', hb'⟩ | hb'
      · rw [hb', bindOk, bindOk]
        rcases cs (ofRes b'.ipSet) with ⟨⟨x, set, err⟩, hs⟩ | hs
        · rw [hs, bindOk, bindOk]
          dsimp only
          cases err with
          | true => exact .inr (.inl ⟨_, rfl, rfl⟩)
          | false =>
            simp only [Bool.false_eq_true, if_false]
            rcases cs (ofRes (set.removeFreePrefix I.P.W)) with ⟨o, ho⟩ | ho
            · rw [ho, bindOk, bindOk]
              cases o with
              | none => exact .inr (.inl ⟨_, rfl, rfl⟩)
              | some p =>
                obtain ⟨a, s'⟩ := p
                dsimp only
                have hv := validateMsg_none g a
                cases hm : g.validateMsg a with
                | none => rw [hv.1 hm]; exact .inl ⟨_, rfl, rfl⟩
                | some m =>
                  cases hg : g.valid a with
                  | true => rw [hv.2 hg] at hm; cases hm
                  | false => exact .inr (.inl ⟨m, rfl, rfl⟩)
            · exact .inr (.inr ⟨bindNo _ ho, bindNo _ ho⟩)
        · exact .inr (.inr ⟨bindNo _ hs, bindNo _ hs⟩)
      · exact .inr (.inr ⟨bindNo _ hb', bindNo _ hb'⟩)
    · exact .inr (.inr ⟨bindNo _ hch, bindNo _ hch⟩)
  · exact .inr (.inr ⟨bindNo _ hb, bindNo _ hb⟩)

theorem getMsg_some (g : GTree I L) (id : MyId I.P) : (∃ m, g.getMsg id = .ok (some m)) ↔ g.get id = .ok none := by
  unfold GTree.getMsg GTree.get
  cases g.entries with
  | ok es => exact (getLoopMsg_none id es).1
  | panic m => exact ⟨fun ⟨_, h⟩ => (by cases h), fun h => (by cases h)⟩
  | realloc => exact ⟨fun ⟨_, h⟩ => (by cases h), fun h => (by cases h)⟩
  | diverge => exact ⟨fun ⟨_, h⟩ => (by cases h), fun h => (by cases h)⟩

theorem claimFreeMsg_some {bt : Text} {g : GTree I L} {m : Text} (hm : g.claimFreeMsg bt = .ok (some m)) :
    g.findFree = .ok .err ∧ ∃ u, m = ascii "no free ids available, err: " ++ u := by
  unfold GTree.claimFreeMsg at hm
  rcases findFreeMsg_cases bt g with ⟨x, h1, h2⟩ | ⟨u, h1, h2⟩ | ⟨h1, h2⟩
  · rw [h2] at hm; cases hm
  · rw [h2] at hm; cases hm; exact ⟨h1, u, rfl⟩
  · cases hf' : g.findFreeMsg bt with
    | ok r => exact absurd hf' (h2 r)
    | panic x => rw [hf'] at hm; cases hm
    | realloc => rw [hf'] at hm; cases hm
    | diverge => rw [hf'] at hm; cases hm

/-- a call of a tree has an error text exactly if it fails (in every state; tree16, tree32, tree64) -/
theorem C109_tree_fails (bt : Text) (g : GTree I L) (id : MyId I.P) (l : L) (length : Nat) :
    ((∃ m, newMsg I length = some m) ↔ new I L length = none) ∧
    ((∃ m, g.getMsg id = .ok (some m)) ↔ g.get id = .ok none) ∧
    ((∃ m, g.claimIDMsg id = some m) ↔ ∃ g', g.claimID id l = .ok (.err, g')) ∧
    ((∃ m, g.claimIDMsg id = some m) ↔ ∃ g', g.releaseID id = .ok (.err, g')) ∧
    ((∃ m, g.claimFreeMsg bt = .ok (some m)) ↔ ∃ g', g.claimFree l = .ok (.err, g')) := by
  have hval : (∃ m, g.claimIDMsg id = some m) ↔ g.valid id = false := by
    have h := validateMsg_none g id
    unfold GTree.claimIDMsg
    cases hm : g.validateMsg id with
    | none => rw [h.1 hm]; simp
    | some m =>
      cases hv : g.valid id with
      | true => rw [h.2 hv] at hm; cases hm
      | false => simp
  refine ⟨?_, ?_, ?_, ?_, ?_⟩
  · unfold newMsg new
    split <;> simp
  · exact getMsg_some g id
  · rw [hval]
    unfold GTree.claimID
    cases hv : g.valid id with
    | false => exact ⟨fun _ => ⟨g, rfl⟩, fun _ => rfl⟩
    | true =>
      refine ⟨fun h => (by cases h), fun ⟨g', h⟩ => ?_⟩
      change (g.set id ⟨id, l⟩ >>= fun g => (pure (Ret.ok (), g) : Out _)) = _ at h
      cases hs : g.set id ⟨id, l⟩ <;> rw [hs] at h <;> cases h
  · rw [hval]
    unfold GTree.releaseID
    cases hv : g.valid id with
    | false => exact ⟨fun _ => ⟨g, rfl⟩, fun _ => rfl⟩
    | true =>
      refine ⟨fun h => (by cases h), fun ⟨g', h⟩ => ?_⟩
      simp only [Bool.not_true, Bool.false_eq_true, if_false] at h
      cases hg : g.get id with
      | ok o =>
        rw [hg] at h
        cases o with
        | none => cases h
        | some e =>
          change (g.del id e >>= fun g => (pure (Ret.ok (), g) : Out _)) = _ at h
          cases hs : g.del id e <;> rw [hs] at h <;> cases h
      | panic m => rw [hg] at h; cases h
      | realloc => rw [hg] at h; cases h
      | diverge => rw [hg] at h; cases h
  · unfold GTree.claimFreeMsg GTree.claimFree
    rcases findFreeMsg_cases bt g with ⟨x, h1, h2⟩ | ⟨m, h1, h2⟩ | ⟨h1, h2⟩
    · rw [h1, h2]
      refine ⟨fun ⟨_, h⟩ => (by cases h), fun ⟨g', h⟩ => ?_⟩
      change (g.set ⟨x, I.P.W⟩ ⟨⟨x, I.P.W⟩, l⟩ >>= fun g => (pure (Ret.ok _, g) : Out _)) = _ at h
      cases hs : g.set ⟨x, I.P.W⟩ ⟨⟨x, I.P.W⟩, l⟩ <;> rw [hs] at h <;> cases h
    · rw [h1, h2]
      exact ⟨fun _ => ⟨g, rfl⟩, fun _ => ⟨_, rfl⟩⟩
    · cases hf : g.findFree with
      | ok r => exact absurd hf (h1 r)
      | panic m =>
        cases hf' : g.findFreeMsg bt with
        | ok r => exact absurd hf' (h2 r)
        | _ => exact ⟨fun ⟨_, h⟩ => (by cases h), fun ⟨_, h⟩ => (by cases h)⟩
      | realloc =>
        cases hf' : g.findFreeMsg bt with
        | ok r => exact absurd hf' (h2 r)
        | _ => exact ⟨fun ⟨_, h⟩ => (by cases h), fun ⟨_, h⟩ => (by cases h)⟩
      | diverge =>
        cases hf' : g.findFreeMsg bt with
        | ok r => exact absurd hf' (h2 r)
        | _ => exact ⟨fun ⟨_, h⟩ => (by cases h), fun ⟨_, h⟩ => (by cases h)⟩

/-! ### C109 -/

theorem size_toNat {length : Nat} (hle : length ≤ I.P.W) (hp : 1 < I.P.W) :
    (((1 : BitVec I.P.W) <<< length) - 1).toNat = 2 ^ length - 1 := by
  have hlt : 2 ^ length ≤ 2 ^ I.P.W := Nat.pow_le_pow_right (by decide) hle
  have h1 : (1 : BitVec I.P.W).toNat = 1 := Verif.Id.toNat_one hp
  have hpos : 0 < 2 ^ length := Nat.two_pow_pos _
  have h2 : 2 ≤ 2 ^ I.P.W := Nat.le_trans (Nat.le_refl (2 ^ 1)) (Nat.pow_le_pow_right (by decide) (by omega))
  rw [BitVec.toNat_sub, BitVec.toNat_shiftLeft, h1, Nat.shiftLeft_eq, Nat.one_mul]
  rcases Nat.lt_or_ge (2 ^ length) (2 ^ I.P.W) with hl | hl
  · rw [Nat.mod_eq_of_lt hl]
    have : 2 ^ I.P.W - 1 + 2 ^ length = 2 ^ length - 1 + 2 ^ I.P.W := by omega
    rw [this, Nat.add_mod_right, Nat.mod_eq_of_lt (by omega)]
  · have he : 2 ^ length = 2 ^ I.P.W := by omega
    rw [he, Nat.mod_self, Nat.add_zero, Nat.mod_eq_of_lt (by omega)]

omit [Labels L] in
theorem getLoopMsg_text {P : Pkg} (id : MyId P) {m : Text} : ∀ l : List (Option (Entry P L)), getLoopMsg id l = .ok (some m) →
    m = ascii "entry {" ++ fmtUint id.id.toNat ++ ascii " " ++ fmtUint id.len ++ ascii "} not found"
  | [], h => by cases h; rfl
  | none :: es, h => by cases h
  | some e :: es, h => by
    change (if e.id = id then (pure none : Out _) else getLoopMsg id es) = _ at h
    split at h
    · cases h
    · exact getLoopMsg_text id es h

/-- **C109** (`New` of tree16, tree32, tree64) The error text of `New` says that the length is too big, with the width of
the ids and the length passed, and this is true. -/
theorem C109_tree_new {length : Nat} {m : Text} (h : newMsg I length = some m) :
    Spells m ["cannot create a tree which bitlength > ", ", got: ", ""] [I.P.W, length] ∧ I.P.W < length := by
  unfold newMsg at h
  split at h
  · rename_i hl
    cases h
    exact ⟨spells2' (numeral_fmtUint _) (numeral_fmtUint _), hl⟩
  · cases h

/-- **C109, partial** (tree16; tree32 as long as the map has room) The error texts of `ClaimID`, `Update` and
`ReleaseID` say that the id is above the largest one, with both, and this is true. That of `Get` says that the entry with the
id and the length passed was not found, and no such entry is stored. Those of `ClaimFree` say that no id is free, which is
true for tree16, and for tree32 of length 16, if no entry covers all ids. -/
theorem C109_tree_partial (hI : I = tree16 ∨ I = tree32) {length : Nat} {g : GTree I L} {M : Map I.P L}
    (h : Reach I length g M) (bt : Text) (id : MyId I.P) (m : Text) :
    (g.claimIDMsg id = some m →
      Spells m ["max id allowed is ", ", got ", ""] [2 ^ length - 1, id.id.toNat] ∧ 2 ^ length - 1 < id.id.toNat) ∧
    (g.getMsg id = .ok (some m) →
      Spells m ["entry {", " ", "} not found"] [id.id.toNat, id.len] ∧ ∀ q e, M q = some e → e.id ≠ id) ∧
    (g.claimFreeMsg bt = .ok (some m) →
      (∃ u, m = ascii "no free ids available, err: " ++ u) ∧
      (I = tree16 ∨ length = 16 → NoneAbove (I.P.W - length) M → ∀ x : BitVec I.P.W, x.toNat < 2 ^ length → Covered M x)) := by
  have hg := h.ginv hI
  have hp : 1 < I.P.W := (ok_of hI).pos
  refine ⟨?_, ?_, ?_⟩
  · intro hm
    change g.validateMsg id = some m at hm
    unfold GTree.validateMsg at hm
    split at hm
    · rename_i hlt
      cases hm
      rw [hg.size, gt_iff_lt, BitVec.lt_def] at hlt
      rw [hg.size]
      rw [← size_toNat hg.le hp]
      exact ⟨spells2' (numeral_fmtUint _) (numeral_fmtUint _), hlt⟩
    · cases hm
  · intro hm
    have hget : g.get id = .ok none := (getMsg_some g id).1 ⟨m, hm⟩
    refine ⟨?_, ?_⟩
    · unfold GTree.getMsg at hm
      cases he : g.entries with
      | ok es =>
        rw [he] at hm
        rw [getLoopMsg_text id es hm]
        have := Spells.more (w := "entry {") (numeral_fmtUint id.id.toNat) (spells1 (w := " ") (v := "} not found")
          (numeral_fmtUint id.len))
        rwa [← List.append_assoc, ← List.append_assoc] at this
      | panic x => rw [he] at hm; cases hm
      | realloc => rw [he] at hm; cases hm
      | diverge => rw [he] at hm; cases hm
    · intro q e hq he
      rw [get_spec hg id] at hget
      have hw := (hg.wf q e hq).1
      rw [he] at hw
      rw [hw] at hq
      rw [hq] at hget
      simp [he] at hget
  · intro hm
    obtain ⟨hff, hu⟩ := claimFreeMsg_some hm
    refine ⟨hu, fun hI' hn x hx => ?_⟩
    have hrl : I.rootLen length = I.P.W - length := by
      rcases hI with rfl | rfl
      · exact Verif.Tree.sub8_eq hg.le (by decide)
      · rcases hI' with hc | rfl
        · exact absurd (congrArg (fun i => i.P.W) hc) (by decide)
        · rfl
    have hc : ∀ x : BitVec I.P.W, Covers ⟨0, I.rootLen length⟩ x ↔ x.toNat < 2 ^ length := by
      intro x; rw [covers_zero, hrl, Nat.sub_sub_self hg.le]
    rcases find_cases hI h with ⟨_, h1⟩ | ⟨y, f, h2, _⟩
    · obtain ⟨q, e, e1, _, e2⟩ := h1 x ((hc x).2 hx)
      exact ⟨q, e, e1, e2⟩
    · rw [if_pos ((hc y).1 h2), hff] at f
      cases f

/-- **C109, violated** (tree32, lengths 17 to 31) `ClaimFree` fails with a text that says that there are no free ids, although
there is one. -/
theorem C109_tree_violated (length : Nat) (h1 : 16 < length) (h2 : length < 32) (l : L) (bt : Text) :
    ∃ (g : GTree tree32 L) (M : Map tree32.P L) (x : BitVec tree32.P.W) (u : Text), Reach tree32 length g M ∧
      g.claimFreeMsg bt = .ok (some (ascii "no free ids available, err: " ++ u)) ∧ x.toNat < 2 ^ length ∧ ¬ Covered M x := by
  obtain ⟨g, M, x, hr, he, hx, hc⟩ := C57_short32_violated length h1 h2 l
  have : ∃ g', g.claimFree l = .ok (.err, g') := by
    change (g.claimFree l >>= _) = _ at he
    cases hf : g.claimFree l with
    | ok p =>
      obtain ⟨r, g'⟩ := p
      rw [hf] at he
      cases r with
      | err => exact ⟨g', rfl⟩
      | ok e => cases he
    | panic m => rw [hf] at he; cases he
    | realloc => rw [hf] at he; cases he
    | diverge => rw [hf] at he; cases he
  obtain ⟨m, hm⟩ := (C109_tree_fails bt g ⟨0, 0⟩ l 0).2.2.2.2.2 this
  obtain ⟨_, u, rfl⟩ := claimFreeMsg_some hm
  exact ⟨g, M, x, u, hr, hm, hx, hc⟩

/-- the texts of a new tree16 of length 4 -/
example : (fresh tree16 4 : GTree tree16 Bool).claimIDMsg ⟨20, 16⟩ =
      some (ascii "max id allowed is " ++ fmtUint 15 ++ ascii ", got " ++ fmtUint 20) ∧
    (fresh tree16 4 : GTree tree16 Bool).getMsg ⟨3, 16⟩ =
      .ok (some (ascii "entry {" ++ fmtUint 3 ++ ascii " " ++ fmtUint 16 ++ ascii "} not found")) ∧
    newMsg tree16 20 = some (ascii "cannot create a tree which bitlength > " ++ fmtUint 16 ++ ascii ", got: " ++ fmtUint 20) :=
  ⟨rfl, rfl, rfl⟩

/-! ### C110 -/

/-- **C110** (tree16, tree32, tree64; every state) The error texts of `ClaimID`, `Update`, `ReleaseID` and `Get` name the id that
was passed, and that of `Get` its length too. -/
theorem C110_tree (g : GTree I L) (id : MyId I.P) (m : Text) :
    (g.claimIDMsg id = some m → Names m id.id.toNat) ∧
    (g.getMsg id = .ok (some m) → Names m id.id.toNat ∧ Names m id.len) := by
  refine ⟨?_, ?_⟩
  · intro hm
    change g.validateMsg id = some m at hm
    unfold GTree.validateMsg at hm
    split at hm
    · cases hm
      refine ⟨ascii "max id allowed is " ++ fmtUint g.size.toNat ++ ascii ", got ", fmtUint id.id.toNat, [],
        by rw [List.append_nil], numeral_fmtUint _, ?_, by intro c hc; cases hc⟩
      intro c hc
      rw [List.getLast?_append, show (ascii ", got ").getLast? = some 32 by decide] at hc
      cases hc
      exact nonDigit_iff.1 (by decide)
    · cases hm
  · intro hm
    unfold GTree.getMsg at hm
    cases he : g.entries with
    | ok es =>
      rw [he] at hm
      rw [getLoopMsg_text id es hm]
      refine ⟨?_, ?_⟩
      · rw [List.append_assoc, List.append_assoc]
        exact names_first (numeral_fmtUint _) (by decide) (head_ascii (by decide) _)
      · refine ⟨ascii "entry {" ++ fmtUint id.id.toNat ++ ascii " ", fmtUint id.len, ascii "} not found", rfl, numeral_fmtUint _, ?_, ?_⟩
        · intro c hc
          rw [List.getLast?_append, show (ascii " ").getLast? = some 32 by decide] at hc
          cases hc
          exact nonDigit_iff.1 (by decide)
        · intro c hc
          rw [show (ascii "} not found").head? = some 125 by decide] at hc
          cases hc
          exact nonDigit_iff.1 (by decide)
    | panic x => rw [he] at hm; cases hm
    | realloc => rw [he] at hm; cases hm
    | diverge => rw [he] at hm; cases hm

example : ∃ m, (fresh tree16 4).claimIDMsg ⟨20, 16⟩ = some m := ⟨_, rfl⟩

end Verif.GTree
