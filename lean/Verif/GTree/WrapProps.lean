import Verif.GTree.TableProps

/-!
Property C126: a ranged table can be built from a tree. The client in this file has the calls of `table.Table` and uses
nothing but calls of the tree.
-/

set_option linter.unusedSectionVars false
namespace Verif.GTree
open Verif.Id
open Verif.Tree (Tree Out newTree pfx)
open Verif.IdxTable (U64 Ascending)
open Verif.Ranged (RTable RCall RReply TEntry LMap RStep RRun Width IsPkg LeastR AvailR InR)
variable {L : Type} [Labels L] {I : Impl}

/-! ### The client -/

/-- what the client answers for a call that changes the tree -/
def Result.reply {P : Pkg} : Result P L → RReply L
  | .done => .ok
  | .err => .err
  | .got _ => .panic

/-- the labels claimed under an id, by `Get`; ids that are too large are not claimed -/
def GTree.ask (n : Nat) (g : GTree I L) (id : U64) : Out (Option L) :=
  if id.toNat < 2 ^ n then do return (← g.get (fullId I.P id)).map Entry.labels else .ok none

/-- an entry of the tree as an entry of the table -/
def outOf {P : Pkg} (len : Nat) (e : Entry P L) : TEntry L := ⟨e.id.id.setWidth 64, len, e.labels⟩

/-- the entries that `GetAll` lists; a nil entry would make the client panic -/
def GTree.listed (len : Nat) (g : GTree I L) : Out (List (TEntry L)) := do
  let es ← g.getAll
  if es.all Option.isSome then return (es.filterMap id).map (outOf len) else .panic "nil entry"

/-- the lowest id below `2^n` that is not in the list -/
def lowest (n : Nat) (ids : List U64) : Option U64 :=
  ((List.range (2 ^ n)).find? (fun k => decide (BitVec.ofNat 64 k ∉ ids))).map (BitVec.ofNat 64)

/-- the calls of `table.Table` for the ids below `2^n`, made with calls of a tree of length `n`. `ClaimID` and `Update`
are called only after `Get`, and a free id is taken from `GetAll`. `len1` and `len2` are the lengths in the entries
returned, in which the packages of the tables differ. -/
def GTree.call (n len1 len2 : Nat) (g : GTree I L) : RCall L → Out (GTree I L × RReply L)
  | .get id => do
    match ← g.ask n id with
    | some l => return (g, .labels l)
    | none => return (g, .err)
  | .claim id l =>
    if id.toNat < 2 ^ n then do
      match ← g.ask n id with
      | some _ => return (g, .err)
      | none =>
        let (r, g) ← g.exec (.claim (fullId I.P id) l)
        return (g, r.reply)
    else .ok (g, .err)
  | .claimFree l => do
    match lowest n ((← g.listed len2).map TEntry.id) with
    | none => return (g, .err)
    | some id =>
      let (r, g) ← g.exec (.claim (fullId I.P id) l)
      return (g, match r with | .done => .entry ⟨id, len1, l⟩ | _ => .err)
  | .release id =>
    if id.toNat < 2 ^ n then do
      let (r, g) ← g.exec (.release (fullId I.P id))
      return (g, r.reply)
    else .ok (g, .err)
  | .update id l => do
    match ← g.ask n id with
    | none => return (g, .err)
    | some _ =>
      let (r, g) ← g.exec (.update (fullId I.P id) l)
      return (g, r.reply)
  | .size => do return (g, .nat (← g.count))
  | .has id => do return (g, .bool (← g.ask n id).isSome)
  | .isFree id => do return (g, .bool (decide (id.toNat < 2 ^ n) && (← g.ask n id).isNone))
  | .findFree => do
    match lowest n ((← g.listed len2).map TEntry.id) with
    | none => return (g, .err)
    | some id => return (g, .id id)
  | .getAll => do return (g, .entries (← g.listed len2))
  | .getByLabel sel => do return (g, .entries ((← g.getByLabel sel).map (outOf len2)))

/-- a history of calls -/
def GTree.calls (n len1 len2 : Nat) (g : GTree I L) : List (RCall L) → Out (GTree I L × List (RReply L))
  | [] => .ok (g, [])
  | c :: cs => do
    let (g, r) ← g.call n len1 len2 c
    let (g, rs) ← g.calls n len1 len2 cs
    return (g, r :: rs)

/-! ### Proof -/

theorem ask_eq (hI : I = tree16 ∨ I = tree32) {n : Nat} {g : GTree I L} {M : Map I.P L} (hg : Reach I n g M) {s : LMap L}
    (h : MapEq n s M) (id : U64) : g.ask n id = .ok (s id) := by
  unfold GTree.ask
  split
  · rename_i hi
    have hi' := h.lt hi
    rw [get_spec (hg.ginv hI), h.at_ id hi']
    show Out.ok _ = _
    cases s id <;> simp
  · rename_i hi
    cases hs : s id with
    | none => rfl
    | some l => exact absurd (h.low id (by rw [hs]; simp)) hi

theorem back_fullId {P : Pkg} (hW : P.W ≤ 64) {i : U64} (hi : i.toNat < 2 ^ P.W) : (fullId P i).id.setWidth 64 = i := by
  apply BitVec.eq_of_toNat_eq
  rw [BitVec.toNat_setWidth, toNat_fullId hi]
  exact Nat.mod_eq_of_lt i.isLt

theorem fullId_lt_iff {P : Pkg} {i j : U64} (hi : i.toNat < 2 ^ P.W) (hj : j.toNat < 2 ^ P.W) (h : pre (fullId P i) < pre (fullId P j)) :
    i < j := by
  rcases Nat.lt_trichotomy i.toNat j.toNat with h1 | h1 | h1
  · exact h1
  · rw [BitVec.eq_of_toNat_eq h1] at h
    exact absurd h (List.lt_irrefl _)
  · exact absurd h (List.lt_asymm (fullId_lt hj hi h1))

/-- what the tree lists is what the table lists -/
theorem MapEq.lists {P : Pkg} (hW : P.W ≤ 64) {n : Nat} {s : LMap L} {M : Map P L} (h : MapEq n s M) {l : List (Entry P L)}
    (hl : Listing l M) (len : Nat) (sel : L → Bool) :
    Ranged.Lists len s sel ((l.filter fun e => sel e.labels).map (outOf len)) := by
  have hent : ∀ e ∈ l, ∃ i : U64, i.toNat < 2 ^ n ∧ s i = some e.labels ∧ e = ⟨fullId P i, e.labels⟩ := by
    intro e he
    obtain ⟨i, h1, _, h2, h3⟩ := h.ent ((hl.2 _ e).1 (List.mem_map.2 ⟨e, he, rfl⟩))
    exact ⟨i, h1, h2, h3⟩
  constructor
  · unfold Ascending
    rw [List.map_map, List.pairwise_map]
    have h0 := hl.1
    rw [List.pairwise_map] at h0
    refine (h0.sublist List.filter_sublist).imp_of_mem fun {a b} ha hb hab => ?_
    obtain ⟨i, h1, _, h2⟩ := hent a (List.mem_filter.1 ha).1
    obtain ⟨j, h3, _, h4⟩ := hent b (List.mem_filter.1 hb).1
    rw [h2, h4] at hab ⊢
    show (fullId P i).id.setWidth 64 < (fullId P j).id.setWidth 64
    rw [back_fullId hW (h.lt h1), back_fullId hW (h.lt h3)]
    exact fullId_lt_iff (h.lt h1) (h.lt h3) hab
  · intro e
    rw [List.mem_map]
    constructor
    · rintro ⟨x, hx, rfl⟩
      obtain ⟨hx, hs⟩ := List.mem_filter.1 hx
      obtain ⟨i, h1, h2, h3⟩ := hent x hx
      refine ⟨?_, rfl, hs⟩
      have : (outOf len x).id = i := by rw [h3]; exact back_fullId hW (h.lt h1)
      rw [this, h2]
      rfl
    · rintro ⟨h1, h2, h3⟩
      have hlow := h.lt (h.low e.id (by rw [h1]; simp))
      have hM := h.at_ e.id hlow
      rw [h1] at hM
      obtain ⟨x, hx, he⟩ := List.mem_map.1 ((hl.2 _ _).2 hM)
      have hx' : x = ⟨fullId P e.id, e.labels⟩ := congrArg Prod.snd he
      refine ⟨x, List.mem_filter.2 ⟨hx, by rw [hx']; exact h3⟩, ?_⟩
      rw [hx']
      unfold outOf
      show TEntry.mk ((fullId P e.id).id.setWidth 64) len e.labels = e
      rw [back_fullId hW hlow, ← h2]

theorem listed_eq (hI : I = tree16 ∨ I = tree32) {n : Nat} {g : GTree I L} {M : Map I.P L} (hg : Reach I n g M) {s : LMap L}
    (h : MapEq n s M) (len : Nat) : ∃ es, g.listed len = .ok es ∧ Ranged.Lists len s (fun _ => true) es ∧ g.count = .ok es.length ∧
      ∀ sel, ∃ fs, g.getByLabel sel = .ok fs ∧ Ranged.Lists len s sel (fs.map (outOf len)) := by
  have hW : I.P.W ≤ 64 := by rcases hI with rfl | rfl <;> decide
  obtain ⟨l, l1, l2, l3, l4⟩ := C59_queries_partial hI hg
  refine ⟨l.map (outOf len), ?_, ?_, by rw [l3, List.length_map], fun sel => ⟨_, l4 sel, h.lists hW l1 len sel⟩⟩
  · unfold GTree.listed
    rw [l2]
    show (if (l.map some).all Option.isSome then _ else _) = _
    rw [if_pos (by simp)]
    show Out.ok _ = _
    rw [List.filterMap_map]
    simp
  · have := h.lists hW l1 len (fun _ => true)
    simpa using this

theorem lowest_some {n : Nat} (hn : n < 64) {ids : List U64} {i : U64} (h : lowest n ids = some i) :
    i.toNat < 2 ^ n ∧ i ∉ ids ∧ ∀ j : U64, j.toNat < 2 ^ n → j ∉ ids → i ≤ j := by
  have hp : 2 ^ n < 2 ^ 64 := Nat.pow_lt_pow_right (by decide) hn
  unfold lowest at h
  rw [Option.map_eq_some_iff] at h
  obtain ⟨k, hk, rfl⟩ := h
  have hmem := List.mem_range.1 (List.mem_of_find?_eq_some hk)
  have e : (BitVec.ofNat 64 k).toNat = k := by rw [BitVec.toNat_ofNat]; exact Nat.mod_eq_of_lt (by omega)
  refine ⟨by rw [e]; exact hmem, of_decide_eq_true (List.find?_some (p := fun k => decide (BitVec.ofNat 64 k ∉ ids)) hk), fun j hj hji => ?_⟩
  rw [BitVec.le_def, e]
  by_contra hlt
  have hlt := Nat.not_le.1 hlt
  have := (List.find?_range_eq_some.1 hk).2.2 j.toNat hlt
  simp [hji] at this

theorem lowest_none {n : Nat} {ids : List U64} (h : lowest n ids = none) (j : U64) (hj : j.toNat < 2 ^ n) : j ∈ ids := by
  unfold lowest at h
  rw [Option.map_eq_none_iff] at h
  have := List.find?_eq_none.1 h j.toNat (List.mem_range.2 hj)
  simpa using this

/-- one call of the client does what the specification of the table says -/
theorem call_step (hI : I = tree16 ∨ I = tree32) {n : Nat} (hn : I = tree32 → n ≤ 31) {g : GTree I L} {M : Map I.P L} (hg : Reach I n g M)
    {s : LMap L} (h : MapEq n s M) (len1 len2 : Nat) (c : RCall L) :
    ∃ g' M' s' r, g.call n len1 len2 c = .ok (g', r) ∧ RStep 0 (2 ^ n - 1) len1 len2 s c s' r ∧ Reach I n g' M' ∧ MapEq n s' M' := by
  have hI2 : I = tree16 ∨ I = tree32 ∧ n ≤ 31 := by
    rcases hI with h | h
    · exact .inl h
    · exact .inr ⟨h, hn h⟩
  have hn64 : n < 64 := by
    have := h.le
    rcases hI with rfl | rfl
    · have : n ≤ 16 := this
      omega
    · have : n ≤ 32 := this
      omega
  -- the calls that change the tree
  have hput : ∀ (i : U64) (l : L) (o : Op I.P L), o = .claim (fullId I.P i) l ∨ o = .update (fullId I.P i) l → i.toNat < 2 ^ n →
      ∃ g', g.exec o = .ok (.done, g') ∧ Reach I n g' (put M (fullId I.P i) l) ∧ MapEq n (s.put i l) (put M (fullId I.P i) l) := by
    intro i l o ho hi
    have hm := h.put hi l
    have hlt : (fullId I.P i).id.toNat < 2 ^ n := by rw [toNat_fullId (h.lt hi)]; exact hi
    have hf : o.Fits := by rcases ho with rfl | rfl <;> exact Nat.le_refl _
    have he : Effect n M o .done (put M (fullId I.P i) l) := by
      rcases ho with rfl | rfl <;> simp [Effect, hlt]
    obtain ⟨g', hx⟩ := exec_of_effect hI hg hf (by rcases ho with rfl | rfl <;> (intro l h; cases h)) he (hm.room hI2)
    exact ⟨g', hx, .step hg hf hx he (hm.room hI2), hm⟩
  have hav : ∀ i : U64, AvailR 0 (2 ^ n - 1) s i ↔ i.toNat < 2 ^ n ∧ s i = none := by
    intro i; unfold AvailR; rw [inR_iff]
  obtain ⟨es, e1, e2, e3, e4⟩ := listed_eq hI hg h len2
  have hids : ∀ i : U64, i ∈ es.map TEntry.id ↔ s i ≠ none := by
    intro i
    rw [List.mem_map]
    constructor
    · rintro ⟨e, he, rfl⟩; rw [((e2.2 e).1 he).1]; simp
    · intro hi
      cases hs : s i with
      | none => exact absurd hs hi
      | some l => exact ⟨⟨i, len2, l⟩, (e2.2 _).2 ⟨hs, rfl, rfl⟩, rfl⟩
  have hleast : ∀ {i : U64}, lowest n (es.map TEntry.id) = some i → LeastR 0 (2 ^ n - 1) s i := by
    intro i hl
    obtain ⟨a, b, c⟩ := lowest_some hn64 hl
    rw [hids, Classical.not_not] at b
    refine ⟨(hav i).2 ⟨a, b⟩, fun j hj => c j ((hav j).1 hj).1 ?_⟩
    rw [hids, Classical.not_not]
    exact ((hav j).1 hj).2
  have hnone : lowest n (es.map TEntry.id) = none → ∀ i, ¬ AvailR 0 (2 ^ n - 1) s i := by
    intro hl i hi
    have hi := (hav i).1 hi
    exact (hids i).1 (lowest_none hl i hi.1) hi.2
  have same : ∀ r, g.call n len1 len2 c = .ok (g, r) → RStep 0 (2 ^ n - 1) len1 len2 s c s r →
      ∃ g' M' s' r, g.call n len1 len2 c = .ok (g', r) ∧ RStep 0 (2 ^ n - 1) len1 len2 s c s' r ∧ Reach I n g' M' ∧ MapEq n s' M' :=
    fun r h1 h2 => ⟨g, M, s, r, h1, h2, hg, h⟩
  cases c with
  | get id =>
    cases hs : s id with
    | none =>
      refine same .err ?_ ⟨rfl, fun l hl => (by rw [hs] at hl; cases hl), fun _ => rfl⟩
      rw [GTree.call, ask_eq hI hg h, hs]; rfl
    | some l =>
      refine same (.labels l) ?_ ⟨rfl, fun l' hl => (by rw [hs] at hl; cases hl; rfl), fun hl => (by rw [hs] at hl; cases hl)⟩
      rw [GTree.call, ask_eq hI hg h, hs]; rfl
  | claim id l =>
    by_cases hi : id.toNat < 2 ^ n
    · cases hs : s id with
      | none =>
        obtain ⟨g', k1, k2, k3⟩ := hput id l _ (.inl rfl) hi
        refine ⟨g', _, _, .ok, ?_, .inl ⟨(hav id).2 ⟨hi, hs⟩, rfl, rfl⟩, k2, k3⟩
        rw [GTree.call, if_pos hi, ask_eq hI hg h, hs]
        show Out.bind (g.exec _) _ = _
        rw [k1]; rfl
      | some l' =>
        refine same .err ?_ (.inr ⟨fun ha => (by rw [((hav id).1 ha).2] at hs; cases hs), rfl, rfl⟩)
        rw [GTree.call, if_pos hi, ask_eq hI hg h, hs]; rfl
    · refine same .err ?_ (.inr ⟨fun ha => hi ((hav id).1 ha).1, rfl, rfl⟩)
      rw [GTree.call, if_neg hi]
  | claimFree l =>
    cases hl : lowest n (es.map TEntry.id) with
    | none =>
      refine same .err ?_ (.inr ⟨hnone hl, rfl, rfl⟩)
      rw [GTree.call, e1]
      show (match lowest n (es.map TEntry.id) with | none => _ | some id => _) = _
      rw [hl]; rfl
    | some i =>
      have hle := hleast hl
      obtain ⟨g', k1, k2, k3⟩ := hput i l _ (.inl rfl) ((hav i).1 hle.1).1
      refine ⟨g', _, _, .entry ⟨i, len1, l⟩, ?_, .inl ⟨i, hle, rfl, rfl⟩, k2, k3⟩
      rw [GTree.call, e1]
      show (match lowest n (es.map TEntry.id) with | none => _ | some id => _) = _
      rw [hl]
      show Out.bind (g.exec _) _ = _
      rw [k1]; rfl
  | release id =>
    by_cases hi : id.toNat < 2 ^ n
    · have hlt : (fullId I.P id).id.toNat < 2 ^ n := by rw [toNat_fullId (h.lt hi)]; exact hi
      have he : Effect n M (.release (fullId I.P id)) .done
          (fun q => if q = pre (fullId I.P id) then (M q).filter (fun e => decide (e.id ≠ fullId I.P id)) else M q) := by
        simp [Effect, hlt]
      have hm := h.drop hi (fun q => rfl)
      have hf : Op.Fits (.release (fullId I.P id) : Op I.P L) := Nat.le_refl _
      obtain ⟨g', hx⟩ := exec_of_effect hI hg hf (by intro l h; cases h) he (hm.room hI2)
      refine ⟨g', _, _, .ok, ?_, .inl ⟨inR_iff.2 hi, rfl, rfl⟩, .step hg hf hx he (hm.room hI2), hm⟩
      rw [GTree.call, if_pos hi, hx]; rfl
    · refine same .err ?_ (.inr ⟨fun ha => hi (inR_iff.1 ha), rfl, rfl⟩)
      rw [GTree.call, if_neg hi]
  | update id l =>
    cases hs : s id with
    | none =>
      refine same .err ?_ (.inr ⟨hs, rfl, rfl⟩)
      rw [GTree.call, ask_eq hI hg h, hs]; rfl
    | some l' =>
      have hne : s id ≠ none := by rw [hs]; simp
      obtain ⟨g', k1, k2, k3⟩ := hput id l _ (.inr rfl) (h.low id hne)
      refine ⟨g', _, _, .ok, ?_, .inl ⟨hne, rfl, rfl⟩, k2, k3⟩
      rw [GTree.call, ask_eq hI hg h, hs]
      show Out.bind (g.exec _) _ = _
      rw [k1]; rfl
  | size =>
    refine same (.nat es.length) ?_ ⟨rfl, es.map TEntry.id, e2.1, hids, by rw [List.length_map]⟩
    rw [GTree.call, e3]; rfl
  | has id =>
    refine same (.bool (s id).isSome) ?_ ⟨rfl, _, ?_, rfl⟩
    · rw [GTree.call, ask_eq hI hg h]; rfl
    · cases s id <;> simp
  | isFree id =>
    refine same (.bool (decide (id.toNat < 2 ^ n) && (s id).isNone)) ?_ ⟨rfl, _, ?_, rfl⟩
    · rw [GTree.call, ask_eq hI hg h]; rfl
    · rw [hav]; simp
  | findFree =>
    cases hl : lowest n (es.map TEntry.id) with
    | none =>
      refine same .err ?_ ⟨rfl, .inr ⟨hnone hl, rfl⟩⟩
      rw [GTree.call, e1]
      show (match lowest n (es.map TEntry.id) with | none => _ | some id => _) = _
      rw [hl]; rfl
    | some i =>
      refine same (.id i) ?_ ⟨rfl, .inl ⟨i, hleast hl, rfl⟩⟩
      rw [GTree.call, e1]
      show (match lowest n (es.map TEntry.id) with | none => _ | some id => _) = _
      rw [hl]; rfl
  | getAll =>
    refine same (.entries es) ?_ ⟨rfl, es, e2, rfl⟩
    rw [GTree.call, e1]; rfl
  | getByLabel sel =>
    obtain ⟨fs, f1, f2⟩ := e4 sel
    refine same (.entries (fs.map (outOf len2))) ?_ ⟨rfl, _, f2, rfl⟩
    rw [GTree.call, f1]; rfl

theorem calls_run (hI : I = tree16 ∨ I = tree32) {n : Nat} (hn : I = tree32 → n ≤ 31) (len1 len2 : Nat) (cs : List (RCall L)) :
    ∀ {g : GTree I L} {M : Map I.P L} {s : LMap L}, Reach I n g M → MapEq n s M →
    ∃ g' M' s' rs, g.calls n len1 len2 cs = .ok (g', rs) ∧ RRun 0 (2 ^ n - 1) len1 len2 s cs rs s' ∧ Reach I n g' M' ∧ MapEq n s' M' := by
  induction cs with
  | nil => intro g M s hg h; exact ⟨g, M, s, [], rfl, .nil _, hg, h⟩
  | cons c cs ih =>
    intro g M s hg h
    obtain ⟨g₁, M₁, s₁, r, k1, k2, k3, k4⟩ := call_step hI hn hg h len1 len2 c
    obtain ⟨g₂, M₂, s₂, rs, k5, k6, k7, k8⟩ := ih k3 k4
    refine ⟨g₂, M₂, s₂, r :: rs, ?_, .cons k2 k6, k7, k8⟩
    unfold GTree.calls
    rw [k1]
    show Out.bind (g₁.calls n len1 len2 cs) _ = _
    rw [k5]; rfl

theorem run_det {a b len1 len2 : Nat} {s : LMap L} {cs : List (RCall L)} {rs : List (RReply L)} {s' : LMap L}
    (h : RRun a b len1 len2 s cs rs s') : ∀ {rs₂ s₂}, RRun a b len1 len2 s cs rs₂ s₂ → rs = rs₂ ∧ s' = s₂ := by
  induction h with
  | nil s => intro rs₂ s₂ h2; cases h2; exact ⟨rfl, rfl⟩
  | cons h1 _ ih =>
    intro rs₂ s₂ h2
    cases h2 with
    | cons h3 h4 =>
      obtain ⟨rfl, rfl⟩ := Ranged.C15_spec_deterministic h1 h3
      obtain ⟨rfl, rfl⟩ := ih h4
      exact ⟨rfl, rfl⟩

/-! ### C126 -/

/-- **C126, partial** (tree16, and tree32 of length up to 31, with a table of any package for the ids below `2^n`) The
client that checks the id, asks `Get` before `ClaimID` and `Update`, and takes a free id from `GetAll`, never panics on a
new tree and gets exactly the replies that the calls on a new table give, whatever the history of calls, those that fail
included. Missing: tree64, and the calls of the tree without these checks (both violated below). -/
theorem C126_table_on_tree_partial {P : Width} (hP : IsPkg P) (hI : I = tree16 ∨ I = tree32) {n : Nat} (h31 : I = tree32 → n ≤ 31)
    (hn : n < P.W) (hle : n ≤ I.P.W) (cs : List (RCall L)) :
    ∃ g₀ g' : GTree I L, new I L n = some g₀ ∧ g₀.calls n P.storedLen P.outLen cs = .ok (g', (tableOf P n cs).2) := by
  obtain ⟨hp, hstop⟩ := table_proper hn
  obtain ⟨g₀, hg₀⟩ : ∃ g₀, new I L n = some g₀ := by
    unfold new
    rw [if_neg (Nat.not_lt.2 hle)]
    exact ⟨_, rfl⟩
  have hg := hP.good
  have hrun := (Ranged.run_refines (L := L) hg (Ranged.new 0 (BitVec.ofNat P.W (2 ^ n - 1)))
    (Ranged.new_inv hg _ _ (BitVec.le_def.2 hp.1)) hp.2 cs).1
  have he : Ranged.absR (Ranged.new 0 (BitVec.ofNat P.W (2 ^ n - 1)) : RTable P L) = fun _ => none := by
    funext i
    unfold Ranged.absR
    split
    · simp [Ranged.new, IdxTable.newTable]
    · rfl
  rw [he] at hrun
  have hrun : RRun (0#P.W).toNat (BitVec.ofNat P.W (2 ^ n - 1)).toNat _ _ _ _ _ _ := hrun
  rw [hstop, BitVec.toNat_zero] at hrun
  obtain ⟨g', M', s', rs, k1, k2, _⟩ := calls_run hI h31 P.storedLen P.outLen cs (.new hg₀) (MapEq.empty (L := L) hle)
  refine ⟨g₀, g', hg₀, ?_⟩
  rw [k1, (run_det k2 hrun).1]
  rfl

/-- the replies of the client on a new tree -/
def repliesOf (I : Impl) (n len1 len2 : Nat) (cs : List (RCall Bool)) : List (RReply Bool) :=
  match (fresh I n : GTree I Bool).calls n len1 len2 cs with
  | .ok p => p.2
  | _ => [.panic]

/-- **C126, violated** (without the checks) `Claim` of a table refuses an id that is claimed, and `Update` one that is not;
`ClaimID` and `Update` of a tree accept both, so that a client that does not ask `Get` first takes an id from its owner. -/
theorem C126_unchecked_violated :
    ((tableOf Ranged.w16 4 [.claim 3 true, .claim 3 false, .update 5 true]).2 matches [.ok, .err, .err]) = true ∧
    ((fresh tree16 4).exec (.claim (fullId id16 3) true) matches .ok (.done, _)) = true ∧
    (((fresh tree16 4).after [.claim (fullId id16 3) true]).exec (.claim (fullId id16 3) false) matches .ok (.done, _)) = true ∧
    (((fresh tree16 4).after [.claim (fullId id16 3) true, .claim (fullId id16 3) false]).exec (.update (fullId id16 5) true) matches .ok (.done, _)) = true := by
  decide

/-- **C126, violated** (tree64) The client on a tree64 does not find an id any more after another one was claimed. -/
theorem C126_tree64_violated :
    ((tableOf Ranged.w64 2 [.claim 0 true, .claim 1 false, .get 0]).2 matches [.ok, .ok, .labels true]) = true ∧
    (repliesOf tree64 2 64 64 [.claim 0 true, .claim 1 false, .get 0] matches [.ok, .ok, .err]) = true := by
  decide

-- claims, a claim and an update that fail, a release, the lowest free id
example : ((tableOf Ranged.w16 2 [.claim 0 true, .claim 0 false, .update 3 true, .release 0, .claim 4 true, .has 0]).2
    matches [.ok, .err, .err, .ok, .err, .bool false]) = true := by decide
example : (repliesOf tree16 2 16 32 [.claim 0 true, .claim 0 false, .update 3 true, .claimFree true, .release 0, .claim 4 true, .findFree]
    matches [.ok, .err, .err, .entry ⟨1, 16, true⟩, .ok, .err, .id 0]) = true := by decide
example : IsPkg Ranged.w16 ∧ (tree16 = tree32 → 2 ≤ 31) ∧ 2 < Ranged.w16.W ∧ 2 ≤ tree16.P.W :=
  ⟨.inl rfl, fun _ => by decide, by decide, by decide⟩

end Verif.GTree
