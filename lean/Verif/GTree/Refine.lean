import Verif.GTree.Spec
import Verif.Tree.Runs
import Verif.Tree.Props
import Verif.Tree.Leak
import Verif.Id.FreeProps

/-! The trees of claimed prefixes refine the abstract map (widths 16 and 32). -/

set_option linter.unusedSectionVars false
namespace Verif.GTree
open Verif.Id
open Verif.Tree (Tree Out newTree pfx AtMost ListsMap Abs mapOf)
variable {I : Impl} {L : Type} [Labels L]

theorem filter_pos {α : Type} {p : α → Bool} {a : α} (h : p a = true) : (some a).filter p = some a := by
  rw [Option.filter_some, if_pos h]

theorem filter_neg {α : Type} {p : α → Bool} {a : α} (h : p a = false) : (some a).filter p = none := by
  rw [Option.filter_some, if_neg (by rw [h]; simp)]

/-- the map of the underlying tree -/
def hat {P : Pkg} (M : Map P L) : List Bool → Option (Option (Entry P L)) := fun q => (M q).map some

/-- `g` represents `M` -/
structure GInv (length : Nat) (g : GTree I L) (M : Map I.P L) : Prop where
  tree : ∃ s, Verif.Tree.Inv I.P.W g.tree s ∧ Abs g.tree s (fun q => (hat M q).toList) ∧
    g.tree.nodes.length ≤ 2 ^ (64 - I.P.W) + 1
  size : g.size = ((1 : BitVec I.P.W) <<< length) - 1
  len : g.length = length
  le : length ≤ I.P.W
  wf : ∀ q e, M q = some e → q = pre e.id ∧ e.id.len ≤ I.P.W
  room : Room M
  reach : Verif.Tree.ReachSmall I.P g.tree

/-- one value per prefix: the keys do not overlap -/
theorem small_of_abs {T : Type} [Inhabited T] {W : Nat} {t : Tree T} {s : Verif.Tree.Sh} {N : List Bool → Option T}
    (h : Verif.Tree.Inv W t s) (ha : Abs t s (fun q => (N q).toList)) (hn : t.nodes.length ≤ 2 ^ (64 - W) + 1) :
    Verif.Tree.Small W t := by
  refine ⟨hn, ?_⟩
  intro q i n hq hi
  obtain ⟨c, hc⟩ := h.at_iff.1 hq
  obtain ⟨n', hn', hcc⟩ := h.rep.cnt hc
  rw [hi] at hn'
  cases hn'
  rw [hcc]
  by_cases h0 : c = 0
  · rw [h0]; exact Nat.zero_le _
  · have := ha.entry q i c (Verif.Tree.Sh.mem_entries.2 ⟨hc, h0⟩)
    have hl := congrArg List.length this
    rw [Verif.Tree.valsAt, List.length_map, List.length_range] at hl
    rw [← hl]
    refine Nat.le_trans ?_ (Nat.two_pow_pos W)
    cases N q <;> simp

theorem atMost_mono {T T' : Type} {n : Nat} {M : List Bool → Option T} {M' : List Bool → Option T'}
    (h : AtMost n M) (hs : ∀ q, M' q ≠ none → M q ≠ none) : AtMost n M' := by
  obtain ⟨ks, h1, h2⟩ := h
  exact ⟨ks, h1, fun q hq => h2 q (hs q hq)⟩

theorem hat_ne {P : Pkg} {M : Map P L} {q : List Bool} : hat M q ≠ none ↔ M q ≠ none := by
  unfold hat; cases M q <;> simp

theorem Room.mono {P : Pkg} {M M' : Map P L} (h : Room M) (hs : ∀ q, M' q ≠ none → M q ≠ none) : Room M' :=
  fun hw => (h hw).mono hs

theorem room_few {P : Pkg} {M : Map P L} (h : P.W = 32 → AtMost (2 ^ 31) M) : Room M :=
  fun hw => Verif.Tree.needs_of_atMost (by decide) (h hw)

/-- the width is one for which the tree works -/
def Ok (I : Impl) : Prop := I.P = id16 ∨ I.P = id32

theorem Ok.width (h : Ok I) : I.P.W = 16 ∨ I.P.W = 32 := by
  rcases h with h | h <;> rw [h] <;> simp [id16, id32]

theorem set_inv (hI : Ok I) {length : Nat} {g : GTree I L} {M : Map I.P L} (h : GInv length g M) {id : MyId I.P}
    (hid : id.len ≤ I.P.W) (l : L) (hr : Room (put M id l)) :
    ∃ g', g.set id ⟨id, l⟩ = .ok g' ∧ GInv length g' (put M id l) := by
  obtain ⟨s, h1, h2, h3⟩ := h.tree
  have hmap : Verif.Tree.Op.map (.set id (some (⟨id, l⟩ : Entry I.P L)) : Verif.Tree.Op I.P _) (hat M) = hat (put M id l) := by
    funext q
    show (if q = pfx id.id id.len then some (some (⟨id, l⟩ : Entry I.P L)) else hat M q) = hat (put M id l) q
    unfold hat put pre
    split <;> rfl
  obtain ⟨t', s', e1, e2, e3, e4⟩ := Verif.Tree.exec_map hI.width h1 h2 h3 (.set id (some (⟨id, l⟩ : Entry I.P L)))
    ⟨hid, trivial⟩ (by
      intro hw
      rw [hmap]
      exact (hr hw).mono (fun q hq => hat_ne.1 hq))
  have e1' : (g.tree.set id (some (⟨id, l⟩ : Entry I.P L)) >>= fun x => (pure (Verif.Tree.Res.added x.1 x.2.1, x.2.2) : Out _)) =
    .ok (_, t') := e1
  cases hs : g.tree.set id (some (⟨id, l⟩ : Entry I.P L)) with
  | ok p =>
    obtain ⟨b, c, t''⟩ := p
    rw [hs] at e1'
    have ht : t'' = t' := by
      have := Out.ok.inj e1'
      exact congrArg Prod.snd this
    subst ht
    refine ⟨{ g with tree := t'' }, ?_, ⟨s', e2, ?_, e4⟩, h.size, h.len, h.le, ?_, hr,
      h.reach.step (o := .set id _) hid e1 (small_of_abs e2 e3 e4)⟩
    · unfold GTree.set
      rw [hs]
      rfl
    · rw [hmap] at e3; exact e3
    · intro q e he
      unfold put at he
      split at he
      · rename_i hq; cases he; exact ⟨hq, hid⟩
      · exact h.wf q e he
  | panic m => rw [hs] at e1'; cases e1'
  | realloc => rw [hs] at e1'; cases e1'
  | diverge => rw [hs] at e1'; cases e1'

theorem del_inv (hI : Ok I) {length : Nat} {g : GTree I L} {M : Map I.P L} (h : GInv length g M) {id : MyId I.P}
    (hid : id.len ≤ I.P.W) (e : Entry I.P L) :
    ∃ g', g.del id e = .ok g' ∧
      GInv length g' (fun q => if q = pre id then (M q).filter (fun e' => !e'.equal e) else M q) := by
  obtain ⟨s, h1, h2, h3⟩ := h.tree
  let m : Option (Entry I.P L) → Option (Entry I.P L) → Bool := fun e1 e2 => match e1, e2 with
    | some e1, some e2 => e1.equal e2
    | _, _ => false
  let M' : Map I.P L := fun q => if q = pre id then (M q).filter (fun e' => !e'.equal e) else M q
  have hsub : ∀ q, M' q ≠ none → M q ≠ none := by
    intro q hq hn
    apply hq
    show (if q = pre id then (M q).filter (fun e' => !e'.equal e) else M q) = none
    rw [hn]; simp
  have hmap : Verif.Tree.Op.map (.delete id m (some e) : Verif.Tree.Op I.P _) (hat M) = hat M' := by
    funext q
    show (if q = pfx id.id id.len then (hat M q).filter (fun w => !m w (some e)) else hat M q) =
      (if q = pre id then (M q).filter (fun e' => !e'.equal e) else M q).map some
    unfold hat pre
    split
    · cases M q with
      | none => rfl
      | some e' =>
        show (some (some e')).filter (fun w => !m w (some e)) = ((some e').filter (fun e' => !e'.equal e)).map some
        rw [Option.filter_some, Option.filter_some]
        show (if (!(e'.equal e)) = true then _ else _) = _
        split <;> rfl
    · rfl
  obtain ⟨t', s', e1, e2, e3, e4⟩ := Verif.Tree.exec_map hI.width h1 h2 h3 (.delete id m (some e))
    ⟨hid, trivial⟩ (by
      intro hw
      rw [hmap]
      exact (h.room hw).mono (fun q hq => hsub q (hat_ne.1 hq)))
  have e1' : (g.tree.delete id m (some e) >>= fun x => (pure (Verif.Tree.Res.deleted x.1, x.2) : Out _)) = .ok (_, t') := e1
  cases hs : g.tree.delete id m (some e) with
  | ok p =>
    obtain ⟨n, t''⟩ := p
    rw [hs] at e1'
    have ht : t'' = t' := by
      have := Out.ok.inj e1'
      exact congrArg Prod.snd this
    subst ht
    refine ⟨{ g with tree := t'' }, ?_, ⟨s', e2, ?_, e4⟩, h.size, h.len, h.le, ?_, h.room.mono hsub,
      h.reach.step (o := .delete id m _) hid e1 (small_of_abs e2 e3 e4)⟩
    · show (g.tree.delete id m (some e) >>= fun x => (pure { g with tree := x.2 } : Out _)) = _
      rw [hs]
      rfl
    · rw [hmap] at e3; exact e3
    · intro q e' he
      split at he
      · exact h.wf q e' (Option.filter_eq_some_iff.1 he).1
      · exact h.wf q e' he
  | panic m => rw [hs] at e1'; cases e1'
  | realloc => rw [hs] at e1'; cases e1'
  | diverge => rw [hs] at e1'; cases e1'

/-! ### Reading -/

theorem firsts_spec {V : Type} : ∀ {vis : List (Nat × List V)} {vs : List V}, vis.map (·.2) = vs.map (fun v => [v]) →
    firsts vis = .ok vs ∧ vis.length = vs.length := by
  intro vis
  induction vis with
  | nil => intro vs h; cases vs with
    | nil => exact ⟨rfl, rfl⟩
    | cons _ _ => cases h
  | cons x vis ih =>
    intro vs h
    cases vs with
    | nil => cases h
    | cons v vs =>
      obtain ⟨i, l⟩ := x
      simp only [List.map_cons, List.cons.injEq] at h
      obtain ⟨h1, h2⟩ := h
      subst h1
      obtain ⟨a, b⟩ := ih h2
      refine ⟨?_, by simp [b]⟩
      show (firsts vis >>= fun vs => (pure (v :: vs) : Out _)) = _
      rw [a]; rfl

theorem entries_spec {length : Nat} {g : GTree I L} {M : Map I.P L} (h : GInv length g M) :
    ∃ l, Listing l M ∧ g.entries = .ok (l.map some) ∧ g.count = .ok l.length := by
  obtain ⟨s, h1, h2, h3⟩ := h.tree
  obtain ⟨K, k1, vis, k2, k3⟩ := Verif.Tree.visit_map h1 h2
  have hall : ∀ x ∈ K, ∃ e, x = (pre e.id, some e) := by
    rintro ⟨q, v⟩ hx
    have := (k1.mem q v).1 hx
    unfold hat at this
    cases hm : M q with
    | none => rw [hm] at this; cases this
    | some e =>
      rw [hm] at this
      cases this
      exact ⟨e, by rw [← (h.wf q e hm).1]⟩
  have : ∀ K : List (List Bool × Option (Entry I.P L)), (∀ x ∈ K, ∃ e, x = (pre e.id, some e)) →
      ∃ l : List (Entry I.P L), K = l.map (fun e => (pre e.id, some e)) := by
    intro K
    induction K with
    | nil => intro _; exact ⟨[], rfl⟩
    | cons x K ih =>
      intro h
      obtain ⟨e, he⟩ := h x (by simp)
      obtain ⟨l, hl⟩ := ih (fun y hy => h y (by simp [hy]))
      exact ⟨e :: l, by rw [he, hl]; rfl⟩
  obtain ⟨l, hl⟩ := this K hall
  subst hl
  have hv : vis.map (·.2) = (l.map some).map (fun v => [v]) := by
    rw [k3, List.map_map, List.map_map]; rfl
  obtain ⟨f1, f2⟩ := firsts_spec hv
  refine ⟨l, ⟨?_, ?_⟩, ?_, ?_⟩
  · have := k1.sorted
    rw [List.pairwise_map] at this ⊢
    exact this
  · intro q e
    constructor
    · intro hm
      obtain ⟨e', h1, h2⟩ := List.mem_map.1 hm
      cases h2
      have := (k1.mem (pre e.id) (some e)).1 (List.mem_map.2 ⟨e, h1, rfl⟩)
      unfold hat at this
      cases hm : M (pre e.id) with
      | none => rw [hm] at this; cases this
      | some e' => rw [hm] at this; cases this; rfl
    · intro hm
      have := (k1.mem q (some e)).2 (by unfold hat; rw [hm]; rfl)
      obtain ⟨e', h1, h2⟩ := List.mem_map.1 this
      cases h2
      exact List.mem_map.2 ⟨e, h1, rfl⟩
  · unfold GTree.entries
    rw [k2]; exact f1
  · unfold GTree.count
    rw [k2]
    show Out.ok vis.length = _
    rw [f2, List.length_map]

theorem Listing.mem {P : Pkg} {l : List (Entry P L)} {M : Map P L} (h : Listing l M)
    (hw : ∀ q e, M q = some e → q = pre e.id) {e : Entry P L} : e ∈ l ↔ M (pre e.id) = some e := by
  rw [← ListsMap.mem h]
  constructor
  · intro he; exact List.mem_map.2 ⟨e, he, rfl⟩
  · intro he
    obtain ⟨e', h1, h2⟩ := List.mem_map.1 he
    have := congrArg Prod.snd h2
    simp only at this
    rw [← this]
    exact h1

theorem getLoop_spec {P : Pkg} (id : MyId P) (l : List (Entry P L)) :
    getLoop id (l.map some) = .ok (l.find? (fun e => decide (e.id = id))) := by
  induction l with
  | nil => rfl
  | cons e l ih =>
    rw [List.map_cons, List.find?_cons]
    show (if e.id = id then (pure (some e) : Out _) else getLoop id (l.map some)) = _
    by_cases h : e.id = id
    · rw [if_pos h]; simp only [h, decide_true]; rfl
    · rw [if_neg h, ih]; simp only [h, decide_false]

theorem labelLoop_spec {P : Pkg} (sel : L → Bool) (l : List (Entry P L)) :
    labelLoop sel (l.map some) = .ok (l.filter (fun e => sel e.labels)) := by
  induction l with
  | nil => rfl
  | cons e l ih =>
    rw [List.map_cons, List.filter_cons]
    show (labelLoop sel (l.map some) >>= fun rest => (pure (if sel e.labels then e :: rest else rest) : Out _)) = _
    rw [ih]
    show Out.ok _ = _
    rfl

theorem overlapLoop_spec {P : Pkg} (id : MyId P) (c : Nat → Bool) (l : List (Entry P L))
    (ho : ∀ e ∈ l, ∃ z, e.id.overlaps id = some z) :
    overlapLoop id c (l.map some) = .ok (l.filter (fun e => e.id.overlaps id == some true && c e.id.len)) := by
  induction l with
  | nil => rfl
  | cons e l ih =>
    obtain ⟨z, hz⟩ := ho e (by simp)
    rw [List.map_cons, List.filter_cons, overlapLoop]
    show (match e.id.overlaps id with
      | none => (Out.panic "index out of range" : Out (List (Entry P L)))
      | some o => (overlapLoop id c (l.map some) >>= fun rest => (pure (if o && c e.id.len then e :: rest else rest) : Out _))) = _
    rw [hz, ih (fun e' h' => ho e' (by simp [h']))]
    show Out.ok _ = _
    cases z <;> simp

theorem get_spec {length : Nat} {g : GTree I L} {M : Map I.P L} (h : GInv length g M) (id : MyId I.P) :
    g.get id = .ok ((M (pre id)).filter (fun e => decide (e.id = id))) := by
  obtain ⟨l, h1, h2, _⟩ := entries_spec h
  have hw : ∀ q e, M q = some e → q = pre e.id := fun q e he => (h.wf q e he).1
  unfold GTree.get
  rw [h2]
  show getLoop id (l.map some) = _
  rw [getLoop_spec]
  congr 1
  cases hf : l.find? (fun e => decide (e.id = id)) with
  | some e =>
    have he : e.id = id := by simpa using List.find?_some hf
    have hm := (h1.mem hw).1 (List.mem_of_find?_eq_some hf)
    rw [he] at hm
    rw [hm, filter_pos (by simp [he])]
  | none =>
    cases hm : M (pre id) with
    | none => rfl
    | some e =>
      have he := hw _ _ hm
      have hne : e.id ≠ id := by
        intro hid
        have hl : e ∈ l := (h1.mem hw).2 (by rw [← he]; exact hm)
        have := List.find?_eq_none.1 hf e hl
        simp [hid] at this
      rw [filter_neg (by simp [hne])]

theorem valid_size {length : Nat} {g : GTree I L} (hs : g.size = ((1 : BitVec I.P.W) <<< length) - 1)
    (hle : length ≤ I.P.W) (hp : 1 < I.P.W) (id : MyId I.P) : g.valid id = true ↔ id.id.toNat < 2 ^ length := by
  unfold GTree.valid
  rw [hs]
  have hlt : 2 ^ length ≤ 2 ^ I.P.W := Nat.pow_le_pow_right (by decide) hle
  have h1 : (((1 : BitVec I.P.W) <<< length) - 1).toNat = 2 ^ length - 1 := by
    have h1 : (1 : BitVec I.P.W).toNat = 1 := Verif.Id.toNat_one hp
    have hpos : 0 < 2 ^ length := Nat.two_pow_pos _
    have h2 : 2 ≤ 2 ^ I.P.W := Nat.le_trans (Nat.le_refl (2 ^ 1)) (Nat.pow_le_pow_right (by decide) (by omega))
    rw [BitVec.toNat_sub, BitVec.toNat_shiftLeft, h1, Nat.shiftLeft_eq, Nat.one_mul]
    rcases Nat.lt_or_ge (2 ^ length) (2 ^ I.P.W) with hl | hl
    · rw [Nat.mod_eq_of_lt hl]
      have : 2 ^ I.P.W - 1 + 2 ^ length = 2 ^ length - 1 + 2 ^ I.P.W := by omega
      rw [this, Nat.add_mod_right, Nat.mod_eq_of_lt (by omega)]
    · have he : 2 ^ length = 2 ^ I.P.W := by omega
      rw [he, Nat.mod_self, Nat.add_zero, Nat.mod_eq_of_lt (by omega)]
  have hpos : 0 < 2 ^ length := Nat.two_pow_pos _
  simp only [Bool.not_eq_true', decide_eq_false_iff_not, gt_iff_lt, BitVec.lt_def, h1]
  omega

theorem valid_iff {length : Nat} {g : GTree I L} {M : Map I.P L} (h : GInv length g M) (hp : 1 < I.P.W)
    (id : MyId I.P) : g.valid id = true ↔ id.id.toNat < 2 ^ length := valid_size h.size h.le hp id

/-! ### Calls -/

theorem Ok.pos (h : Ok I) : 1 < I.P.W := by
  rcases h.width with h | h <;> omega

theorem claim_spec (hI : Ok I) {length : Nat} {g : GTree I L} {M : Map I.P L} (h : GInv length g M) {id : MyId I.P}
    (hid : id.len ≤ I.P.W) (l : L) :
    (id.id.toNat < 2 ^ length → Room (put M id l) → ∃ g', g.claimID id l = .ok (.ok (), g') ∧ GInv length g' (put M id l)) ∧
    (¬ id.id.toNat < 2 ^ length → g.claimID id l = .ok (.err, g)) := by
  have hv := valid_iff h hI.pos id
  unfold GTree.claimID
  constructor
  · intro hlt hr
    obtain ⟨g', h1, h2⟩ := set_inv hI h hid l hr
    rw [hv.2 hlt]
    refine ⟨g', ?_, h2⟩
    show (g.set id ⟨id, l⟩ >>= fun g => (pure (Ret.ok (), g) : Out _)) = _
    rw [h1]; rfl
  · intro hn
    have : g.valid id = false := by
      cases hc : g.valid id with
      | false => rfl
      | true => exact absurd (hv.1 hc) hn
    rw [this]; rfl

theorem room_put {P : Pkg} {M : Map P L} {id : MyId P} {l : L} {ids : List (MyId P)} (h : Room (puts (put M id l) l ids)) :
    Room (put M id l) := by
  refine h.mono ?_
  intro q
  have : ∀ (ids : List (MyId P)) (M : Map P L), M q ≠ none → puts M l ids q ≠ none := by
    intro ids
    induction ids with
    | nil => intro M h; exact h
    | cons i ids ih =>
      intro M h
      apply ih
      show (if q = pre i then some (⟨i, l⟩ : Entry P L) else M q) ≠ none
      split
      · simp
      · exact h
  exact this ids _

theorem setAll_spec (hI : Ok I) {length : Nat} (l : L) : ∀ {ids : List (MyId I.P)} {g : GTree I L} {M : Map I.P L},
    GInv length g M → (∀ i ∈ ids, i.len ≤ I.P.W) → Room (puts M l ids) →
    ∃ g', g.setAll l ids = .ok g' ∧ GInv length g' (puts M l ids) := by
  intro ids
  induction ids with
  | nil => intro g M h _ _; exact ⟨g, rfl, h⟩
  | cons i ids ih =>
    intro g M h hi hr
    have hr' : Room (puts (put M i l) l ids) := hr
    obtain ⟨g1, h1, h2⟩ := set_inv hI h (hi i (by simp)) l (room_put hr')
    obtain ⟨g2, h3, h4⟩ := ih h2 (fun j hj => hi j (by simp [hj])) hr'
    refine ⟨g2, ?_, h4⟩
    show (g.set i ⟨i, l⟩ >>= fun g => g.setAll l ids) = _
    rw [h1]; exact h3

theorem equal_refl {P : Pkg} (e : Entry P L) : e.equal e = true := by
  simp [Entry.equal]

theorem delAll_spec (hI : Ok I) {length : Nat} : ∀ {es : List (Entry I.P L)} {g : GTree I L} {M : Map I.P L},
    GInv length g M → (∀ e ∈ es, M (pre e.id) = some e) → es.Pairwise (fun a b => pre a.id ≠ pre b.id) →
    ∃ g' M', g.delAll es = .ok g' ∧ GInv length g' M' ∧
      (∀ q, (∀ e ∈ es, pre e.id ≠ q) → M' q = M q) ∧ ∀ e ∈ es, M' (pre e.id) = none := by
  intro es
  induction es with
  | nil => intro g M h _ _; exact ⟨g, M, rfl, h, fun _ _ => rfl, fun e he => by cases he⟩
  | cons e es ih =>
    intro g M h hm hp
    obtain ⟨hp1, hp2⟩ := List.pairwise_cons.1 hp
    have he := hm e (by simp)
    obtain ⟨g1, h1, h2⟩ := del_inv hI h (h.wf _ _ he).2 e
    obtain ⟨g2, M2, h3, h4, h5, h6⟩ := ih h2 (by
      intro e' h'
      have hne : pre e'.id ≠ pre e.id := fun h => hp1 e' h' h.symm
      simp only [if_neg hne]
      exact hm e' (by simp [h'])) hp2
    refine ⟨g2, M2, ?_, h4, ?_, ?_⟩
    · show (g.del e.id e >>= fun g => g.delAll es) = _
      rw [h1]; exact h3
    · intro q hq
      rw [h5 q (fun e' h' => hq e' (by simp [h']))]
      have hne : q ≠ pre e.id := fun h => hq e (by simp) h.symm
      simp only [if_neg hne]
    · intro e' h'
      rcases List.mem_cons.1 h' with rfl | h'
      · rw [h5 _ (fun e2 h2 h => hp1 e2 h2 h.symm)]
        simp only [if_true, he]
        exact filter_neg (by simp [equal_refl])
      · exact h6 e' h'

theorem releaseByLabel_spec (hI : Ok I) {length : Nat} {g : GTree I L} {M : Map I.P L} (h : GInv length g M) (sel : L → Bool) :
    ∃ g', g.releaseByLabel sel = .ok g' ∧ GInv length g' (fun q => (M q).filter (fun e => !sel e.labels)) := by
  obtain ⟨l, h1, h2, _⟩ := entries_spec h
  have hw : ∀ q e, M q = some e → q = pre e.id := fun q e he => (h.wf q e he).1
  have hl : g.getByLabel sel = .ok (l.filter (fun e => sel e.labels)) := by
    unfold GTree.getByLabel
    rw [h2]
    exact labelLoop_spec sel l
  have hp : (l.filter (fun e => sel e.labels)).Pairwise (fun a b => pre a.id ≠ pre b.id) := by
    have := ListsMap.sorted h1
    rw [List.pairwise_map] at this
    refine (this.imp ?_).filter _
    intro a b hab he
    simp only at hab
    rw [he] at hab
    have irr : ∀ a : List Bool, ¬ a < a := by
      intro a
      induction a with
      | nil => intro h; cases h
      | cons b a ih =>
        intro h
        cases h with
        | rel h => cases b <;> cases h
        | cons h => exact ih h
    exact irr _ hab
  obtain ⟨g', M', g1, g2, g3, g4⟩ := delAll_spec hI h (es := l.filter (fun e => sel e.labels)) (by
    intro e he
    exact (h1.mem hw).1 (List.mem_filter.1 he).1) hp
  refine ⟨g', ?_, ?_⟩
  · unfold GTree.releaseByLabel
    rw [hl]; exact g1
  · have : M' = fun q => (M q).filter (fun e => !sel e.labels) := by
      funext q
      cases hm : M q with
      | none =>
        rw [g3 q]
        · rw [hm]; rfl
        · intro e he hq
          have := (h1.mem hw).1 (List.mem_filter.1 he).1
          rw [hq, hm] at this
          cases this
      | some e =>
        have hq := hw q e hm
        by_cases hs : sel e.labels = true
        · have : e ∈ l.filter (fun e => sel e.labels) :=
            List.mem_filter.2 ⟨(h1.mem hw).2 (by rw [← hq]; exact hm), hs⟩
          rw [hq, g4 e this]
          rw [filter_neg (by simp [hs])]
        · rw [g3 q]
          · rw [hm, filter_pos (by simp [hs])]
          · intro e' he hq'
            have h5 := List.mem_filter.1 he
            have := (h1.mem hw).1 h5.1
            rw [hq', hm] at this
            cases this
            exact hs h5.2
    rw [← this]; exact g2

theorem releaseID_spec (hI : Ok I) {length : Nat} {g : GTree I L} {M : Map I.P L} (h : GInv length g M) {id : MyId I.P}
    (hid : id.len ≤ I.P.W) :
    (id.id.toNat < 2 ^ length → ∃ g' M', g.releaseID id = .ok (.ok (), g') ∧ GInv length g' M' ∧
      ∀ q, M' q = if q = pre id then (M q).filter (fun e => decide (e.id ≠ id)) else M q) ∧
    (¬ id.id.toNat < 2 ^ length → g.releaseID id = .ok (.err, g)) := by
  have hv := valid_iff h hI.pos id
  unfold GTree.releaseID
  constructor
  · intro hlt
    rw [hv.2 hlt]
    have hg := get_spec h id
    cases hm : (M (pre id)).filter (fun e => decide (e.id = id)) with
    | none =>
      rw [hm] at hg
      refine ⟨g, M, ?_, h, ?_⟩
      · show (g.get id >>= _) = _
        rw [hg]; rfl
      · intro q
        split
        · rename_i hq
          subst hq
          cases hmm : M (pre id) with
          | none => rfl
          | some e =>
            rw [hmm] at hm
            by_cases he : e.id = id
            · rw [filter_pos (by simp [he])] at hm; cases hm
            · rw [filter_pos (by simp [he])]
        · rfl
    | some e =>
      rw [hm] at hg
      obtain ⟨hme, hee⟩ := Option.filter_eq_some_iff.1 hm
      have hee : e.id = id := by simpa using hee
      obtain ⟨g', h1, h2⟩ := del_inv hI h hid e
      refine ⟨g', _, ?_, h2, ?_⟩
      · show (g.get id >>= _) = _
        rw [hg]
        show (g.del id e >>= fun g => (pure (Ret.ok (), g) : Out _)) = _
        rw [h1]; rfl
      · intro q
        show _ = if q = pre id then _ else _
        split
        · rename_i hq
          rw [hq, hme, filter_neg (by simp [equal_refl]), filter_neg (by simp [hee])]
        · rfl
  · intro hn
    have : g.valid id = false := by
      cases hc : g.valid id with
      | false => rfl
      | true => exact absurd (hv.1 hc) hn
    rw [this]; rfl

end Verif.GTree
