import Verif.Conc.Reads

/-! C94: what `GetByLabel` returns while the table is changed. -/

namespace Verif.Conc
open Verif.IdxTable (U64 Table Entry Call Reply newTable Iter sortKeys Ascending)
variable {κ κ₀ σ ρ ρ₀ β γ α : Type}

/-! ## programs that have read -/

theorem saw_ret {x y : β} {l : List σ} (h : (Prog.ret x).Saw l (.ret y)) : x = y ∧ l = [] := by
  cases h; exact ⟨rfl, rfl⟩

theorem saw_read {k : σ → Prog σ β} {y : β} {l : List σ} (h : (Prog.read k).Saw l (.ret y)) :
    ∃ s l', l = s :: l' ∧ (k s).Saw l' (.ret y) := by
  cases h with
  | read h => exact ⟨_, _, rfl, h⟩

theorem saw_rlock {k : Prog σ β} {y : β} {l : List σ} (h : (Prog.rlock k).Saw l (.ret y)) : k.Saw l (.ret y) := by
  cases h with
  | rlock h => exact h

theorem saw_runlock {k : Prog σ β} {y : β} {l : List σ} (h : (Prog.runlock k).Saw l (.ret y)) : k.Saw l (.ret y) := by
  cases h with
  | runlock h => exact h

theorem saw_bind {p : Prog σ β} {f : β → Prog σ γ} : ∀ {l : List σ} {y : γ}, (p.bind f).Saw l (.ret y) →
    ∃ l₁ l₂ x, l = l₁ ++ l₂ ∧ p.Saw l₁ (.ret x) ∧ (f x).Saw l₂ (.ret y) := by
  induction p with
  | ret r => intro l y h; exact ⟨[], l, r, rfl, .refl _, h⟩
  | read k ih =>
    intro l y h
    obtain ⟨s, l', rfl, h'⟩ := saw_read h
    obtain ⟨l₁, l₂, x, rfl, h1, h2⟩ := ih s h'
    exact ⟨s :: l₁, l₂, x, rfl, .read h1, h2⟩
  | write w k ih =>
    intro l y h
    cases h with
    | write h => obtain ⟨l₁, l₂, x, rfl, h1, h2⟩ := ih h; exact ⟨l₁, l₂, x, rfl, .write h1, h2⟩
  | rlock k ih =>
    intro l y h
    cases h with
    | rlock h => obtain ⟨l₁, l₂, x, rfl, h1, h2⟩ := ih h; exact ⟨l₁, l₂, x, rfl, .rlock h1, h2⟩
  | runlock k ih =>
    intro l y h
    cases h with
    | runlock h => obtain ⟨l₁, l₂, x, rfl, h1, h2⟩ := ih h; exact ⟨l₁, l₂, x, rfl, .runlock h1, h2⟩
  | lock k ih =>
    intro l y h
    cases h with
    | lock h => obtain ⟨l₁, l₂, x, rfl, h1, h2⟩ := ih h; exact ⟨l₁, l₂, x, rfl, .lock h1, h2⟩
  | unlock k ih =>
    intro l y h
    cases h with
    | unlock h => obtain ⟨l₁, l₂, x, rfl, h1, h2⟩ := ih h; exact ⟨l₁, l₂, x, rfl, .unlock h1, h2⟩

/-- `Iterate` reads once -/
theorem saw_iterate {l : List (Table α)} {y : Reply α} (h : (codeOf Call.iterate).Saw l (.ret y)) :
    ∃ t, l = [t] ∧ y = .ids (Iter.drain ⟨-1, sortKeys t.m.keys⟩) := by
  obtain ⟨t, l', rfl, h'⟩ := saw_read (saw_rlock h)
  obtain ⟨rfl, rfl⟩ := saw_ret (saw_runlock h')
  exact ⟨t, rfl, rfl⟩

/-! ## invariants -/

/-- the calls that claim no id of their own choice -/
def Direct : Call α → Prop
  | .claimDynamic _ | .claimRange .. | .claimSize .. => False
  | _ => True

theorem keeps_codeOf {J : Table α → Prop} (c : Call α) (hd : Direct c)
    (hset : ∀ i d, c = .claim i d ∨ c = .update i d → ∀ t, J t → J { t with m := t.m.set i ⟨i, d⟩ })
    (hdel : ∀ i, c = .release i → ∀ t, J t → J { t with m := t.m.del i }) :
    Grows (fun t t' => J t → J t') (codeOf c) := by
  cases c with
  | claimDynamic | claimRange | claimSize => exact hd.elim
  | release i =>
    refine Grows.bind (Grows.withLock ?_) fun _ => .ret _
    refine (rdOnly_validateP _).grows.bind ?_
    rintro (er | u)
    · exact .ret _
    · exact (Grows.put (hdel i rfl)).bind fun _ => .ret _
  | claim i d =>
    refine Grows.bind (Grows.withLock ?_) fun _ => .ret _
    refine (rdOnly_validateP _).grows.bind ?_
    rintro (er | u)
    · exact .ret _
    · refine (rdOnly_isFreeP _).grows.bind fun b => ?_
      cases b
      · exact .ret _
      · exact (Grows.put (hset i d (.inl rfl))).bind fun _ => .ret _
  | update i d =>
    refine Grows.bind (Grows.withLock ?_) fun _ => .ret _
    refine (rdOnly_validateP _).grows.bind ?_
    rintro (er | u)
    · exact .ret _
    · refine (rdOnly_isFreeP _).grows.bind fun b => ?_
      cases b
      · exact (Grows.put (hset i d (.inr rfl))).bind fun _ => .ret _
      · exact .ret _
  | get id =>
    refine Grows.bind (Grows.withRLock ?_) fun _ => .ret _
    refine (rdOnly_validateP _).grows.bind ?_
    rintro (er | u)
    · exact .ret _
    · refine (rdOnly_get _).grows.bind ?_
      rintro (_ | e)
      · exact .ret _
      · exact .ret _
  | iterate => exact rdOnly_iterateP.grows.withRLock.bind fun _ => .ret _
  | iterateFree => exact rdOnly_iterateFreeP.grows.withRLock.bind fun _ => .ret _
  | size => exact (rdOnly_get _).grows.withRLock.bind fun _ => .ret _
  | has id => exact (rdOnly_get _).grows.withRLock.bind fun _ => .ret _
  | isFree id => exact (rdOnly_get _).grows.withRLock.bind fun _ => .ret _
  | findFree =>
    refine Grows.bind (Grows.bind rdOnly_iterateFreeP.grows.withRLock ?_) fun _ => .ret _
    intro free
    simp only
    split <;> exact .ret _
  | findFreeRange start n => exact (rdOnly_findFreeRangeP _ _).grows.withRLock.bind fun _ => .ret _
  | findFreeSize n => exact (rdOnly_findFreeSizeP _).grows.withRLock.bind fun _ => .ret _
  | getAll =>
    refine Grows.bind (Grows.withRLock ?_) fun _ => .ret _
    refine (rdOnly_get _).grows.bind fun _ => ?_
    exact Grows.bind rdOnly_iterateP.grows.withRLock fun _ => (rdOnly_collectP _ _ _).grows

theorem nodup_le_length {l : List U64} {n : Nat} (hn : l.Nodup) (h : ∀ x ∈ l, x.toNat ≤ n) : l.length ≤ n + 1 := by
  have hsub : List.Subset l ((List.range (n + 1)).map (BitVec.ofNat 64)) := by
    intro x hx
    have := h x hx
    exact List.mem_map.2 ⟨x.toNat, List.mem_range.2 (by omega), by simp⟩
  have := (List.subperm_of_subset hn hsub).length_le
  simpa using this

/-! ## ranged tables -/

section Ranged
open Verif.Ranged
variable {P : Width} {L : Type}

/-- Ids that are looked up one by one, in states one after the other. `none`: one of them is free by then.
Otherwise the entries with labels that `sel` accepts. -/
inductive LookedUp (len : Nat) (sel : L → Bool) : List U64 → List (LMap L) → Option (List (TEntry L)) → Prop
  | done : LookedUp len sel [] [] (some [])
  | gone {i ids s} : s i = none → LookedUp len sel (i :: ids) [s] none
  | take {i ids s ss l o} : s i = some l → sel l = true → LookedUp len sel ids ss o →
      LookedUp len sel (i :: ids) (s :: ss) (o.map (⟨i, len, l⟩ :: ·))
  | skip {i ids s ss l o} : s i = some l → sel l = false → LookedUp len sel ids ss o →
      LookedUp len sel (i :: ids) (s :: ss) o

/-- the claimed ids of a ranged table at a moment -/
def stR (start stop : BitVec P.W) (g : Cfg (RCall L) (Table (TEntry L)) (RReply L)) : LMap L := absR ⟨g.mem, start, stop⟩

/-- the index table below a ranged table is as the sequential calls leave it, at all moments -/
theorem keeps_rprog (hP : Good P) (start stop : BitVec P.W) (c : RCall L) :
    Grows (fun t t' => RInv (⟨t, start, stop⟩ : RTable P L) → RInv (⟨t', start, stop⟩ : RTable P L)) (rprog start stop c) := by
  let S : Call (TEntry L) → Prop := fun
    | .claim i e => i.toNat ≤ stop.toNat - start.toNat ∧ e.id = i
    | .update i e => i.toNat ≤ stop.toNat - start.toNat ∧ e.id = i
    | c => Direct c
  have hS : ∀ c, S c → Grows (fun t t' => RInv (⟨t, start, stop⟩ : RTable P L) → RInv (⟨t', start, stop⟩ : RTable P L))
      (codeOf c) := by
    intro c hc
    refine keeps_codeOf c ?_ ?_ ?_
    · cases c <;> first | exact hc | trivial
    · rintro i d hcd t ht
      have hc' : i.toNat ≤ stop.toNat - start.toNat ∧ d.id = i := by
        rcases hcd with rfl | rfl <;> exact hc
      exact ht.set i hc'.1 d hc'.2
    · rintro i rfl t ht
      refine ⟨ht.le, ht.size, ?_⟩
      intro j e he
      simp only [GoMap.get?_del] at he
      split at he
      · cases he
      · exact ht.ents j e he
  have hv : ∀ {id : U64} {u : Unit} (l : L), validateID (new start stop : RTable P L) id = .ok u →
      (calculateIndex (id.setWidth P.W) start).toNat ≤ stop.toNat - start.toNat ∧
      (storedEntry P (calculateIndex (id.setWidth P.W) start) l).id = calculateIndex (id.setWidth P.W) start := by
    intro id u l h
    have h1 := (validateID_iff hP (new start stop : RTable P L) id).1 h
    have h2 := idx_lt (r := (new start stop : RTable P L)) hP h1
    exact ⟨h2, congrArg TEntry.id (storedEntry_id hP (new start stop : RTable P L) _ h2 l)⟩
  have hclaim : ∀ id l (k : Bool → RClient L), (∀ b, (k b).Uses S True) →
      (rclaimC (new start stop : RTable P L) id l k).Uses S True := by
    intro id l k hk
    unfold rclaimC
    split
    · exact hk _
    · next u h =>
      refine .call trivial fun r => ?_
      split
      · refine .call (hv l h) fun r => ?_
        split <;> exact hk _
      · exact hk _
  have hfind : ∀ k : Option U64 → RClient L, (∀ b, (k b).Uses S True) →
      (rfindFreeC (new start stop : RTable P L) k).Uses S True := fun k hk => uses_rfindFreeC _ trivial hk
  refine Client.Uses.grows (S := S) (pk := True) hS ?_
  cases c with
  | claim id l =>
    simp only [rcode]
    exact hclaim id l _ fun _ => .ret _
  | claimFree l =>
    simp only [rcode]
    refine hfind _ ?_
    rintro (_ | id)
    · exact .ret _
    · exact hclaim id l _ fun _ => .ret _
  | findFree =>
    simp only [rcode]
    refine hfind _ ?_
    rintro (_ | id) <;> exact .ret _
  | update id l =>
    simp only [rcode]
    split
    · exact .ret _
    · next u h =>
      refine .call (hv l h) fun r => ?_
      split <;> exact .ret _
  | get id | release id | has id | isFree id =>
    simp only [rcode]
    split
    · exact .ret _
    · refine .call trivial fun r => ?_
      split <;> exact .ret _
  | size =>
    refine .call trivial fun r => ?_
    split <;> exact .ret _
  | getAll =>
    refine .call trivial fun _ => .call trivial fun r => ?_
    split <;> exact .ret _
  | getByLabel sel =>
    refine .call trivial fun _ => .call trivial fun r => ?_
    split
    · exact uses_rbyLabelC _ sel trivial _ _
    · exact .ret _

/-- the reads of the loop of `GetByLabel` -/
theorem saw_rbyLabelC (hP : Good P) {start stop : BitVec P.W} (sel : L → Bool) : ∀ (ks : List U64) (acc : List (TEntry L))
    (l : List (Table (TEntry L))) (y : RReply L),
    (∀ k ∈ ks, k.toNat ≤ stop.toNat - start.toNat) → (∀ t ∈ l, RInv (⟨t, start, stop⟩ : RTable P L)) →
    ((rbyLabelC (new start stop : RTable P L) sel ks acc).compile codeOf).Saw l (.ret y) →
    ∃ o, LookedUp P.outLen sel (ks.map (ext (new start stop : RTable P L))) (l.map fun t => absR (⟨t, start, stop⟩ : RTable P L)) o ∧
      y = replyEntries (o.map (acc ++ ·))
  | [], acc, l, y, _, _, h => by
    obtain ⟨rfl, rfl⟩ := saw_ret h
    exact ⟨some [], .done, by simp [replyEntries]⟩
  | k :: ks, acc, l, y, hk, hl, h => by
    unfold rbyLabelC at h
    obtain ⟨t, l, rfl, h'⟩ := saw_read h
    clear h
    simp only at h'
    have ht := hl t (List.mem_cons_self ..)
    have hk' := hk k (List.mem_cons_self ..)
    have hab : absR (⟨t, start, stop⟩ : RTable P L) (ext (new start stop : RTable P L) k) =
        (t.m.get? k).map fun e => e.data.labels := by
      have h1 := absR_in (ext_in (r := (⟨t, start, stop⟩ : RTable P L)) hP ht.le hk')
      rw [idx_ext hP ht.le hk'] at h1
      exact h1
    cases hg : t.m.get? k with
    | none =>
      rw [hg] at h' hab
      obtain ⟨rfl, rfl⟩ := saw_ret h'
      exact ⟨none, .gone hab, rfl⟩
    | some e =>
      rw [hg] at h' hab
      have he := (ht.ents k e hg).2.2
      have rec' := fun acc y h => saw_rbyLabelC hP (start := start) (stop := stop) sel ks acc l y
        (fun k hk' => hk k (List.mem_cons_of_mem _ hk')) (fun t ht => hl t (List.mem_cons_of_mem _ ht)) h
      by_cases hs : sel e.data.labels = true
      · simp only [if_pos hs] at h'
        obtain ⟨o, h1, h2⟩ := rec' _ _ h'
        rw [he, outEntry_eq hP] at h2
        refine ⟨_, .take hab hs h1, ?_⟩
        rw [h2]
        cases o <;> simp
      · simp only [if_neg hs] at h'
        obtain ⟨o, h1, h2⟩ := rec' _ _ h'
        exact ⟨_, .skip hab (by simpa using hs) h1, h2⟩

/-- the keys of a ranged table are the claimed ids -/
theorem keysR (hP : Good P) {r : RTable P L} (h : RInv r) :
    Ascending ((sortKeys r.tab.m.keys).map (ext r)) ∧ (∀ i, i ∈ (sortKeys r.tab.m.keys).map (ext r) ↔ absR r i ≠ none) ∧
    (∀ k ∈ sortKeys r.tab.m.keys, k.toNat ≤ r.stop.toNat - r.start.toNat) := by
  have hk : ∀ k ∈ sortKeys r.tab.m.keys, k.toNat ≤ r.stop.toNat - r.start.toNat ∧ (r.tab.m.get? k).isSome := by
    intro k hk
    rw [(IdxTable.sortKeys_perm _).mem_iff, ← GoMap.get?_isSome_iff] at hk
    obtain ⟨e, he⟩ := Option.isSome_iff_exists.1 hk
    exact ⟨(h.ents k e he).2.1, hk⟩
  refine ⟨?_, ?_, fun k h => (hk k h).1⟩
  · unfold Ascending
    rw [List.pairwise_map]
    refine (IdxTable.sortKeys_pairwise_lt _ r.tab.m.keys_nodup).imp_of_mem ?_
    intro a b ha hb hab
    rw [BitVec.lt_def] at hab ⊢
    rw [ext_toNat' hP h.le (hk a ha).1, ext_toNat' hP h.le (hk b hb).1]
    omega
  · intro i
    rw [List.mem_map]
    constructor
    · rintro ⟨k, hk', rfl⟩
      obtain ⟨h1, h2⟩ := hk k hk'
      rw [absR_in (ext_in hP h.le h1), idx_ext hP h.le h1]
      obtain ⟨e, he⟩ := Option.isSome_iff_exists.1 h2
      simp [he]
    · intro hn
      have hin : Ranged.InR r.start.toNat r.stop.toNat i := by
        apply Classical.byContradiction
        intro hin; exact hn (absR_out hin)
      rw [absR_in hin] at hn
      refine ⟨idx r i, ?_, ext_idx hP hin⟩
      rw [(IdxTable.sortKeys_perm _).mem_iff, ← GoMap.get?_isSome_iff]
      cases hg : r.tab.m.get? (idx r i) with
      | none => rw [hg] at hn; exact absurd rfl hn
      | some e => rfl

/-- some id of the range is free -/
def SomeFree (start stop : BitVec P.W) (s : LMap L) : Prop := ∃ i, Ranged.InR start.toNat stop.toNat i ∧ s i = none

theorem nodup_lt_of_not_mem {l : List U64} (hd : l.Nodup) {k : U64} (hk : k ∉ l) : l.length < 2 ^ 64 := by
  have := nodup_le_length (l := k :: l) (n := 2 ^ 64 - 1) (List.nodup_cons.2 ⟨hk, hd⟩) (fun i _ => by have := i.isLt; omega)
  simp only [List.length_cons] at this
  omega

theorem keysR_drain {r : RTable P L} (h : RInv r)
    (hs : r.stop.toNat - r.start.toNat + 1 < 2 ^ 64 ∨ SomeFree r.start r.stop (absR r)) :
    Iter.drain ⟨-1, sortKeys r.tab.m.keys⟩ = sortKeys r.tab.m.keys := by
  refine IdxTable.drain_at _ ?_
  rw [(IdxTable.sortKeys_perm _).length_eq]
  rcases hs with hs | ⟨i, hi, hn⟩
  swap
  · refine nodup_lt_of_not_mem r.tab.m.keys_nodup (k := idx r i) fun hm => ?_
    rw [absR_in hi] at hn
    rw [← GoMap.get?_isSome_iff] at hm
    cases hg : r.tab.m.get? (idx r i) with
    | none => rw [hg] at hm; cases hm
    | some e => rw [hg] at hn; cases hn
  have := nodup_le_length (n := r.stop.toNat - r.start.toNat) r.tab.m.keys_nodup (fun k hk => by
    rw [← GoMap.get?_isSome_iff] at hk
    obtain ⟨e, he⟩ := Option.isSome_iff_exists.1 hk
    exact (h.ents k e he).2.1)
  omega

/-- C94 for the ranged tables: `GetByLabel` takes the ids that are claimed at one moment, in ascending order, and
then looks each of them up at a later moment. It returns those with selected labels, and panics as soon as one
of them is free. All moments are during the call. (If the range has `2^64` ids, one of them must be free.) -/
theorem C94_ranged (hP : IsPkg P) {start stop : BitVec P.W} (hle : start ≤ stop)
    {g : Cfg (RCall L) (Table (TEntry L)) (RReply L)} {H}
    (h : Exec (rprog start stop) (new start stop : RTable P L).tab g H) {n : Nat} {sel : L → Bool} {y : RReply L}
    (hs : stop.toNat - start.toNat + 1 < 2 ^ 64 ∨
      ∀ g', During (rprog start stop) (new start stop : RTable P L).tab H n g' → SomeFree start stop (stR start stop g'))
    (hi : Ev.inv n (.getByLabel sel) ∈ H) (hr : Ev.ret n y ∈ H) :
    ∃ g₀ gs ids o, Moments (rprog start stop) (new start stop : RTable P L).tab H n (g₀ :: gs) ∧
      Ascending ids ∧ (∀ i, i ∈ ids ↔ stR start stop g₀ i ≠ none) ∧
      LookedUp (max P.W 32) sel ids (gs.map (stR start stop)) o ∧
      y = match o with | none => .panic | some es => .entries es := by
  have hlen := hP.outLen
  have hP := hP.good
  obtain ⟨gs, hm, hsaw⟩ := (exec_saw h).2 n _ _ hi hr
  have hinv : ∀ g' ∈ gs, RInv (⟨g'.mem, start, stop⟩ : RTable P L) := by
    intro g' hg
    obtain ⟨H₁, h1, _⟩ := hm.1 g' hg
    exact exec_keeps (J := fun t => RInv (⟨t, start, stop⟩ : RTable P L)) (keeps_rprog hP start stop)
      (new_inv hP start stop hle) h1
  obtain ⟨l₁, l₂, _, e1, _, hsaw⟩ := saw_bind hsaw
  obtain ⟨l₃, l₄, z, rfl, h3, hsaw⟩ := saw_bind hsaw
  obtain ⟨t, rfl, rfl⟩ := saw_iterate h3
  obtain ⟨gs₁, gs₂, rfl, rfl, e2⟩ := List.map_eq_append_iff.1 e1
  obtain ⟨g₀, gs, rfl, rfl, rfl⟩ := List.map_eq_cons_iff.1 e2
  have h0 := hinv g₀ (by simp)
  have hd := keysR_drain h0 (hs.imp id fun hs => hs g₀ (hm.1 g₀ (by simp)))
  simp only at hd
  rw [hd] at hsaw
  obtain ⟨k1, k2, k3⟩ := keysR hP h0
  obtain ⟨o, h5, h6⟩ := saw_rbyLabelC hP sel _ _ _ _ k3 (by
    intro t ht
    obtain ⟨g', hg, rfl⟩ := List.mem_map.1 ht
    exact hinv g' (by simp [hg])) hsaw
  refine ⟨g₀, gs, _, o, ⟨fun g' hg => hm.1 g' (List.mem_append_right _ hg), (List.pairwise_append.1 hm.2).2.1⟩, k1, k2, ?_, ?_⟩
  · rw [List.map_map, hlen] at h5
    exact h5
  · rw [h6]
    cases o <;> simp [replyEntries]

theorem LookedUp.sound {len : Nat} {sel : L → Bool} {ids : List U64} {ss : List (LMap L)} {o : Option (List (TEntry L))}
    (h : LookedUp len sel ids ss o) : ∀ es, o = some es → ∀ e ∈ es, e.len = len ∧ sel e.labels = true ∧ e.id ∈ ids ∧
      ∃ s ∈ ss, s e.id = some e.labels := by
  induction h with
  | done => rintro es ⟨⟩; simp
  | gone _ => rintro es ⟨⟩
  | @take i ids s ss l o h1 h2 _ ih =>
    intro es he e hm
    obtain ⟨es', rfl, rfl⟩ := Option.map_eq_some_iff.1 he
    rcases List.mem_cons.1 hm with rfl | hm
    · exact ⟨rfl, h2, List.mem_cons_self .., s, List.mem_cons_self .., h1⟩
    · obtain ⟨a, b, c, s', d, e⟩ := ih _ rfl e hm
      exact ⟨a, b, List.mem_cons_of_mem _ c, s', List.mem_cons_of_mem _ d, e⟩
  | skip _ _ _ ih =>
    intro es he e hm
    obtain ⟨a, b, c, s', d, e⟩ := ih _ he e hm
    exact ⟨a, b, List.mem_cons_of_mem _ c, s', List.mem_cons_of_mem _ d, e⟩

theorem LookedUp.complete {len : Nat} {sel : L → Bool} {ids : List U64} {ss : List (LMap L)} {o : Option (List (TEntry L))}
    (h : LookedUp len sel ids ss o) {i : U64} (hi : i ∈ ids) {l : L} (hsel : sel l = true)
    (hs : ∀ s ∈ ss, s i = some l) : ∀ es, o = some es → ⟨i, len, l⟩ ∈ es := by
  induction h with
  | done => cases hi
  | gone _ => rintro es ⟨⟩
  | @take j ids s ss l' o h1 h2 _ ih =>
    intro es he
    obtain ⟨es', rfl, rfl⟩ := Option.map_eq_some_iff.1 he
    rcases List.mem_cons.1 hi with rfl | hi
    · have := hs s (List.mem_cons_self ..)
      rw [h1] at this
      cases this
      exact List.mem_cons_self ..
    · exact List.mem_cons_of_mem _ (ih hi (fun s hm => hs s (List.mem_cons_of_mem _ hm)) _ rfl)
  | @skip j ids s ss l' o h1 h2 _ ih =>
    intro es he
    rcases List.mem_cons.1 hi with rfl | hi
    · have := hs s (List.mem_cons_self ..)
      rw [h1] at this
      cases this
      rw [hsel] at h2
      cases h2
    · exact ih hi (fun s hm => hs s (List.mem_cons_of_mem _ hm)) _ he

theorem LookedUp.ids {len : Nat} {sel : L → Bool} {ids : List U64} {ss : List (LMap L)} {o : Option (List (TEntry L))}
    (h : LookedUp len sel ids ss o) : ∀ es, o = some es → (es.map TEntry.id).Sublist ids := by
  induction h with
  | done => rintro es ⟨⟩; simp
  | gone _ => rintro es ⟨⟩
  | take _ _ _ ih =>
    intro es he
    obtain ⟨es', rfl, rfl⟩ := Option.map_eq_some_iff.1 he
    exact (ih _ rfl).cons_cons _
  | skip _ _ _ ih => intro es he; exact (ih _ he).cons _

/-- C94 for the ranged tables, in terms of the entries: they are in ascending order, each of them was in the table with
these labels during the call, and the labels are selected. -/
theorem C94_ranged_sound (hP : IsPkg P) {start stop : BitVec P.W} (hle : start ≤ stop)
    {g : Cfg (RCall L) (Table (TEntry L)) (RReply L)} {H}
    (h : Exec (rprog start stop) (new start stop : RTable P L).tab g H) {n : Nat} {sel : L → Bool} {es : List (TEntry L)}
    (hs : stop.toNat - start.toNat + 1 < 2 ^ 64 ∨
      ∀ g', During (rprog start stop) (new start stop : RTable P L).tab H n g' → SomeFree start stop (stR start stop g'))
    (hi : Ev.inv n (.getByLabel sel) ∈ H) (hr : Ev.ret n (.entries es) ∈ H) :
    Ascending (es.map TEntry.id) ∧ ∀ e ∈ es, e.len = max P.W 32 ∧ sel e.labels = true ∧
      ∃ g', During (rprog start stop) (new start stop : RTable P L).tab H n g' ∧ stR start stop g' e.id = some e.labels := by
  obtain ⟨g₀, gs, ids, o, hm, h1, h2, h3, h4⟩ := C94_ranged hP hle h hs hi hr
  cases o with
  | none => cases h4
  | some es' =>
    cases h4
    refine ⟨h1.sublist (h3.ids _ rfl), fun e he => ?_⟩
    obtain ⟨a, b, _, s, d, f⟩ := h3.sound _ rfl e he
    obtain ⟨g', hg, rfl⟩ := List.mem_map.1 d
    exact ⟨a, b, g', hm.1 g' (List.mem_cons_of_mem _ hg), f⟩

/-- C94 for the ranged tables, the other direction: an id that is in the table with the same selected labels throughout
the call is listed. -/
theorem C94_ranged_complete (hP : IsPkg P) {start stop : BitVec P.W} (hle : start ≤ stop)
    {g : Cfg (RCall L) (Table (TEntry L)) (RReply L)} {H}
    (h : Exec (rprog start stop) (new start stop : RTable P L).tab g H) {n : Nat} {sel : L → Bool} {es : List (TEntry L)}
    (hs : stop.toNat - start.toNat + 1 < 2 ^ 64 ∨
      ∀ g', During (rprog start stop) (new start stop : RTable P L).tab H n g' → SomeFree start stop (stR start stop g'))
    (hi : Ev.inv n (.getByLabel sel) ∈ H) (hr : Ev.ret n (.entries es) ∈ H) {i : U64} {l : L} (hl : sel l = true)
    (hall : ∀ g', During (rprog start stop) (new start stop : RTable P L).tab H n g' → stR start stop g' i = some l) :
    ⟨i, max P.W 32, l⟩ ∈ es := by
  obtain ⟨g₀, gs, ids, o, hm, h1, h2, h3, h4⟩ := C94_ranged hP hle h hs hi hr
  cases o with
  | none => cases h4
  | some es' =>
    cases h4
    refine h3.complete ((h2 i).2 ?_) hl ?_ _ rfl
    · rw [hall g₀ (hm.1 g₀ (List.mem_cons_self ..))]; simp
    · intro s hs
      obtain ⟨g', hg, rfl⟩ := List.mem_map.1 hs
      exact hall g' (hm.1 g' (List.mem_cons_of_mem _ hg))

/-- an execution that meets the hypotheses: id 12 gets other labels after `GetByLabel` has listed it -/
example : ∃ g, Exec (rprog (P := w16) 10 20) exR.tab g
    [.inv 0 (.getByLabel fun _ => true), .inv 1 (.claim 12 "a"), .ret 1 .ok,
      .inv 2 (.update 12 "b"), .ret 2 .ok, .ret 0 (.entries [⟨12, 32, "b"⟩])] :=
  ⟨_, follow_sound (l := [.start (.update 12 "b"), .go 2, .go 2, .go 2, .go 2, .go 2, .go 2, .go 2, .go 0, .go 0]) ex_byLabel rfl⟩

/-- ids 10 and 12 looked up in three states -/
example : LookedUp 16 (fun l => l == "a") [10, 12, 13] [fun _ => some "b", fun _ => some "a", fun _ => some "a"]
    (some [⟨12, 16, "a"⟩, ⟨13, 16, "a"⟩]) :=
  .skip (l := "b") rfl rfl (.take (o := some [⟨13, 16, "a"⟩]) rfl rfl (.take (l := "a") (o := some []) rfl rfl .done))

end Ranged

/-! ## IP table -/

section IP
open Verif.IPTable
variable {R : Type} {parse : String → Option Addr} {lo hi : Addr}

/-- Addresses (or slots) that are looked up one by one, in states one after the other. `none`: one of them is free by then.
Otherwise the routes; the route of a selected address is looked up again. -/
inductive LookedUpIP {K : Type} (sel : R → Bool) : List K → List (K → Option R) → Option (List R) → Prop
  | done : LookedUpIP sel [] [] (some [])
  | gone {a as s} : s a = none → LookedUpIP sel (a :: as) [s] none
  | gone' {a as s s' d} : s a = some d → sel d = true → s' a = none → LookedUpIP sel (a :: as) [s, s'] none
  | take {a as s s' ss d d' o} : s a = some d → sel d = true → s' a = some d' → LookedUpIP sel as ss o →
      LookedUpIP sel (a :: as) (s :: s' :: ss) (o.map (d' :: ·))
  | skip {a as s ss d o} : s a = some d → sel d = false → LookedUpIP sel as ss o →
      LookedUpIP sel (a :: as) (s :: ss) o

/-- the claimed addresses of an IP table at a moment -/
def stI (lo hi : Addr) (g : Cfg (ICall R) (Table R) (IReply R)) : AMap R := absI ⟨g.mem, ipRangeFrom lo hi⟩

/-- the index table below an IP table is as the sequential calls leave it, at all moments -/
theorem keeps_iprog (hm : MidRange lo hi) (c : ICall R) :
    Grows (fun t t' => IInv lo hi (⟨t, ipRangeFrom lo hi⟩ : IPTab R) → IInv lo hi (⟨t', ipRangeFrom lo hi⟩ : IPTab R))
      (iprog parse lo hi c) := by
  let S : Call R → Prop := fun
    | .claim i _ => i.toNat ≤ num hi - num lo
    | .update i _ => i.toNat ≤ num hi - num lo
    | c => Direct c
  have hS : ∀ c, S c → Grows (fun t t' => IInv lo hi (⟨t, ipRangeFrom lo hi⟩ : IPTab R) →
      IInv lo hi (⟨t', ipRangeFrom lo hi⟩ : IPTab R)) (codeOf c) := by
    intro c hc
    refine keeps_codeOf c ?_ ?_ ?_
    · cases c <;> first | exact hc | trivial
    · rintro i d hcd t ht
      have hc' : i.toNat ≤ num hi - num lo := by
        rcases hcd with rfl | rfl <;> exact hc
      have h1 := (abs_set ht (num_extA hm hc').2 d).2
      rw [idxA_extA hm hc'] at h1
      exact h1
    · rintro i rfl t ht
      refine ⟨ht.small, ht.rng, ht.size, ?_⟩
      intro j e he
      simp only [GoMap.get?_del] at he
      split at he
      · cases he
      · exact ht.ents j e he
  have hv : ∀ {x : String} {a : Addr}, validateIP parse (new lo hi : IPTab R) x = .ok a →
      (calculateIndex a (new lo hi : IPTab R).ipRange.lo).toNat ≤ num hi - num lo := by
    intro x a h
    have hin : InIP lo hi a := by
      unfold validateIP at h
      split at h
      · cases h
      · next b hb =>
        split at h
        · next hc => cases h; exact (contains_iff lo hi _).1 hc
        · cases h
    have := idxA_toNat hm hin
    show (idxA lo a).toNat ≤ _
    have h1 := hin
    unfold InIP at h1
    omega
  refine Client.Uses.grows (S := S) (pk := True) hS ?_
  cases c with
  | get id | release id | has id | isFree id =>
    simp only [icode]
    split
    · exact .ret _
    · refine .call trivial fun r => ?_
      split <;> exact .ret _
  | claim id d | update id d =>
    simp only [icode]
    split
    · exact .ret _
    · next h =>
      refine .call trivial fun r => ?_
      split
      · refine .call (hv h) fun r => ?_
        split <;> exact .ret _
      · exact .ret _
  | size =>
    refine .call trivial fun r => ?_
    split <;> exact .ret _
  | findFree =>
    refine .call trivial fun r => ?_
    split
    · split <;> exact .ret _
    · exact .ret _
  | getAll =>
    refine .call trivial fun r => ?_
    split <;> exact .ret _
  | getByLabel sel =>
    refine .call trivial fun r => ?_
    split
    · exact uses_ibyLabelC sel trivial _ _
    · exact .ret _

theorem saw_ibyLabelC (sel : R → Bool) : ∀ (ks : List U64) (acc : List R) (l : List (Table R)) (y : IReply R),
    (∀ k ∈ ks, k.toNat ≤ num hi - num lo) → (∀ t ∈ l, IInv lo hi (⟨t, ipRangeFrom lo hi⟩ : IPTab R)) →
    ((ibyLabelC sel ks acc).compile codeOf).Saw l (.ret y) →
    ∃ o, LookedUpIP sel (ks.map (extA lo)) (l.map fun t => absI (⟨t, ipRangeFrom lo hi⟩ : IPTab R)) o ∧
      y = replyRoutes (o.map (acc ++ ·))
  | [], acc, l, y, _, _, h => by
    obtain ⟨rfl, rfl⟩ := saw_ret h
    exact ⟨some [], .done, by simp [replyRoutes]⟩
  | k :: ks, acc, l, y, hk, hl, h => by
    unfold ibyLabelC at h
    obtain ⟨t, l, rfl, h'⟩ := saw_read h
    clear h
    simp only at h'
    have ht := hl t (List.mem_cons_self ..)
    have hk' := hk k (List.mem_cons_self ..)
    have hab : ∀ t, IInv lo hi (⟨t, ipRangeFrom lo hi⟩ : IPTab R) →
        absI (⟨t, ipRangeFrom lo hi⟩ : IPTab R) (extA lo k) = (t.m.get? k).map Entry.data := by
      intro t ht
      have h1 := ht.abs_in (num_extA ht.small hk').2
      rw [idxA_extA ht.small hk'] at h1
      exact h1
    have h1 := hab t ht
    cases hg : t.m.get? k with
    | none =>
      rw [hg] at h' h1
      obtain ⟨rfl, rfl⟩ := saw_ret h'
      exact ⟨none, .gone h1, rfl⟩
    | some e =>
      rw [hg] at h' h1
      by_cases hs : sel e.data = true
      · simp only [if_pos hs] at h'
        obtain ⟨t', l, rfl, h⟩ := saw_read h'
        clear h'
        simp only at h
        have h2 := hab t' (hl t' (by simp))
        cases hg' : t'.m.get? k with
        | none =>
          rw [hg'] at h h2
          obtain ⟨rfl, rfl⟩ := saw_ret h
          exact ⟨none, .gone' h1 hs h2, rfl⟩
        | some e' =>
          rw [hg'] at h h2
          obtain ⟨o, h3, h4⟩ := saw_ibyLabelC sel ks _ l y
            (fun k hk' => hk k (List.mem_cons_of_mem _ hk')) (fun t ht => hl t (by simp [ht])) h
          refine ⟨_, .take h1 hs h2 h3, ?_⟩
          rw [h4]
          cases o <;> simp
      · simp only [if_neg hs] at h'
        obtain ⟨o, h3, h4⟩ := saw_ibyLabelC sel ks _ l y
          (fun k hk' => hk k (List.mem_cons_of_mem _ hk')) (fun t ht => hl t (by simp [ht])) h'
        exact ⟨_, .skip h1 (by simpa using hs) h3, h4⟩

/-- C94 for the IP table, part that holds: `GetByLabel` takes the addresses that are claimed at one moment, in
ascending order, and then looks each of them up at a later moment, and once more if its labels are selected. It
returns what the second look finds, and panics as soon as an address is found free. Missing: that what it returns
is selected, which is false. -/
theorem C94_ip_partial (hs : SmallRange lo hi) {g : Cfg (ICall R) (Table R) (IReply R)} {H}
    (h : Exec (iprog parse lo hi) (new lo hi : IPTab R).tab g H) {n : Nat} {sel : R → Bool} {y : IReply R}
    (hin : Ev.inv n (.getByLabel sel) ∈ H) (hr : Ev.ret n y ∈ H) :
    ∃ g₀ gs as o, Moments (iprog parse lo hi) (new lo hi : IPTab R).tab H n (g₀ :: gs) ∧
      ListsIP (stI lo hi g₀) as ∧ LookedUpIP sel as (gs.map (stI lo hi)) o ∧
      y = match o with | none => .panic | some rs => .routes rs := by
  obtain ⟨hmid, hnf⟩ := mid_of_small hs
  obtain ⟨gs, hm, hsaw⟩ := (exec_saw h).2 n _ _ hin hr
  have hinv : ∀ g' ∈ gs, IInv lo hi (⟨g'.mem, ipRangeFrom lo hi⟩ : IPTab R) := by
    intro g' hg
    obtain ⟨H₁, h1, _⟩ := hm.1 g' hg
    exact exec_keeps (J := fun t => IInv lo hi (⟨t, ipRangeFrom lo hi⟩ : IPTab R)) (keeps_iprog hmid) (new_inv hmid) h1
  obtain ⟨l₁, l₂, z, e1, h3, hsaw'⟩ := saw_bind hsaw
  obtain ⟨t, rfl, rfl⟩ := saw_iterate h3
  obtain ⟨gs₁, gs₂, rfl, e2, rfl⟩ := List.map_eq_append_iff.1 e1
  obtain ⟨g₀, gs, rfl, rfl, e3⟩ := List.map_eq_cons_iff.1 e2
  obtain rfl := List.map_eq_nil_iff.1 e3
  have h0 := hinv g₀ (by simp)
  have hd : Iter.drain ⟨-1, sortKeys g₀.mem.m.keys⟩ = sortKeys g₀.mem.m.keys := by
    refine IdxTable.drain_at _ ?_
    rw [(IdxTable.sortKeys_perm _).length_eq]
    exact (h0.inv hnf).keys_length_lt
  simp only at hsaw'
  rw [hd] at hsaw'
  obtain ⟨o, h5, h6⟩ := saw_ibyLabelC (lo := lo) (hi := hi) sel _ _ _ _ (fun k hk => (key_le h0 hk).1) (by
    intro t ht
    obtain ⟨g', hg, rfl⟩ := List.mem_map.1 ht
    exact hinv g' (by simp [hg])) hsaw'
  refine ⟨g₀, gs₂, _, o, hm, lists_addrs h0, ?_, ?_⟩
  · rw [List.map_map] at h5
    exact h5
  · rw [h6]
    cases o <;> simp [replyRoutes]

theorem LookedUpIP.sound {K : Type} {sel : R → Bool} {as : List K} {ss : List (K → Option R)} {o : Option (List R)}
    (h : LookedUpIP sel as ss o) : ∀ rs, o = some rs → ∀ d ∈ rs, ∃ a, ∃ s ∈ ss, s a = some d := by
  induction h with
  | done => rintro es ⟨⟩; simp
  | gone _ => rintro es ⟨⟩
  | gone' _ _ _ => rintro es ⟨⟩
  | @take a as s s' ss d d' o h1 h2 h3 _ ih =>
    intro es he e hm
    obtain ⟨es', rfl, rfl⟩ := Option.map_eq_some_iff.1 he
    rcases List.mem_cons.1 hm with rfl | hm
    · exact ⟨a, s', by simp, h3⟩
    · obtain ⟨a, s', d, e⟩ := ih _ rfl e hm
      exact ⟨a, s', by simp [d], e⟩
  | skip _ _ _ ih =>
    intro es he e hm
    obtain ⟨a, s', d, e⟩ := ih _ he e hm
    exact ⟨a, s', by simp [d], e⟩

theorem LookedUpIP.complete {K : Type} {sel : R → Bool} {as : List K} {ss : List (K → Option R)} {o : Option (List R)}
    (h : LookedUpIP sel as ss o) {a : K} (ha : a ∈ as) {d : R} (hsel : sel d = true)
    (hs : ∀ s ∈ ss, s a = some d) : ∀ rs, o = some rs → d ∈ rs := by
  induction h with
  | done => cases ha
  | gone _ => rintro es ⟨⟩
  | gone' _ _ _ => rintro es ⟨⟩
  | @take b as s s' ss d1 d2 o h1 h2 h3 _ ih =>
    intro es he
    obtain ⟨es', rfl, rfl⟩ := Option.map_eq_some_iff.1 he
    rcases List.mem_cons.1 ha with rfl | ha
    · have := hs s' (by simp)
      rw [h3] at this
      cases this
      exact List.mem_cons_self ..
    · exact List.mem_cons_of_mem _ (ih ha (fun s hm => hs s (by simp [hm])) _ rfl)
  | @skip b as s ss d1 o h1 h2 _ ih =>
    intro es he
    rcases List.mem_cons.1 ha with rfl | ha
    · have := hs s (List.mem_cons_self ..)
      rw [h1] at this
      cases this
      rw [hsel] at h2
      cases h2
    · exact ih ha (fun s hm => hs s (by simp [hm])) _ he

/-- C94 for the IP table, in terms of the routes, part that holds: each of them was in the table during the call.
Missing: that it is selected, which is false. -/
theorem C94_ip_sound_partial (hs : SmallRange lo hi) {g : Cfg (ICall R) (Table R) (IReply R)} {H}
    (h : Exec (iprog parse lo hi) (new lo hi : IPTab R).tab g H) {n : Nat} {sel : R → Bool} {rs : List R}
    (hin : Ev.inv n (.getByLabel sel) ∈ H) (hr : Ev.ret n (.routes rs) ∈ H) :
    ∀ d ∈ rs, ∃ a g', During (iprog parse lo hi) (new lo hi : IPTab R).tab H n g' ∧ stI lo hi g' a = some d := by
  obtain ⟨g₀, gs, as, o, hm, h1, h3, h4⟩ := C94_ip_partial hs h hin hr
  cases o with
  | none => cases h4
  | some rs' =>
    cases h4
    intro d hd
    obtain ⟨a, s, hs, h5⟩ := h3.sound _ rfl d hd
    obtain ⟨g', hg, rfl⟩ := List.mem_map.1 hs
    exact ⟨a, g', hm.1 g' (List.mem_cons_of_mem _ hg), h5⟩

/-- C94 for the IP table, the other direction: a route that is in the table under the same address throughout the call,
and is selected, is listed. -/
theorem C94_ip_complete (hs : SmallRange lo hi) {g : Cfg (ICall R) (Table R) (IReply R)} {H}
    (h : Exec (iprog parse lo hi) (new lo hi : IPTab R).tab g H) {n : Nat} {sel : R → Bool} {rs : List R}
    (hin : Ev.inv n (.getByLabel sel) ∈ H) (hr : Ev.ret n (.routes rs) ∈ H) {a : Addr} {d : R} (hd : sel d = true)
    (hall : ∀ g', During (iprog parse lo hi) (new lo hi : IPTab R).tab H n g' → stI lo hi g' a = some d) : d ∈ rs := by
  obtain ⟨g₀, gs, as, o, hm, h1, h3, h4⟩ := C94_ip_partial hs h hin hr
  cases o with
  | none => cases h4
  | some rs' =>
    cases h4
    refine h3.complete ((h1.2 a).2 ?_) hd ?_ _ rfl
    · rw [hall g₀ (hm.1 g₀ (List.mem_cons_self ..))]; simp
    · intro s hs
      obtain ⟨g', hg, rfl⟩ := List.mem_map.1 hs
      exact hall g' (hm.1 g' (List.mem_cons_of_mem _ hg))

section Slots
open Verif.IdxTable (PMap absMap Enumerates)

theorem saw_ibyLabelC_raw (sel : R → Bool) : ∀ (ks : List U64) (acc : List R) (l : List (Table R)) (y : IReply R),
    ((ibyLabelC sel ks acc).compile codeOf).Saw l (.ret y) →
    ∃ o, LookedUpIP sel ks (l.map absMap) o ∧ y = replyRoutes (o.map (acc ++ ·))
  | [], acc, l, y, h => by
    obtain ⟨rfl, rfl⟩ := saw_ret h
    exact ⟨some [], .done, by simp [replyRoutes]⟩
  | k :: ks, acc, l, y, h => by
    unfold ibyLabelC at h
    obtain ⟨t, l, rfl, h'⟩ := saw_read h
    clear h
    simp only at h'
    have h1 : absMap t k = (t.m.get? k).map Entry.data := rfl
    cases hg : t.m.get? k with
    | none =>
      rw [hg] at h' h1
      obtain ⟨rfl, rfl⟩ := saw_ret h'
      exact ⟨none, .gone h1, rfl⟩
    | some e =>
      rw [hg] at h' h1
      by_cases hs : sel e.data = true
      · simp only [if_pos hs] at h'
        obtain ⟨t', l, rfl, h⟩ := saw_read h'
        clear h'
        simp only at h
        have h2 : absMap t' k = (t'.m.get? k).map Entry.data := rfl
        cases hg' : t'.m.get? k with
        | none =>
          rw [hg'] at h h2
          obtain ⟨rfl, rfl⟩ := saw_ret h
          exact ⟨none, .gone' h1 hs h2, rfl⟩
        | some e' =>
          rw [hg'] at h h2
          obtain ⟨o, h3, h4⟩ := saw_ibyLabelC_raw sel ks _ l y h
          refine ⟨_, .take h1 hs h2 h3, ?_⟩
          rw [h4]
          cases o <;> simp
      · simp only [if_neg hs] at h'
        obtain ⟨o, h3, h4⟩ := saw_ibyLabelC_raw sel ks _ l y h'
        exact ⟨_, .skip h1 (by simpa using hs) h3, h4⟩

/-- the routes of an IP table at a moment, by slot (the map of `C22_slots_exact_partial`) -/
def stS (g : Cfg (ICall R) (Table R) (IReply R)) : PMap R := absMap g.mem

/-- C94 for the IP table of every range, of any number of addresses, part that holds: `GetByLabel` takes the slots that
are taken at one moment, in ascending order, and then looks each of them up at a later moment, and once more if its labels
are selected. It returns what the second look finds, and panics as soon as a slot is found free. (One of the `2^64` slots
must be free.) Missing: that what it returns is selected, which is false. -/
theorem C94_ip_slots_partial {g : Cfg (ICall R) (Table R) (IReply R)} {H}
    (h : Exec (iprog parse lo hi) (new lo hi : IPTab R).tab g H) {n : Nat} {sel : R → Bool} {y : IReply R}
    (hs : ∀ g', During (iprog parse lo hi) (new lo hi : IPTab R).tab H n g' → ∃ i, stS g' i = none)
    (hin : Ev.inv n (.getByLabel sel) ∈ H) (hr : Ev.ret n y ∈ H) :
    ∃ g₀ gs ids o, Moments (iprog parse lo hi) (new lo hi : IPTab R).tab H n (g₀ :: gs) ∧
      Enumerates ids (fun i => stS g₀ i ≠ none) ∧ LookedUpIP sel ids (gs.map stS) o ∧
      y = match o with | none => .panic | some rs => .routes rs := by
  obtain ⟨gs, hm, hsaw⟩ := (exec_saw h).2 n _ _ hin hr
  obtain ⟨l₁, l₂, z, e1, h3, hsaw'⟩ := saw_bind hsaw
  obtain ⟨t, rfl, rfl⟩ := saw_iterate h3
  obtain ⟨gs₁, gs₂, rfl, e2, rfl⟩ := List.map_eq_append_iff.1 e1
  obtain ⟨g₀, gs, rfl, rfl, e3⟩ := List.map_eq_cons_iff.1 e2
  obtain rfl := List.map_eq_nil_iff.1 e3
  have hd : Iter.drain ⟨-1, sortKeys g₀.mem.m.keys⟩ = sortKeys g₀.mem.m.keys := by
    refine IdxTable.drain_at _ ?_
    rw [(IdxTable.sortKeys_perm _).length_eq]
    obtain ⟨i, hi⟩ := hs g₀ (hm.1 g₀ (by simp))
    refine nodup_lt_of_not_mem g₀.mem.m.keys_nodup (k := i) fun hk => ?_
    rw [← GoMap.get?_isSome_iff] at hk
    unfold stS absMap at hi
    rw [Option.map_eq_none_iff] at hi
    rw [hi] at hk
    cases hk
  simp only at hsaw'
  rw [hd] at hsaw'
  obtain ⟨o, h5, h6⟩ := saw_ibyLabelC_raw sel _ _ _ _ hsaw'
  refine ⟨g₀, gs₂, _, o, hm, IdxTable.enumerates_sortKeys_keys g₀.mem, ?_, ?_⟩
  · rw [List.map_map] at h5
    exact h5
  · rw [h6]
    cases o <;> simp [replyRoutes]

/-- C94 for the IP table of every range, in terms of the routes: each route returned was in the table during the call, and
a route that is in the same slot throughout the call, and is selected, is returned. -/
theorem C94_ip_slots_routes_partial {g : Cfg (ICall R) (Table R) (IReply R)} {H}
    (h : Exec (iprog parse lo hi) (new lo hi : IPTab R).tab g H) {n : Nat} {sel : R → Bool} {rs : List R}
    (hs : ∀ g', During (iprog parse lo hi) (new lo hi : IPTab R).tab H n g' → ∃ i, stS g' i = none)
    (hin : Ev.inv n (.getByLabel sel) ∈ H) (hr : Ev.ret n (.routes rs) ∈ H) :
    (∀ d ∈ rs, ∃ i g', During (iprog parse lo hi) (new lo hi : IPTab R).tab H n g' ∧ stS g' i = some d) ∧
    ∀ i d, sel d = true → (∀ g', During (iprog parse lo hi) (new lo hi : IPTab R).tab H n g' → stS g' i = some d) → d ∈ rs := by
  obtain ⟨g₀, gs, as, o, hm, h1, h3, h4⟩ := C94_ip_slots_partial h hs hin hr
  cases o with
  | none => cases h4
  | some rs' =>
    cases h4
    refine ⟨fun d hd => ?_, fun i d hd hall => ?_⟩
    · obtain ⟨a, s, hs, h5⟩ := h3.sound _ rfl d hd
      obtain ⟨g', hg, rfl⟩ := List.mem_map.1 hs
      exact ⟨a, g', hm.1 g' (List.mem_cons_of_mem _ hg), h5⟩
    · refine h3.complete ((h1.2 i).2 ?_) hd ?_ _ rfl
      · show stS g₀ i ≠ none
        rw [hall g₀ (hm.1 g₀ (List.mem_cons_self ..))]; simp
      · intro s hs
        obtain ⟨g', hg, rfl⟩ := List.mem_map.1 hs
        exact hall g' (hm.1 g' (List.mem_cons_of_mem _ hg))

/-- slots 0 and 7 looked up; the second read of slot 7 finds other labels -/
example : LookedUpIP (fun l => l == "a") [(0 : U64), 7] [fun _ => some "b", fun _ => some "a", fun _ => some "c"] (some ["c"]) :=
  .skip (d := "b") rfl rfl (.take (d := "a") (d' := "c") (o := some []) rfl rfl rfl .done)

end Slots

/-- `GetByLabel` for the label "a" has its iterator, and reads the entries next -/
theorem ex_ibyLabelA : Exec (iprog exParse (.v4 0x0a000000) (.v4 0x0a000003)) exI.tab
    (quiet codeOf ⟨exITab, [(.getByLabel (· == "a"), some (ibyLabelC (· == "a") [1] [])),
      (.claim "10.0.0.1" "a", none)]⟩) [.inv 0 (.getByLabel (· == "a")), .inv 1 (.claim "10.0.0.1" "a"), .ret 1 .ok] := by
  have h0 : AExec (icode exParse exI) IdxTable.step Eq exI.tab ⟨exI.tab, []⟩ [] [] := .init
  have h1 := (h0.doInv (.getByLabel (· == "a"))).doInv (.claim "10.0.0.1" "a")
  have h2 := ((h1.doCall 1 rfl rfl).doCall 1 rfl rfl).doRet 1 rfl
  have h3 := h2.doCall 0 rfl exITab_iterate
  exact realize sections h3

/-- C94 fails for the IP table: `GetByLabel` for the label "a" returns a route with the label "b", which `Update` stored
between the two reads of the value. -/
theorem C94_ip_unselected_violated : ∃ g, Exec (iprog exParse (.v4 0x0a000000) (.v4 0x0a000003)) exI.tab g
    [.inv 0 (.getByLabel (· == "a")), .inv 1 (.claim "10.0.0.1" "a"), .ret 1 .ok,
      .inv 2 (.update "10.0.0.1" "b"), .ret 2 .ok, .ret 0 (.routes ["b"])] :=
  ⟨_, follow_sound (l := [.go 0, .start (.update "10.0.0.1" "b"), .go 2, .go 2, .go 2, .go 2, .go 2, .go 2, .go 2,
    .go 2, .go 2, .go 2, .go 0, .go 0]) ex_ibyLabelA rfl⟩

end IP
end Verif.Conc
