import Verif.Conc.TreeRead
import Verif.Conc.TreeSpec
import Verif.Conc.Lin
import Verif.GTree.Props

/-! Calls in progress on a tree of claimed prefixes, and when they take effect. -/

set_option linter.unusedSectionVars false
namespace Verif.Conc
open Verif.Id Verif.GTree
open Verif.Tree (Out AtMost newTree)

section
variable {κ ρ σ : Type}

theorem mem_of_pair_sublist {A : Type} {a y : A} {l l' : List A} (hn : (l ++ y :: l').Nodup)
    (h : [a, y].Sublist (l ++ y :: l')) : a ∈ l := by
  have hy : y ∉ l' := by
    have := (List.nodup_append.1 hn).2.1
    exact (List.nodup_cons.1 this).1
  rw [List.sublist_append_iff] at h
  obtain ⟨l1, l2, h1, h2, h3⟩ := h
  match l1, l2 with
  | [], l2 =>
    simp only [List.nil_append] at h1
    subst h1
    cases h3 with
    | cons _ h => exact absurd (h.subset (by simp)) hy
    | cons_cons _ h => exact absurd (h.subset (by simp)) hy
  | [u], l2 =>
    simp only [List.cons_append, List.nil_append, List.cons.injEq] at h1
    obtain ⟨rfl, _⟩ := h1
    exact h2.subset (by simp)
  | u :: v :: l1, l2 =>
    simp only [List.cons_append, List.cons.injEq] at h1
    obtain ⟨rfl, _⟩ := h1
    exact h2.subset (by simp)

/-- a call in progress can be put before another one, if the calls that it must follow come earlier -/
theorem Orders.insert {H : List (Ev κ ρ)} {A B : List (Nat × κ × ρ)} {x : Nat × κ × ρ} (h : Orders H (A ++ x :: B)) {n : Nat}
    {c : κ} {r : ρ} (hi : Ev.inv n c ∈ H) (hn : n ∉ (A ++ x :: B).map (·.1)) (hp : ∀ b, ¬ Before H n b)
    (hb : ∀ b, Before H b n → [b, x.1].Sublist ((A ++ x :: B).map (·.1))) : Orders H (A ++ (n, c, r) :: x :: B) := by
  have hsub : (A ++ x :: B).Sublist (A ++ (n, c, r) :: x :: B) :=
    List.Sublist.append (List.Sublist.refl _) (.cons _ (List.Sublist.refl _))
  refine ⟨?_, ?_, ?_, ?_⟩
  · have hperm : (A ++ (n, c, r) :: x :: B).Perm ((n, c, r) :: (A ++ x :: B)) := List.perm_middle
    rw [(hperm.map (·.1)).nodup_iff, List.map_cons, List.nodup_cons]
    exact ⟨hn, h.nodup⟩
  · intro y hy
    rcases List.mem_append.1 hy with hy | hy
    · exact h.inv y (List.mem_append_left _ hy)
    · rcases List.mem_cons.1 hy with rfl | hy
      · exact hi
      · exact h.inv y (List.mem_append_right _ hy)
  · intro i r' hr
    obtain ⟨c', hc'⟩ := h.ret i r' hr
    exact ⟨c', hsub.subset hc'⟩
  · intro a b hab hm
    by_cases hbn : b = n
    · subst hbn
      have h1 := hb a hab
      rw [List.map_append, List.map_cons] at h1
      have hnd := h.nodup
      rw [List.map_append, List.map_cons] at hnd
      have h2 := mem_of_pair_sublist hnd h1
      rw [List.map_append, List.map_cons]
      exact List.Sublist.append (l₁ := [a]) (l₂ := A.map (·.1)) (r₁ := [b]) (List.singleton_sublist.2 h2)
        (List.singleton_sublist.2 (List.mem_cons_self ..))
    · refine (h.order a b hab ?_).trans (hsub.map _)
      rw [List.map_append, List.map_cons, List.mem_append] at hm
      rw [List.map_append, List.mem_append]
      rcases hm with hm | hm
      · exact .inl hm
      · rcases List.mem_cons.1 hm with hm | hm
        · exact absurd hm hbn
        · exact .inr hm

theorem SRuns.split {St : σ → κ → σ → ρ → Prop} : ∀ (Q : List (Nat × κ × ρ)) {m m'' : σ} {Q' : List (Nat × κ × ρ)},
    SRuns St m (Q ++ Q') m'' → ∃ m', SRuns St m Q m' ∧ SRuns St m' Q' m''
  | [], m, _, _, h => ⟨m, .nil m, h⟩
  | _ :: Q, _, _, _, h => by
    cases h with
    | cons h1 h =>
      obtain ⟨m', h2, h3⟩ := SRuns.split Q h
      exact ⟨m', .cons h1 h2, h3⟩

end

variable {I : Impl} {L : Type} [Labels L] {N : Nat}

/-! ### Calls in progress -/

/-- the calls that read without lock -/
def TCall.Unlocked : TCall I L → Prop
  | .clone | .getByLabel _ | .getAll | .size => True
  | _ => False

theorem tcode_reads (g : GTree I L) {c : TCall I L} (hc : c.Unlocked) : (tcode N g c).Uses (· = .iterate) True := by
  cases c with
  | clone => exact .peek trivial fun _ => .ret _
  | getByLabel sel => exact .call rfl fun r => uses_walkC trivial (uses_labelBody trivial sel) (fun es => .ret _) _
  | getAll => exact .call rfl fun r => uses_walkC trivial (uses_allBody trivial) (fun es => .ret _) _
  | size => exact .call rfl fun r => uses_walkC trivial (fun _ _ _ hk => hk _) (fun es => .ret _) _
  | _ => cases hc

/-- what a call that has not taken effect may still have to do -/
inductive TPend (N : Nat) (length : Nat) (g : GTree I L) : TCall I L → TClient I L → Prop
  | start {c} : c.Fits → TPend N length g c (tcode N g c)
  | set {x : BitVec I.P.W} {l} : x.toNat < 2 ^ length →
      TPend N length g (.claimFree l) (.call (.set ⟨x, I.P.W⟩ l) (replyDone (.got ⟨⟨x, I.P.W⟩, l⟩)))
  | err {l} : TPend N length g (.claimFree l) (.ret .err)
  | del {id e} : id.id.toNat < 2 ^ length → e.id = id →
      TPend N length g (.release id) (.call (.del id e) (replyDone .done))
  | read {c d} : c.Unlocked → d.Uses (· = .iterate) True → TPend N length g c d
  | walk {sel d} : Walks d → TPend N length g (.releaseByLabel sel) d

/-- Under this prefix the call stores an entry, whatever was there. -/
def SetsAt (length : Nat) (q : List Bool) (c : TCall I L) (r : TReply I L) : Prop :=
  ∀ M M₁ M' : Map I.P L, (∀ q', q' ≠ q → M₁ q' = M q') → TStepW length M c M' r → TStepW length M₁ c M' r

theorem put_congr {M M₁ : Map I.P L} {id : MyId I.P} (l : L) (h : ∀ q', q' ≠ pre id → M₁ q' = M q') :
    GTree.put M id l = GTree.put M₁ id l := by
  funext q
  unfold GTree.put
  split
  · rfl
  · rename_i hq; exact (h q hq).symm

theorem setsAt_claim {length : Nat} {id : MyId I.P} {l : L} (hv : id.id.toNat < 2 ^ length) :
    SetsAt length (pre id) (.claim id l : TCall I L) .done ∧ SetsAt length (pre id) (.update id l : TCall I L) .done := by
  constructor <;>
  · intro M M₁ M' h hs
    simp only [TStepW, TStep, if_pos hv] at hs ⊢
    exact ⟨hs.1.trans (put_congr l h), hs.2⟩

theorem setsAt_claimFree {length : Nat} {x : BitVec I.P.W} {l : L} :
    SetsAt length (pre (⟨x, I.P.W⟩ : MyId I.P)) (.claimFree l : TCall I L) (.got ⟨⟨x, I.P.W⟩, l⟩) := by
  intro M M₁ M' h hs
  rcases hs with ⟨_, h1⟩ | ⟨y, h1, h2, h3⟩
  · cases h1
  · have hxy : x = y := by injection h3 with h3; injection h3 with h3; injection h3
    subst hxy
    exact .inr ⟨x, h1, h2.trans (put_congr l h), rfl⟩

theorem valid_new (hI : I = tree16 ∨ I = tree32) {length : Nat} (hle : length ≤ I.P.W) (id : MyId I.P) :
    (newG I L length).valid id = true ↔ id.id.toNat < 2 ^ length :=
  valid_size rfl hle (ok_of hI).pos id

/-- the reply of a `replyDone` -/
theorem replyDone_ok (k : TReply I L) : replyDone k (.ok : TSecR I L) = .ret k := rfl

theorem found_cases {o : Option (Entry I.P L)} {id : MyId I.P} :
    (∃ e, o = some e ∧ e.id = id ∧ o.filter (fun e => decide (e.id = id)) = some e) ∨
    ((∀ e, o = some e → e.id ≠ id) ∧ o.filter (fun e => decide (e.id = id)) = none) := by
  cases o with
  | none => exact .inr ⟨by simp, rfl⟩
  | some e =>
    by_cases h : e.id = id
    · exact .inl ⟨e, rfl, h, by simp [h]⟩
    · exact .inr ⟨by rintro e' ⟨⟩; exact h, by simp [h]⟩

/-- what a section of a call that has not taken effect does -/
theorem tpend_call (hI : I = tree16 ∨ I = tree32) {length : Nat} (hle : length ≤ I.P.W) {m : GTree I L} {M : Map I.P L}
    (hm : GInv length m M) {c : TCall I L} {x : TSec I L} {k : TSecR I L → TClient I L}
    (hp : TPend N length (newG I L length) c (.call x k)) (hx : x.changes = true → (tsem m x).2 = .ok) :
    (x.eff M = M ∧ TPend N length (newG I L length) c (k (tsem m x).2) ∧
      ∀ id e k', k (tsem m x).2 = .call (.del id e) k' → ∀ e', M (pre id) = some e' → e'.equal e = true) ∨
    (∃ r, TStepW length M c (x.eff M) r ∧ k (tsem m x).2 = .ret r ∧
      (∀ id e, x ≠ .del id e) ∧ ∀ id l, x = .set id l → SetsAt length (pre id) c r) ∨
    ∃ id e, c = .release id ∧ x = .del id e ∧ k (tsem m x).2 = .ret .done ∧ e.id = id ∧ id.id.toNat < 2 ^ length := by
  have hread : ∀ {c : TCall I L} {x : TSec I L} {k : TSecR I L → TClient I L}, c.Unlocked →
      (Client.call x k).Uses (· = .iterate) True → x.eff M = M ∧ TPend N length (newG I L length) c (k (tsem m x).2) ∧
      ∀ id e k', k (tsem m x).2 = .call (.del id e) k' → ∀ e', M (pre id) = some e' → e'.equal e = true := by
    intro c x k hc hu
    cases hu with
    | call h1 h2 =>
      subst h1
      refine ⟨rfl, .read hc (h2 _), ?_⟩
      intro id e k' hk
      have := h2 (tsem m .iterate).2
      rw [hk] at this
      cases this with
      | call h3 _ => cases h3
  have hwalk : ∀ {sel : L → Bool} {x : TSec I L} {k : TSecR I L → TClient I L}, Walks (Client.call x k) →
      (x.changes = true → (tsem m x).2 = .ok) →
      (x.eff M = M ∧ TPend N length (newG I L length) (.releaseByLabel sel) (k (tsem m x).2) ∧
        ∀ id e k', k (tsem m x).2 = .call (.del id e) k' → ∀ e', M (pre id) = some e' → e'.equal e = true) ∨
      ∃ r, TStepW length M (.releaseByLabel sel) (x.eff M) r ∧ k (tsem m x).2 = .ret r ∧
        (∀ id e, x ≠ .del id e) ∧ ∀ id l, x = .set id l → SetsAt length (pre id) (.releaseByLabel sel) r := by
    intro sel x k hw hx
    cases hw with
    | iter h =>
      refine .inl ⟨rfl, .walk (h _), ?_⟩
      intro id e k' hk
      have := h (tsem m .iterate).2
      rw [hk] at this
      cases this
    | delAll _ h =>
      obtain ⟨r, hr⟩ := h (tsem m (.delAll _)).2
      exact .inr ⟨r, fun q => dels_sub, hr, by simp, by simp⟩
  generalize hd : Client.call x k = d at hp
  cases hp with
  | walk hw =>
    refine (hwalk ?_ hx).imp_right .inl
    rw [hd]
    exact hw
  | start hf =>
    cases c with
    | clone => cases hd
    | get id =>
      refine .inr (.inl ?_)
      cases hd
      have hr : (tsem m (.get id)).2 = .found ((M (pre id)).filter (fun e => decide (e.id = id))) := by
        show TSecR.ofFound _ = _
        rw [get_spec hm]; rfl
      rw [hr]
      rcases found_cases (o := M (pre id)) (id := id) with ⟨e, h1, h2, h3⟩ | ⟨h1, h2⟩
      · rw [h3]
        exact ⟨.got e, ⟨rfl, .inl ⟨e, h1, h2, rfl⟩⟩, rfl, by simp, by simp⟩
      · rw [h2]
        exact ⟨.err, ⟨rfl, .inr ⟨h1, rfl⟩⟩, rfl, by simp, by simp⟩
    | update id l | claim id l =>
      refine .inr (.inl ?_)
      simp only [tcode] at hd
      split at hd
      · cases hd
      · rename_i hv
        have hv : id.id.toNat < 2 ^ length := (valid_new (L := L) hI hle id).1 (by simpa using hv)
        cases hd
        rw [hx rfl]
        refine ⟨.done, ?_, rfl, by simp, ?_⟩
        · simp only [TStepW, TStep, if_pos hv]
          exact ⟨rfl, trivial⟩
        · intro id' l' h
          cases h
          exact (setsAt_claim hv).1
    | claimFree l =>
      refine .inl ?_
      have hroot := rootLen_le hI (reach_new (I := I) (L := L) hle)
      have hfs : ∃ o : Ret (BitVec I.P.W), m.findFree = .ok o ∧ ∀ x, o = .ok x → x.toNat < 2 ^ length := by
        rcases findFree_spec (ok_of hI) hm hroot with ⟨h1, _⟩ | ⟨x, h1, _⟩
        · exact ⟨_, h1, fun x h => by cases h⟩
        · refine ⟨_, h1, fun y h => ?_⟩
          split at h
          · cases h; assumption
          · cases h
      obtain ⟨o, ho, hox⟩ := hfs
      obtain ⟨b, ch, hb, hch, hc⟩ := findFree_inv ho
      rw [hm.len] at hb hch
      have hc' : chooseFree (newG I L length) b ch = .ok o := by
        rw [← hc]
        unfold chooseFree GTree.valid
        rw [hm.size]
      have hb' : ofRes (Builder.empty.addId (⟨0, I.rootLen (newG I L length).length⟩ : MyId I.P)) = .ok b := hb
      simp only [tcode, hb'] at hd
      cases hd
      have hr : (tsem m (.children ⟨0, I.rootLen (newG I L length).length⟩)).2 = .list ch := by
        show TSecR.ofList (m.children ⟨0, I.rootLen length⟩) = _
        rw [hch]; rfl
      rw [hr]
      simp only [hc']
      cases o with
      | ok x => exact ⟨rfl, .set (hox x rfl), by intro id e k' h; cases h⟩
      | err => exact ⟨rfl, .err, by intro id e k' h; cases h⟩
    | claimRange s l => cases hf
    | release id =>
      simp only [tcode] at hd
      split at hd
      · cases hd
      · rename_i hv
        have hv : id.id.toNat < 2 ^ length := (valid_new (L := L) hI hle id).1 (by simpa using hv)
        cases hd
        have hr : (tsem m (.get id)).2 = .found ((M (pre id)).filter (fun e => decide (e.id = id))) := by
          show TSecR.ofFound _ = _
          rw [get_spec hm]; rfl
        rw [hr]
        rcases found_cases (o := M (pre id)) (id := id) with ⟨e, h1, h2, h3⟩ | ⟨h1, h2⟩
        · rw [h3]
          refine .inl ⟨rfl, .del hv h2, ?_⟩
          intro id' e' k' hk e'' he''
          injection hk with hk _
          injection hk with hk1 hk2
          subst hk1 hk2
          rw [h1] at he''
          cases he''
          exact equal_refl _
        · rw [h2]
          refine .inr (.inl ⟨.done, ?_, rfl, by simp, by simp⟩)
          simp only [TStepW, TStep, if_pos hv]
          refine ⟨fun q => ?_, trivial⟩
          show M q = _
          split
          · rename_i hq
            subst hq
            cases hM : M (pre id) with
            | none => rfl
            | some e =>
              symm
              rw [Option.filter_eq_some_iff]
              exact ⟨rfl, by simpa using h1 e hM⟩
          · rfl
    | releaseByLabel sel =>
      refine (hwalk ?_ hx).imp_right .inl
      rw [hd]
      exact walks_release _ sel
    | children id =>
      refine .inr (.inl ?_)
      cases hd
      by_cases hid : id.len ≤ I.P.W
      · obtain ⟨l, h1, _, h2⟩ := children_ginv hI hm id hid
        have hr : (tsem m (.children id)).2 = .list (l.filter (fun e => decide (pre id <+: pre e.id ∧ pre id ≠ pre e.id))) := by
          show TSecR.ofList _ = _
          rw [h2]; rfl
        rw [hr]
        exact ⟨_, ⟨rfl, fun _ => ⟨l, h1, rfl⟩⟩, rfl, by simp, by simp⟩
      · generalize (tsem m (.children id)).2 = r0
        cases r0 <;> exact ⟨_, ⟨rfl, fun h => absurd h hid⟩, rfl, by simp, by simp⟩
    | parents id =>
      refine .inr (.inl ?_)
      cases hd
      by_cases hid : id.len ≤ I.P.W
      · obtain ⟨l, h1, _, h2, _⟩ := parents_ginv hI hm id hid
        have hr : (tsem m (.parents id)).2 =
            .list (l.filter (fun e => decide ((pre e.id <+: pre id ∨ pre id <+: pre e.id) ∧ e.id.len < I.P.W))) := by
          show TSecR.ofList _ = _
          rw [h2]; rfl
        rw [hr]
        exact ⟨_, ⟨rfl, fun _ => ⟨l, h1, rfl⟩⟩, rfl, by simp, by simp⟩
      · generalize (tsem m (.parents id)).2 = r0
        cases r0 <;> exact ⟨_, ⟨rfl, fun h => absurd h hid⟩, rfl, by simp, by simp⟩
    | getByLabel sel | getAll | size =>
      refine .inl (hread trivial ?_)
      rw [hd]
      exact tcode_reads _ trivial
  | set hv =>
    refine .inr (.inl ?_)
    cases hd
    rw [hx rfl]
    refine ⟨_, .inr ⟨_, hv, rfl, rfl⟩, rfl, by simp, ?_⟩
    intro id' l' h
    cases h
    exact setsAt_claimFree
  | err => cases hd
  | del hv he =>
    refine .inr (.inr ?_)
    cases hd
    rw [hx rfl]
    exact ⟨_, _, rfl, rfl, rfl, he, hv⟩
  | read hc hu =>
    refine .inl (hread hc ?_)
    rw [hd]
    exact hu

/-- a call that returns without having taken effect -/
theorem tpend_ret (hI : I = tree16 ∨ I = tree32) {length : Nat} (hle : length ≤ I.P.W) {M : Map I.P L} {c : TCall I L} {r : TReply I L}
    (hp : TPend N length (newG I L length) c (.ret r)) : TStepW length M c M r := by
  generalize hd : Client.ret r = d at hp
  cases hp with
  | start hf =>
    cases c with
    | update id l | claim id l | release id =>
      simp only [tcode] at hd
      split at hd
      · rename_i hv
        have hv : ¬ id.id.toNat < 2 ^ length := fun h => by
          rw [(valid_new (L := L) hI hle id).2 h] at hv
          cases hv
        cases hd
        simp only [TStepW, TStep, if_neg hv]
        exact ⟨trivial, trivial⟩
      · cases hd
    | claimFree l =>
      simp only [tcode] at hd
      split at hd
      · cases hd
      · rename_i hb
        exfalso
        obtain ⟨b, ch, hb', _⟩ := findFree_inv (findFree_new (L := L) hI hle)
        exact hb _ hb'
    | claimRange s l => cases hf
    | _ => cases hd
  | walk _ => exact fun q => .inl rfl
  | err => cases hd; exact .inl ⟨rfl, rfl⟩
  | set _ => cases hd
  | del _ _ => cases hd
  | read hc _ =>
    cases c with
    | clone | getByLabel sel | getAll | size => exact rfl
    | _ => cases hc

/-- an access without lock -/
theorem tpend_peek {length : Nat} {g : GTree I L} {c : TCall I L} {k : GTree I L → TClient I L} (hp : TPend N length g c (.peek k))
    {s : GTree I L} (hs : Tidy s) : TPend N length g c (k s) ∧ ∀ id e k', k s ≠ .call (.del id e) k' := by
  have hu : ∀ {c : TCall I L}, c.Unlocked → (Client.peek k).Uses (· = .iterate) True →
      TPend N length g c (k s) ∧ ∀ id e k', k s ≠ .call (.del id e) k' := by
    intro c hc h
    cases h with
    | peek _ h =>
      refine ⟨.read hc (h s), fun id e k' hk => ?_⟩
      have := h s
      rw [hk] at this
      cases this with
      | call h _ => cases h
  generalize hd : Client.peek k = d at hp
  cases hp with
  | start hf =>
    cases c with
    | clone => exact hu trivial (by rw [hd]; exact tcode_reads _ trivial)
    | update id l | claim id l | claimFree l | release id =>
      simp only [tcode] at hd
      split at hd <;> cases hd
    | _ => cases hd
  | read hc h => exact hu hc (by rw [hd]; exact h)
  | walk h =>
    subst hd
    cases h with
    | peek h =>
      refine ⟨.walk (h s hs), fun id e k' hk => ?_⟩
      have := h s hs
      rw [hk] at this
      cases this
  | _ => cases hd

end Verif.Conc
