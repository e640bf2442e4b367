import Verif.Conc.TreeSync

/-! When the calls on a tree of claimed prefixes are linearizable: C81. -/

set_option linter.unusedSectionVars false
namespace Verif.Conc
open Verif.Id Verif.GTree
open Verif.Tree (Out AtMost newTree)

variable {I : Impl} {L : Type} [Labels L] {N : Nat}

/-! ### C81 -/

theorem srun_trun {St : Map I.P L → TCall I L → Map I.P L → TReply I L → Prop} {M M' : Map I.P L}
    {Q : List (Nat × TCall I L × TReply I L)} (h : SRuns St M Q M') : TRun St M (Q.map (·.2.1)) (Q.map (·.2.2)) M' := by
  induction h with
  | nil => exact .nil _
  | cons hs _ ih => exact .cons hs ih

theorem trun_srun {St : Map I.P L → TCall I L → Map I.P L → TReply I L → Prop} :
    ∀ {Q : List (Nat × TCall I L × TReply I L)} {M M' : Map I.P L}, TRun St M (Q.map (·.2.1)) (Q.map (·.2.2)) M' → SRuns St M Q M'
  | [], _, _, h => by cases h; exact .nil _
  | x :: Q, _, _, h => by
    obtain ⟨n, c, r⟩ := x
    cases h with
    | cons h1 h2 => exact .cons h1 (trun_srun h2)

theorem costs_le {H : List (Ev (TCall I L) (TReply I L))} (hf : ∀ n c, Ev.inv n c ∈ H → c.Fits) : costs H ≤ H.length := by
  induction H with
  | nil => exact Nat.le_refl _
  | cons e H ih =>
    have := ih fun n c hn => hf n c (List.mem_cons_of_mem _ hn)
    have h1 : costs (e :: H) ≤ 1 + costs H := by
      have h2 : costs [e] ≤ 1 := by
        cases e with
        | ret _ _ => exact Nat.zero_le _
        | inv n c =>
          have := hf n c (List.mem_cons_self ..)
          cases c with
          | claimRange _ _ => cases this
          | _ => exact Nat.le_refl _
      have := costs_append [e] H
      rw [List.singleton_append] at this
      omega
    rw [List.length_cons]
    omega

/-- **C81, weak form** (tree16; tree32 of length at most 31, or as long as at most `2^31` events have happened): executions without
`ClaimRange` are linearizable if `ClaimFree` may return an id that is claimed, the replies of `Clone`, `GetByLabel`, `GetAll` and
`Size` are ignored, and `ReleaseByLabel` releases any prefixes, with any reply. Missing: `ClaimRange`, and what these calls
should do (violated below), tree64. -/
theorem C81_weak_partial (hI : I = tree16 ∨ I = tree32) {length : Nat} (hle : length ≤ I.P.W)
    {g : Cfg (TCall I L) (GTree I L) (TReply I L)} {H} (h : Exec (tprog N (newG I L length)) (newG I L length) g H)
    (hf : ∀ n c, Ev.inv n c ∈ H → c.Fits) (hH : I.P.W = 32 → H.length ≤ 2 ^ 31 ∨ length ≤ 31) :
    LinearizableBy (TreeRuns (TStepW length)) H := by
  have hal : Alone TCall.Loops H := by
    intro n c hn hc
    have := hf n c hn
    cases c with
    | claimRange _ _ => cases this
    | _ => cases hc
  have hc : I.P.W = 32 → Small length H := fun hw => (hH hw).imp (fun h => Nat.le_trans (costs_le hf) h) fun h => ⟨h, fun n c hn => by
    have := hf n c hn
    cases c with
    | claimRange _ _ => cases this
    | _ => trivial⟩
  have hsz : ∀ n c, Ev.inv n c ∈ H → c.Sized ∧ (True → c.Fits) := by
    refine fun n c hn => ⟨?_, fun _ => hf n c hn⟩
    have := hf n c hn
    cases c with
    | claim _ _ | update _ _ | release _ => exact this
    | _ => trivial
  obtain ⟨g', h'⟩ := exec_sync h hal
  obtain ⟨_, _, Q, M, _, _, h1, h2, _⟩ := sync_order hI hle (D := fun _ => True) (fun _ h => absurd trivial h) h'
    (fun _ _ _ _ => trivial) hsz hc
  exact ⟨Q, h1.nodup, ⟨M, srun_trun (h2.srun fun _ _ _ _ h => h.weak)⟩, h1.inv, h1.ret, h1.order⟩

/-- the calls that name an id, and read and write under the lock -/
def TCall.Named : TCall I L → Prop
  | .claim id _ => id.len ≤ I.P.W
  | .update id _ => id.len ≤ I.P.W
  | .release id => id.len ≤ I.P.W
  | .get _ | .children _ | .parents _ => True
  | _ => False

theorem TRun.strict {length : Nat} {M M' : Map I.P L} {cs : List (TCall I L)} {rs : List (TReply I L)}
    (h : TRun (TStepW length) M cs rs M') (hc : ∀ c ∈ cs, c.Named) : TRun (TStep length) M cs rs M' := by
  induction h with
  | nil => exact .nil _
  | @cons M M' M'' c cs r rs hs _ ih =>
    refine .cons ?_ (ih fun c hc' => hc c (List.mem_cons_of_mem _ hc'))
    have := hc c (List.mem_cons_self ..)
    cases c with
    | claim _ _ | update _ _ | release _ | get _ | children _ | parents _ => exact hs
    | _ => cases this

/-- **C81, part that holds** (tree16; tree32 of length at most 31, or as long as at most `2^31` events have happened): executions of `Get`,
`Update`, `ClaimID`, `ReleaseID`, `Children` and `Parents` are linearizable. Missing: the other calls (violated
below), tree64. -/
theorem C81_linearizable_partial (hI : I = tree16 ∨ I = tree32) {length : Nat} (hle : length ≤ I.P.W)
    {g : Cfg (TCall I L) (GTree I L) (TReply I L)} {H} (h : Exec (tprog N (newG I L length)) (newG I L length) g H)
    (hn : ∀ n c, Ev.inv n c ∈ H → c.Named) (hH : I.P.W = 32 → H.length ≤ 2 ^ 31 ∨ length ≤ 31) :
    LinearizableBy (TreeRuns (TStep length)) H := by
  have hf : ∀ n c, Ev.inv n c ∈ H → c.Fits := by
    intro n c hc
    have := hn n c hc
    cases c with
    | claim _ _ | update _ _ | release _ => exact this
    | get _ | children _ | parents _ => trivial
    | _ => cases this
  obtain ⟨Q, h1, ⟨M, h2⟩, h3, h4, h5⟩ := C81_weak_partial hI hle h hf hH
  refine ⟨Q, h1, ⟨M, h2.strict ?_⟩, h3, h4, h5⟩
  intro c hc
  obtain ⟨x, hx, rfl⟩ := List.mem_map.1 hc
  exact hn _ _ (h3 x hx)

/-- The hypotheses of `C81_linearizable_partial` can be met: `ReleaseID` finds the entry of the prefix 3/16, then `Update`
replaces it, and the release has no effect. It comes before the update. -/
example : ∃ g H, Exec (tprog 0 (newG tree16 Bool 4)) (newG tree16 Bool 4) g H ∧ (∀ n c, Ev.inv n c ∈ H → c.Named) ∧
    H = [.inv 0 (.claim ⟨3, 16⟩ true), .ret 0 .done, .inv 1 (.release ⟨3, 16⟩), .inv 2 (.update ⟨3, 16⟩ false), .ret 2 .done,
      .ret 1 .done, .inv 3 (.get ⟨3, 16⟩), .ret 3 (.got ⟨⟨3, 16⟩, false⟩)] := by
  obtain ⟨g, hg⟩ := exec_of_follow (code := tprog 0 (newG tree16 Bool 4)) (m₀ := newG tree16 Bool 4)
    (H := [.inv 0 (.claim ⟨3, 16⟩ true), .ret 0 .done, .inv 1 (.release ⟨3, 16⟩), .inv 2 (.update ⟨3, 16⟩ false), .ret 2 .done,
      .ret 1 .done, .inv 3 (.get ⟨3, 16⟩), .ret 3 (.got ⟨⟨3, 16⟩, false⟩)])
    ([.start (.claim ⟨3, 16⟩ true)] ++ steps 0 6 ++ [.start (.release ⟨3, 16⟩)] ++ steps 1 6 ++
      [.start (.update ⟨3, 16⟩ false)] ++ steps 2 6 ++ steps 1 6 ++ [.start (.get ⟨3, 16⟩)] ++ steps 3 7) rfl
  refine ⟨g, _, hg, ?_, rfl⟩
  intro n c hc
  simp only [List.mem_cons, Ev.inv.injEq, reduceCtorEq, List.not_mem_nil, or_false, false_or] at hc
  rcases hc with ⟨_, rfl⟩ | ⟨_, rfl⟩ | ⟨_, rfl⟩ | ⟨_, rfl⟩
  · exact Nat.le_refl _
  · exact Nat.le_refl _
  · exact Nat.le_refl _
  · trivial

/-- a property that the calls keep -/
theorem SRuns.keep {σ κ ρ : Type} {St : σ → κ → σ → ρ → Prop} {m m' : σ} {Q : List (Nat × κ × ρ)} (h : SRuns St m Q m') {P : σ → Prop}
    (hP : ∀ x ∈ Q, ∀ m m', St m x.2.1 m' x.2.2 → P m → P m') (hm : P m) : P m' := by
  induction h with
  | nil => exact hm
  | cons hs _ ih =>
    exact ih (fun x hx => hP x (List.mem_cons_of_mem _ hx)) (hP _ (List.mem_cons_self ..) _ _ hs hm)

/-- **C81, violated** (tree16, tree32, every length): the history of two overlapping calls of `ClaimFree` that return
the same id is not linearizable. -/
theorem C81_claimFree_violated (hI : I = tree16 ∨ I = tree32) {length : Nat} (hle : length ≤ I.P.W) (l l' : L) :
    ∃ g H, Exec (tprog N (newG I L length)) (newG I L length) g H ∧
      (∀ n c, Ev.inv n c ∈ H → ∃ l, c = .claimFree l) ∧ ¬ LinearizableBy (TreeRuns (TStep length)) H := by
  obtain ⟨g, hg⟩ := C63_overlapping_violated hI hle l l'
  refine ⟨g, _, hg, ?_, ?_⟩
  · intro n c hc
    simp only [List.mem_cons, Ev.inv.injEq, reduceCtorEq, List.not_mem_nil, or_false] at hc
    rcases hc with ⟨_, rfl⟩ | ⟨_, rfl⟩ <;> exact ⟨_, rfl⟩
  · rintro ⟨Q, _, ⟨M, hM⟩, hinv, hret, _⟩
    have hM := trun_srun hM
    obtain ⟨c0, h0⟩ := hret 0 (.got ⟨⟨0, I.P.W⟩, l⟩) (by simp)
    obtain ⟨c1, h1⟩ := hret 1 (.got ⟨⟨0, I.P.W⟩, l'⟩) (by simp)
    have hcf : ∀ x ∈ Q, ∃ l, x.2.1 = .claimFree l := by
      intro x hx
      have hc := hinv x hx
      simp only [List.mem_cons, Ev.inv.injEq, reduceCtorEq, List.not_mem_nil, or_false] at hc
      rcases hc with ⟨_, hc⟩ | ⟨_, hc⟩ <;> exact ⟨_, hc⟩
    -- whichever comes first
    have main : ∀ (x y : Nat × TCall I L × TReply I L) (l l' : L), x.2.2 = .got ⟨⟨0, I.P.W⟩, l⟩ → y.2.2 = .got ⟨⟨0, I.P.W⟩, l'⟩ →
        [x, y].Sublist Q → False := by
      intro x y l l' hx hy hs
      obtain ⟨B, C, D, rfl⟩ := sublist_split hs
      obtain ⟨nx, cx, rx⟩ := x
      obtain ⟨ny, cy, ry⟩ := y
      obtain ⟨lx, hlx⟩ := hcf (nx, cx, rx) (by simp)
      obtain ⟨ly, hly⟩ := hcf (ny, cy, ry) (by simp)
      simp only at hx hy hlx hly
      subst hx hy hlx hly
      obtain ⟨M₁, _, r2⟩ := SRuns.split B hM
      cases r2 with
      | cons s1 r3 =>
        rename_i M₂
        have k1 : M₂ (pre (⟨0, I.P.W⟩ : MyId I.P)) ≠ none := by
          rcases s1 with ⟨_, h⟩ | ⟨z, _, _, h2, h3⟩
          · cases h
          · have hz : (0 : BitVec I.P.W) = z := by injection h3 with h3; injection h3 with h3; injection h3
            subst hz
            rw [h2]
            simp [GTree.put]
        obtain ⟨M₃, r4, r5⟩ := SRuns.split C r3
        have k2 : M₃ (pre (⟨0, I.P.W⟩ : MyId I.P)) ≠ none := by
          refine r4.keep (P := fun M => M (pre (⟨0, I.P.W⟩ : MyId I.P)) ≠ none) ?_ k1
          intro w hw m m' hs hm
          obtain ⟨lw, hlw⟩ := hcf w (by simp [hw])
          rw [hlw] at hs
          rcases hs with ⟨h, _⟩ | ⟨z, _, _, h2, _⟩
          · rw [h]; exact hm
          · rw [h2]
            simp only [GTree.put]
            split
            · simp
            · exact hm
        cases r5 with
        | cons s2 _ =>
          rcases s2 with ⟨_, h⟩ | ⟨z, _, h2, _, h3⟩
          · cases h
          · have hz : (0 : BitVec I.P.W) = z := by injection h3 with h3; injection h3 with h3; injection h3
            subst hz
            exact k2 h2
    rcases sublist_pair h0 h1 (by simp) with hs | hs
    · exact main _ _ l l' rfl rfl hs
    · exact main _ _ l' l rfl rfl hs

/-- **C81, violated** (tree16 of length 4): a history in which `GetAll` panics is not linearizable. -/
theorem C81_getAll_violated : ∃ g H, Exec (tprog 0 (newG tree16 Bool 4)) (newG tree16 Bool 4) g H ∧
    (∀ n c, Ev.inv n c ∈ H → c.Named ∨ c = .getAll) ∧ ¬ LinearizableBy (TreeRuns (TStep 4)) H := by
  obtain ⟨g, hg⟩ := C80_entry_violated (c := .getAll) (.inl rfl)
  refine ⟨g, _, hg, ?_, ?_⟩
  · intro n c hc
    simp only [List.mem_cons, Ev.inv.injEq, reduceCtorEq, List.not_mem_nil, or_false, false_or] at hc
    rcases hc with ⟨_, rfl⟩ | ⟨_, rfl⟩ | ⟨_, rfl⟩
    · exact .inl (Nat.le_refl _)
    · exact .inr rfl
    · exact .inl (Nat.le_refl _)
  · rintro ⟨Q, _, ⟨M, hM⟩, hinv, hret, _⟩
    obtain ⟨c, hc⟩ := hret 1 .panic (by simp)
    have h1 := hinv _ hc
    have h1 : c = .getAll := by simpa using h1
    subst h1
    obtain ⟨A, B, rfl⟩ := List.append_of_mem hc
    obtain ⟨M₁, _, h2⟩ := SRuns.split A (trun_srun hM)
    cases h2 with
    | cons h3 _ =>
      obtain ⟨_, l, _, h4⟩ := h3
      cases h4

theorem mem_after_sublist {A : Type} {y b : A} {l l' : List A} (hn : (l ++ y :: l').Nodup)
    (h : [y, b].Sublist (l ++ y :: l')) : b ∈ l' := by
  have hy : y ∉ l := fun hy => (List.nodup_append.1 hn).2.2 y hy y (List.mem_cons_self ..) rfl
  rw [List.sublist_append_iff] at h
  obtain ⟨l1, l2, h1, h2, h3⟩ := h
  match l1, l2 with
  | [], l2 =>
    simp only [List.nil_append] at h1
    subst h1
    cases h3 with
    | cons _ h => exact h.subset (by simp)
    | cons_cons _ h => exact h.subset (by simp)
  | u :: l1, l2 =>
    simp only [List.cons_append, List.cons.injEq] at h1
    obtain ⟨rfl, _⟩ := h1
    exact absurd (h2.subset (by simp)) hy

theorem sublist_of_get {A : Type} {l : List A} {x y : A} (i j : Nat) (hi : l[i]? = some x) (hj : l[j]? = some y) (h : i < j) :
    [x, y].Sublist l := by
  rw [← List.take_append_drop j l]
  refine List.Sublist.append (l₁ := [x]) (List.singleton_sublist.2 ?_) (List.singleton_sublist.2 ?_)
  · exact List.mem_of_getElem? (i := i) (by rw [List.getElem?_take, if_pos h, hi])
  · exact List.mem_of_getElem? (i := 0) (by rw [List.getElem?_drop]; exact hj)

/-- elements with different names -/
theorem mem_after {A : Type} {l l' : List (Nat × A)} {x z : Nat × A} (hn : ((l ++ x :: l').map (·.1)).Nodup)
    (hz : z ∈ l ++ x :: l') (hs : [x.1, z.1].Sublist ((l ++ x :: l').map (·.1))) : z ∈ l' := by
  rw [List.map_append, List.map_cons] at hn hs
  have h1 := mem_after_sublist hn hs
  rcases List.mem_append.1 hz with hz | hz
  · exact absurd rfl ((List.nodup_append.1 hn).2.2 _ (List.mem_map.2 ⟨z, hz, rfl⟩) _ (List.mem_cons_of_mem _ h1))
  · rcases List.mem_cons.1 hz with rfl | hz
    · exact absurd h1 (List.nodup_cons.1 (List.nodup_append.1 hn).2.1).1
    · exact hz

theorem mem_before {A : Type} {l l' : List (Nat × A)} {x z : Nat × A} (hn : ((l ++ x :: l').map (·.1)).Nodup)
    (hz : z ∈ l ++ x :: l') (hs : [z.1, x.1].Sublist ((l ++ x :: l').map (·.1))) : z ∈ l := by
  rw [List.map_append, List.map_cons] at hn hs
  have h1 := mem_of_pair_sublist hn hs
  rcases List.mem_append.1 hz with hz | hz
  · exact hz
  · exact absurd rfl ((List.nodup_append.1 hn).2.2 _ h1 z.1 (by
      rcases List.mem_cons.1 hz with rfl | hz
      · exact List.mem_cons_self ..
      · exact List.mem_cons_of_mem _ (List.mem_map.2 ⟨z, hz, rfl⟩)))

/-- the calls of the next history -/
inductive Ex81 : Nat → TCall tree16 Bool → Prop
  | c0 : Ex81 0 (.claim ⟨1, 16⟩ false)
  | c1 : Ex81 1 (.claim ⟨9, 16⟩ false)
  | c2 : Ex81 2 (.releaseByLabel fun b => b)
  | c3 : Ex81 3 (.claim ⟨0, 16⟩ true)
  | c4 : Ex81 4 (.claim ⟨10, 16⟩ true)
  | c5 : Ex81 5 (.get ⟨0, 16⟩)
  | c6 : Ex81 6 (.get ⟨10, 16⟩)

abbrev p0 : List Bool := pre (⟨0, 16⟩ : MyId tree16.P)
abbrev p10 : List Bool := pre (⟨10, 16⟩ : MyId tree16.P)

theorem ex81_step {n : Nat} {c : TCall tree16 Bool} {r : TReply tree16 Bool} {M M' : Map tree16.P Bool} (hc : Ex81 n c)
    (h : TStep 4 M c M' r) :
    (n ≠ 3 → M (p0) = none → M' (p0) = none) ∧
    (n ≠ 2 → M (p10) = some ⟨⟨10, 16⟩, true⟩ → M' (p10) = some ⟨⟨10, 16⟩, true⟩) ∧
    ((∀ e, M (p0) = some e → e.labels = true) → ∀ e, M' (p0) = some e → e.labels = true) ∧
    (n = 4 → M' (p10) = some ⟨⟨10, 16⟩, true⟩) ∧
    (n = 2 → (∀ e, M (p0) = some e → e.labels = true) → M' (p0) = none) := by
  have hput : ∀ {i : MyId tree16.P} {l : Bool} {M' : Map tree16.P Bool}, i.id.toNat < 2 ^ 4 → TStep 4 M (.claim i l) M' r →
      M' = GTree.put M i l := by
    intro i l M' hi h
    simp only [TStep, if_pos hi] at h
    exact h.1
  have h0 : pre (⟨0, 16⟩ : MyId tree16.P) ≠ pre (⟨1, 16⟩ : MyId tree16.P) := by decide
  have h1 : pre (⟨0, 16⟩ : MyId tree16.P) ≠ pre (⟨9, 16⟩ : MyId tree16.P) := by decide
  have h2 : pre (⟨0, 16⟩ : MyId tree16.P) ≠ pre (⟨10, 16⟩ : MyId tree16.P) := by decide
  have h3 : pre (⟨10, 16⟩ : MyId tree16.P) ≠ pre (⟨1, 16⟩ : MyId tree16.P) := by decide
  have h4 : pre (⟨10, 16⟩ : MyId tree16.P) ≠ pre (⟨9, 16⟩ : MyId tree16.P) := by decide
  have h5 : pre (⟨10, 16⟩ : MyId tree16.P) ≠ pre (⟨0, 16⟩ : MyId tree16.P) := by decide
  cases hc with
  | c0 =>
    rw [hput (by decide) h]
    simp only [GTree.put, if_neg h0, if_neg h3]
    exact ⟨fun _ h => h, fun _ h => h, fun h => h, by omega, by omega⟩
  | c1 =>
    rw [hput (by decide) h]
    simp only [GTree.put, if_neg h1, if_neg h4]
    exact ⟨fun _ h => h, fun _ h => h, fun h => h, by omega, by omega⟩
  | c2 =>
    obtain ⟨h, _⟩ := h
    simp only [h]
    refine ⟨fun _ h => by rw [h]; rfl, fun h => absurd rfl h, fun h e he => h e (Option.filter_eq_some_iff.1 he).1, by omega, ?_⟩
    intro _ hl
    cases hM : M p0 with
    | none => rfl
    | some e => exact filter_neg (by simp [hl e hM])
  | c3 =>
    rw [hput (by decide) h]
    simp only [GTree.put, if_neg h5, if_true]
    exact ⟨fun h => absurd rfl h, fun _ h => h, fun _ e he => by cases he; rfl, by omega, by omega⟩
  | c4 =>
    rw [hput (by decide) h]
    simp only [GTree.put, if_neg h2, if_true]
    exact ⟨fun _ h => h, fun _ _ => trivial, fun h => h, fun _ => trivial, by omega⟩
  | c5 =>
    rw [h.1]
    exact ⟨fun _ h => h, fun _ h => h, fun h => h, by omega, by omega⟩
  | c6 =>
    rw [h.1]
    exact ⟨fun _ h => h, fun _ h => h, fun h => h, by omega, by omega⟩

/-- **C81, violated** (tree16 of length 4): `ReleaseByLabel` misses the prefix 0/16, but releases the prefix 10/16 that
has been claimed later. -/
theorem C81_releaseByLabel_violated : ∃ g H, Exec (tprog 0 (newG tree16 Bool 4)) (newG tree16 Bool 4) g H ∧
    (∀ n c, Ev.inv n c ∈ H → c.Named ∨ ∃ sel, c = .releaseByLabel sel) ∧ (∀ n, Ev.ret n .panic ∉ H) ∧
    ¬ LinearizableBy (TreeRuns (TStep 4)) H := by
  obtain ⟨g, hg⟩ := exec_of_follow (code := tprog 0 (newG tree16 Bool 4)) (m₀ := newG tree16 Bool 4)
    (H := [.inv 0 (.claim ⟨1, 16⟩ false), .ret 0 .done, .inv 1 (.claim ⟨9, 16⟩ false), .ret 1 .done,
      .inv 2 (.releaseByLabel fun b => b), .inv 3 (.claim ⟨0, 16⟩ true), .ret 3 .done, .inv 4 (.claim ⟨10, 16⟩ true), .ret 4 .done,
      .ret 2 .done, .inv 5 (.get ⟨0, 16⟩), .ret 5 (.got ⟨⟨0, 16⟩, true⟩), .inv 6 (.get ⟨10, 16⟩), .ret 6 .err])
    ([.start (.claim ⟨1, 16⟩ false)] ++ steps 0 6 ++ [.start (.claim ⟨9, 16⟩ false)] ++ steps 1 6 ++
      [.start (.releaseByLabel fun b => b)] ++ steps 2 11 ++ [.start (.claim ⟨0, 16⟩ true)] ++ steps 3 6 ++
      [.start (.claim ⟨10, 16⟩ true)] ++ steps 4 6 ++ steps 2 21 ++ [.start (.get ⟨0, 16⟩)] ++ steps 5 7 ++
      [.start (.get ⟨10, 16⟩)] ++ steps 6 7) rfl
  refine ⟨g, _, hg, ?_, ?_, ?_⟩
  · intro n c hc
    simp only [List.mem_cons, Ev.inv.injEq, reduceCtorEq, List.not_mem_nil, or_false, false_or] at hc
    rcases hc with ⟨_, rfl⟩ | ⟨_, rfl⟩ | ⟨_, rfl⟩ | ⟨_, rfl⟩ | ⟨_, rfl⟩ | ⟨_, rfl⟩ | ⟨_, rfl⟩
    · exact .inl (Nat.le_refl _)
    · exact .inl (Nat.le_refl _)
    · exact .inr ⟨_, rfl⟩
    · exact .inl (Nat.le_refl _)
    · exact .inl (Nat.le_refl _)
    · exact .inl trivial
    · exact .inl trivial
  · intro n hn
    simp at hn
  · rintro ⟨Q, hnd, ⟨M, hM⟩, hinv, hret, hord⟩
    have hM := trun_srun hM
    have hcls : ∀ x ∈ Q, Ex81 x.1 x.2.1 := by
      rintro ⟨n, c, r⟩ hx
      have hc := hinv _ hx
      simp only [List.mem_cons, Ev.inv.injEq, reduceCtorEq, List.not_mem_nil, or_false, false_or] at hc
      rcases hc with ⟨rfl, rfl⟩ | ⟨rfl, rfl⟩ | ⟨rfl, rfl⟩ | ⟨rfl, rfl⟩ | ⟨rfl, rfl⟩ | ⟨rfl, rfl⟩ | ⟨rfl, rfl⟩ <;> constructor
    obtain ⟨c2, m2⟩ := hret 2 .done (by simp)
    obtain ⟨c3, m3⟩ := hret 3 .done (by simp)
    obtain ⟨c4, m4⟩ := hret 4 .done (by simp)
    obtain ⟨c5, m5⟩ := hret 5 (.got ⟨⟨0, 16⟩, true⟩) (by simp)
    obtain ⟨c6, m6⟩ := hret 6 .err (by simp)
    have mem : ∀ {x}, x ∈ Q → x.1 ∈ Q.map (·.1) := fun hx => List.mem_map.2 ⟨_, hx, rfl⟩
    have b34 := hord 3 4 ⟨.done, .claim ⟨10, 16⟩ true, sublist_of_get 6 7 rfl rfl (by decide)⟩ (mem m4)
    have b46 := hord 4 6 ⟨.done, .get ⟨10, 16⟩, sublist_of_get 8 12 rfl rfl (by decide)⟩ (mem m6)
    have b25 := hord 2 5 ⟨.done, .get ⟨0, 16⟩, sublist_of_get 9 10 rfl rfl (by decide)⟩ (mem m5)
    -- the release comes after the claim of 10/16
    obtain ⟨B, C, rfl⟩ := List.append_of_mem m4
    have m6' := mem_after hnd m6 b46
    have m3' := mem_before hnd m3 b34
    have m2' : ∃ c r, (2, c, r) ∈ C := by
      by_contra hno
      obtain ⟨C1, C2, rfl⟩ := List.append_of_mem m6'
      obtain ⟨M₁, _, r2⟩ := SRuns.split B hM
      cases r2 with
      | cons s1 r3 =>
        have k1 := (ex81_step (hcls _ m4) s1).2.2.2.1 rfl
        obtain ⟨M₃, r4, r5⟩ := SRuns.split C1 r3
        have k2 : M₃ p10 = some ⟨⟨10, 16⟩, true⟩ := by
          refine r4.keep (P := fun M => M p10 = some ⟨⟨10, 16⟩, true⟩) ?_ k1
          intro x hx m m' hs hm
          refine (ex81_step (hcls x (by simp [hx])) hs).2.1 ?_ hm
          intro h2
          exact hno ⟨x.2.1, x.2.2, by rw [← h2]; simp [hx]⟩
        cases r5 with
        | cons s2 _ =>
          have h6 := hcls _ m6
          cases h6
          rcases s2.2 with ⟨e, _, _, h⟩ | ⟨h, _⟩
          · cases h
          · exact h _ k2 rfl
    obtain ⟨c, r, m2'⟩ := m2'
    obtain ⟨C1, C2, rfl⟩ := List.append_of_mem m2'
    rw [← List.cons_append, ← List.append_assoc] at hnd hM m5 m3 b25 hcls
    have m5' := mem_after hnd m5 b25
    obtain ⟨D1, D2, rfl⟩ := List.append_of_mem m5'
    obtain ⟨M₁, r1, r2⟩ := SRuns.split _ hM
    have k1 : ∀ e, M₁ p0 = some e → e.labels = true := by
      refine r1.keep (P := fun M : Map tree16.P Bool => ∀ e, M p0 = some e → e.labels = true) ?_ (fun e he => by cases he)
      intro x hx m m' hs hm
      exact (ex81_step (hcls x (List.mem_append_left _ hx)) hs).2.2.1 hm
    cases r2 with
    | cons s1 r3 =>
      have k2 := (ex81_step (hcls (2, c, r) (List.mem_append_right _ (List.mem_cons_self ..))) s1).2.2.2.2 rfl k1
      obtain ⟨M₃, r4, r5⟩ := SRuns.split D1 r3
      have k3 : M₃ p0 = none := by
        refine r4.keep (P := fun M => M p0 = none) ?_ k2
        intro x hx m m' hs hm
        have hxQ : x ∈ (2, c, r) :: (D1 ++ (5, c5, TReply.got ⟨⟨0, 16⟩, true⟩) :: D2) := by simp [hx]
        refine (ex81_step (hcls x (List.mem_append_right _ hxQ)) hs).1 ?_ hm
        intro h3
        rw [List.map_append] at hnd
        refine (List.nodup_append.1 hnd).2.2 3 (List.mem_map.2 ⟨_, List.mem_append_left _ m3', rfl⟩) x.1 ?_ h3.symm
        exact List.mem_map.2 ⟨x, hxQ, rfl⟩
      cases r5 with
      | cons s2 _ =>
        have h5 := hcls _ m5
        cases h5
        rcases s2.2 with ⟨e, h, _⟩ | ⟨_, h⟩
        · rw [show M₃ (pre ⟨0, 16⟩) = none from k3] at h
          cases h
        · cases h

/-- The hypotheses of `C81_weak_partial` can be met by the same history. -/
example : ∃ g H, Exec (tprog 0 (newG tree16 Bool 4)) (newG tree16 Bool 4) g H ∧ (∀ n c, Ev.inv n c ∈ H → c.Fits) ∧
    LinearizableBy (TreeRuns (TStepW 4)) H ∧ ¬ LinearizableBy (TreeRuns (TStep 4)) H := by
  obtain ⟨g, H, h1, h2, _, h3⟩ := C81_releaseByLabel_violated
  have hf : ∀ n c, Ev.inv n c ∈ H → c.Fits := by
    intro n c hc
    rcases h2 n c hc with h | ⟨sel, rfl⟩
    · cases c with
      | claim _ _ | update _ _ | release _ => exact h
      | get _ | children _ | parents _ => trivial
      | _ => cases h
    · trivial
  exact ⟨g, H, h1, hf, C81_weak_partial (.inl rfl) (by decide) h1 hf (fun h => by cases h), h3⟩

abbrev p4 : List Bool := pre (⟨4, 15⟩ : MyId tree16.P)

/-- **C81, violated** (tree16 of length 4): between the steps of `ClaimRange("3-5")` the prefix 3/16 is claimed and 4/15
is not. -/
theorem C81_claimRange_violated : ∃ g H, Exec (tprog 0 (newG tree16 Bool 4)) (newG tree16 Bool 4) g H ∧
    (∀ n c, Ev.inv n c ∈ H → c.Named ∨ ∃ s l, c = .claimRange s l) ∧ (∀ n, Ev.ret n .panic ∉ H) ∧
    ¬ LinearizableBy (TreeRuns (TStep 4)) H := by
  obtain ⟨g, hg⟩ := exec_of_follow (code := tprog 0 (newG tree16 Bool 4)) (m₀ := newG tree16 Bool 4)
    (H := [.inv 0 (.claimRange [51, 45, 53] true), .inv 1 (.get ⟨3, 16⟩), .ret 1 (.got ⟨⟨3, 16⟩, true⟩), .inv 2 (.get ⟨4, 15⟩),
      .ret 2 .err])
    ([.start (.claimRange [51, 45, 53] true)] ++ steps 0 2 ++ [.start (.get ⟨3, 16⟩)] ++ steps 1 7 ++
      [.start (.get ⟨4, 15⟩)] ++ steps 2 7) rfl
  refine ⟨g, _, hg, ?_, ?_, ?_⟩
  · intro n c hc
    simp only [List.mem_cons, Ev.inv.injEq, reduceCtorEq, List.not_mem_nil, or_false, false_or] at hc
    rcases hc with ⟨_, rfl⟩ | ⟨_, rfl⟩ | ⟨_, rfl⟩
    · exact .inr ⟨_, _, rfl⟩
    · exact .inl trivial
    · exact .inl trivial
  · intro n hn
    simp at hn
  · rintro ⟨Q, hnd, ⟨M, hM⟩, hinv, hret, hord⟩
    have hM := trun_srun hM
    have hcls : ∀ x ∈ Q, x.2.1 = .claimRange [51, 45, 53] true ∨ (x.1 = 1 ∧ x.2.1 = .get ⟨3, 16⟩) ∨ x.1 = 2 ∧ x.2.1 = .get ⟨4, 15⟩ := by
      rintro ⟨n, c, r⟩ hx
      have hc := hinv _ hx
      simp only [List.mem_cons, Ev.inv.injEq, reduceCtorEq, List.not_mem_nil, or_false, false_or] at hc
      rcases hc with ⟨_, h⟩ | h | h
      · exact .inl h
      · exact .inr (.inl h)
      · exact .inr (.inr h)
    -- what the calls do
    have hstep : ∀ x ∈ Q, ∀ m m' : Map tree16.P Bool, TStep 4 m x.2.1 m' x.2.2 → m' = m ∨
        (m' p4 = some ⟨⟨4, 15⟩, true⟩) := by
      intro x hx m m' hs
      rcases hcls x hx with h | ⟨_, h⟩ | ⟨_, h⟩
      · rw [h] at hs
        rcases hs with ⟨_, h, _⟩ | ⟨x, ids, h1, h2, h3, _⟩
        · exact .inl h
        · have hx : x = ⟨⟨3, 16⟩, ⟨5, 16⟩⟩ := by
            have : (parseRange [51, 45, 53] : Option (Rng tree16.P)) = some ⟨⟨3, 16⟩, ⟨5, 16⟩⟩ := rfl
            rw [this] at h1
            cases h1
            rfl
          subst hx
          have hids : ids = [⟨3, 16⟩, ⟨4, 15⟩] := by
            have : (⟨⟨3, 16⟩, ⟨5, 16⟩⟩ : Rng tree16.P).ids = some [⟨3, 16⟩, ⟨4, 15⟩] := rfl
            rw [this] at h2
            cases h2
            rfl
          subst hids h3
          refine .inr ?_
          simp only [puts, List.foldl_cons, List.foldl_nil]
          exact if_pos rfl
      · rw [h] at hs
        exact .inl hs.1
      · rw [h] at hs
        exact .inl hs.1
    obtain ⟨c1, m1⟩ := hret 1 (.got ⟨⟨3, 16⟩, true⟩) (by simp)
    obtain ⟨c2, m2⟩ := hret 2 .err (by simp)
    have b12 := hord 1 2 ⟨.got ⟨⟨3, 16⟩, true⟩, .get ⟨4, 15⟩, sublist_of_get 2 3 rfl rfl (by decide)⟩ (List.mem_map.2 ⟨_, m2, rfl⟩)
    obtain ⟨A, B, rfl⟩ := List.append_of_mem m1
    have m2' := mem_after hnd m2 b12
    obtain ⟨C, D, rfl⟩ := List.append_of_mem m2'
    obtain ⟨M₁, r1, r2⟩ := SRuns.split A hM
    have k1 : M₁ = Map.empty ∨ M₁ p4 = some ⟨⟨4, 15⟩, true⟩ := by
      refine r1.keep (P := fun M : Map tree16.P Bool => M = Map.empty ∨ M p4 = some ⟨⟨4, 15⟩, true⟩) ?_ (.inl rfl)
      intro x hx m m' hs hm
      rcases hstep x (List.mem_append_left _ hx) m m' hs with rfl | h
      · exact hm
      · exact .inr h
    cases r2 with
    | @cons _ M₂ _ _ _ _ _ s1 r3 =>
      have e1 : c1 = .get ⟨3, 16⟩ := by
        have := hinv _ m1
        simpa using this
      subst e1
      obtain ⟨rfl, s1⟩ := s1
      have k2 : M₂ p4 = some ⟨⟨4, 15⟩, true⟩ := by
        rcases k1 with rfl | h
        · rcases s1 with ⟨e, h, _⟩ | ⟨_, h⟩
          · cases h
          · cases h
        · exact h
      obtain ⟨M₃, r4, r5⟩ := SRuns.split C r3
      have k3 : M₃ p4 = some ⟨⟨4, 15⟩, true⟩ := by
        refine r4.keep (P := fun M : Map tree16.P Bool => M p4 = some ⟨⟨4, 15⟩, true⟩) ?_ k2
        intro x hx m m' hs hm
        rcases hstep x (by simp [hx]) m m' hs with rfl | h
        · exact hm
        · exact h
      cases r5 with
      | cons s2 _ =>
        have e2 : c2 = .get ⟨4, 15⟩ := by
          have := hinv _ m2
          simpa using this
        subst e2
        rcases s2.2 with ⟨e, _, _, h⟩ | ⟨h, _⟩
        · cases h
        · exact h _ k3 rfl

end Verif.Conc
