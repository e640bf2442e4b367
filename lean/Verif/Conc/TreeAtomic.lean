import Verif.Conc.TreeSync

/-!
The calls on a tree in an order, as executions of the same code one after the other: trees of all widths, any number of
entries, ids of any length (C116).
-/

set_option linter.unusedSectionVars false
namespace Verif.Conc
open Verif.Id Verif.GTree

variable {I : Impl} {L : Type} [Labels L] {N : Nat}

/-- the calls with one critical section, that do not access the tree without lock -/
def TCall.Single : TCall I L → Prop
  | .get _ | .update _ _ | .claim _ _ | .children _ | .parents _ => True
  | _ => False

theorem single_call {g : GTree I L} {c : TCall I L} (hc : c.Single) {x : TSec I L} {k : TSecR I L → TClient I L}
    (h : scode N g c = .call x k) (r : TSecR I L) : ∃ r', k r = .ret r' := by
  have hdone : ∀ (k : TReply I L) (r : TSecR I L), ∃ r', replyDone k r = .ret r' := by
    intro k r
    unfold replyDone
    split <;> exact ⟨_, rfl⟩
  cases c with
  | get id | children id | parents id =>
    simp only [scode, tcode] at h
    injection h with _ h
    subst h
    dsimp only
    split <;> exact ⟨_, rfl⟩
  | update id l | claim id l =>
    simp only [scode, tcode] at h
    split at h
    · cases h
    · injection h with _ h
      rw [← h]
      exact hdone _ _
  | _ => cases hc

theorem single_peek {g : GTree I L} {c : TCall I L} (hc : c.Single) {k : GTree I L → TClient I L} : scode N g c ≠ .peek k := by
  intro h
  cases c with
  | update id l | claim id l =>
    simp only [scode, tcode] at h
    split at h <;> cases h
  | get id | children id | parents id => cases h
  | _ => cases hc

/-- `ClaimRange` with the lock does the same -/
theorem alone_scode (g₀ m : GTree I L) (c : TCall I L) : alone (scode N g₀ c) m = (tprog N g₀ c).exec m := by
  classical
  by_cases hc : c.Loops
  · obtain ⟨_, k, h1, h2⟩ := scode_loops (N := N) g₀ c hc
    unfold alone
    rw [h1]
    exact (h2 m).exec
  · unfold alone
    rw [scode_same g₀ c hc]

/-- **The calls of an execution can be ordered.** -/
theorem atomic_order {g₀ : GTree I L} {g : Cfg (TCall I L) (GTree I L) (TReply I L)} {H}
    (h : Exec (fun c => (scode N g₀ c).compile tsec) g₀ g H) :
    (∀ n c, Ev.inv n c ∈ H → ¬ c.Single → ¬ Crossed TCall.Changes H n) →
    ∃ a G Q, AExec (scode N g₀) tsem (fun _ _ => True) g₀ a G H ∧ Rel tsec g a ∧ Orders H Q ∧
      SRuns (fun m c m' r => alone (scode N g₀ c) m = (m', r)) g₀ Q a.mem ∧
      ∀ (n : Nat) (c : TCall I L) (d : TClient I L), a.th[n]? = some (c, some d) →
        (n ∉ Q.map (·.1) ∧ (c.Single → d = scode N g₀ c) ∧ alone d a.mem = alone (scode N g₀ c) a.mem) ∨
        ∃ r, d = .ret r ∧ (n, c, r) ∈ Q := by
  induction h with
  | init =>
    exact fun _ => ⟨_, [], [], .init, ⟨rfl, by simp, fun _ => rfl, by simp, by simp⟩,
      ⟨by simp, by simp, by simp, by simp⟩, .nil _, fun n c d h => by simp at h⟩
  | @step g H e g1 h0 hs ih =>
    intro hD
    have hD0 : ∀ n c, Ev.inv n c ∈ H → ¬ c.Single → ¬ Crossed TCall.Changes H n := by
      rintro n c hn hc ⟨m, c', hne, hch, hm, ho⟩
      exact hD n c (List.mem_append_left _ hn) hc ⟨m, c', hne, hch, List.mem_append_left _ hm, overlap_step h0 hs hn hm ho⟩
    obtain ⟨a, G, Q, ha, hR, ho, hr, ht⟩ := ih hD0
    have hF := ha.facts
    -- calls in progress at the same time as one that changes the tree
    have hcross : ∀ {n m : Nat} {c : TCall I L} {d : TClient I L} {c' : TCall I L} {d' : TClient I L}, a.th[n]? = some (c, some d) → a.th[m]? = some (c', some d') → m ≠ n → c'.Changes →
        c.Single := by
      intro n m c d c' d' hn hm hne hch
      obtain ⟨x, hx, hxc, hxp⟩ := hR.pend hn
      obtain ⟨y, hy, hyc, hyp⟩ := hR.pend hm
      by_contra hc
      exact hD0 n c ((hF.inv n c).2 ⟨_, hn⟩) hc ⟨m, c', hne, hch, (hF.inv m c').2 ⟨_, hm⟩, overlap_of_pending h0 hx hy hxp hyp⟩
    rcases hR.step tsections hs with ⟨x, a', hA, hR', hmem, hpk⟩ | ⟨rfl, hR'⟩
    · have hA' := AExec.step ha hA
      suffices hgoal : ∃ Q, Orders (H ++ e.toList) Q ∧ SRuns (fun m c m' r => alone (scode N g₀ c) m = (m', r)) g₀ Q a'.mem ∧
          ∀ (n : Nat) (c : TCall I L) (d : TClient I L), a'.th[n]? = some (c, some d) →
            (n ∉ Q.map (·.1) ∧ (c.Single → d = scode N g₀ c) ∧ alone d a'.mem = alone (scode N g₀ c) a'.mem) ∨
            ∃ r, d = .ret r ∧ (n, c, r) ∈ Q by
        obtain ⟨Q, g1, g2, g3⟩ := hgoal
        exact ⟨a', _, Q, hA', hR', g1, g2, g3⟩
      by_cases hxe : x = none ∧ e = none
      · -- a peek
        obtain ⟨rfl, rfl⟩ := hxe
        obtain ⟨n, c, k, hn, rfl, hwr⟩ := hpk rfl rfl
        simp only [Option.toList_none, List.append_nil]
        refine ⟨Q, ho, hr, ?_⟩
        intro i c' d hd
        rcases getElem?_set_cases hd with ⟨rfl, h5⟩ | ⟨_, h5⟩
        · cases h5
          rcases ht i c _ hn with ⟨k1, k2, k3⟩ | ⟨r', k1, _⟩
          · have hns : ¬ c.Single := fun h => single_peek h (k2 h).symm
            refine .inl ⟨k1, fun h => absurd h hns, ?_⟩
            have hm : a.mem = g.mem := by
              refine hR.mem ?_
              intro y hy hw
              obtain ⟨j, hj⟩ := List.mem_iff_getElem?.1 hy
              obtain ⟨z, hz⟩ : ∃ z, a.th[j]? = some z :=
                ⟨_, List.getElem?_eq_getElem (by rw [← hR.len]; exact (List.getElem?_eq_some_iff.1 hj).1)⟩
              have hji : j ≠ i := by
                rintro rfl
                rw [hwr y hj] at hw
                cases hw
              have hT := hR.th j y z hj hz
              have hnw := exec_noW (scode_noW g₀) h0 y hy
              cases hT with
              | @writing c' d' p hp =>
                refine hns (hcross hn hz hji ?_)
                by_contra hc
                have := (hnw hc).1
                cases this
              | _ => cases hw
            rw [← k3]
            show alone (k g.mem) a.mem = alone (.peek k) a.mem
            rw [← hm]
            rfl
          · cases k1
        · exact ht i c' d h5
      · cases hA with
        | @inv m th c =>
          simp only [Option.toList_some] at *
          have hnew : th.length ∉ Q.map (·.1) := by
            intro hm
            obtain ⟨x, hx, hxe⟩ := List.mem_map.1 hm
            obtain ⟨o, hox⟩ := (hF.inv _ _).1 (ho.inv x hx)
            have := (List.getElem?_eq_some_iff.1 hox).1
            simp only at this
            omega
          refine ⟨Q, ho.doInv hnew, hr, ?_⟩
          intro n c' d hd
          rcases getElem?_snoc hd with hd | ⟨hnn, hcd⟩
          · exact ht n c' d hd
          · subst hnn
            cases hcd
            exact .inl ⟨hnew, fun _ => rfl, rfl⟩
        | @ret m th n c r hn =>
          simp only [Option.toList_some] at *
          have hother : ∀ (Q' : List (Nat × TCall I L × TReply I L)), (∀ x, x ∈ Q' ↔ x ∈ Q ∨ x = (n, c, r)) →
              ∀ (i : Nat) (c' : TCall I L) (d : TClient I L), (th.set n (c, none))[i]? = some (c', some d) →
                (i ∉ Q'.map (·.1) ∧ (c'.Single → d = scode N g₀ c') ∧ alone d m = alone (scode N g₀ c') m) ∨
                ∃ r, d = .ret r ∧ (i, c', r) ∈ Q' := by
            intro Q' hQ' i c' d hd
            rcases getElem?_set_cases hd with ⟨rfl, h5⟩ | ⟨hi, h5⟩
            · cases h5
            · rcases ht i c' d h5 with ⟨k1, k2⟩ | ⟨r', k1, k2⟩
              · refine .inl ⟨?_, k2⟩
                intro hm
                obtain ⟨x, hx, hxe⟩ := List.mem_map.1 hm
                rcases (hQ' x).1 hx with hx | rfl
                · exact k1 (List.mem_map.2 ⟨x, hx, hxe⟩)
                · exact hi hxe.symm
              · exact .inr ⟨r', k1, (hQ' _).2 (.inl k2)⟩
          rcases ht n c _ hn with ⟨k1, _, k3⟩ | ⟨r', k1, k2⟩
          · exact ⟨Q ++ [(n, c, r)], (ho.snoc ((hF.inv n c).2 ⟨_, hn⟩) k1).doRet (c := c) (by simp), hr.snoc k3.symm,
              hother _ (by simp)⟩
          · cases k1
            refine ⟨Q, ho.doRet k2, hr, hother _ ?_⟩
            intro x
            constructor
            · exact .inl
            · rintro (h | rfl)
              · exact h
              · exact k2
        | @call m th n c x k hn =>
          simp only [Option.toList_some, Option.toList_none, List.append_nil] at *
          have hinv := (hF.inv n c).2 ⟨_, hn⟩
          have hpath := hF.path n c _ hn
          have hfin := Final.path hpath (scode_final g₀ c)
          rcases ht n c _ hn with ⟨k1, k2, k3⟩ | ⟨r', k1, _⟩
          · rw [alone_call] at k3
            -- what the other calls see
            have hsame : ∀ (i : Nat) (c' : TCall I L) (d : TClient I L), i ≠ n → th[i]? = some (c', some d) → alone d m = alone (scode N g₀ c') m →
                (c'.Single → d = scode N g₀ c') → alone d (tsem m x).1 = alone (scode N g₀ c') (tsem m x).1 := by
              intro i c' d hi hci h1 h2
              by_cases hx : x.changes = true
              · have hch : c.Changes := by
                  cases hfin with
                  | call h _ => rw [hx] at h; cases h
                  | last h1 _ => exact h1
                rw [h2 (hcross hci hn (fun h => hi h.symm) hch)]
              · rw [tsem_keep m (by simpa using hx)]
                exact h1
            by_cases hret : ∃ r', k (tsem m x).2 = .ret r'
            · obtain ⟨r', hr'⟩ := hret
              rw [hr'] at k3
              refine ⟨Q ++ [(n, c, r')], ho.snoc hinv k1, hr.snoc k3.symm, ?_⟩
              intro i c' d hd
              rcases getElem?_set_cases hd with ⟨rfl, h5⟩ | ⟨hi, h5⟩
              · cases h5
                exact .inr ⟨r', hr', by simp⟩
              · rcases ht i c' d h5 with ⟨j1, j2, j3⟩ | ⟨r'', j1, j2⟩
                · refine .inl ⟨?_, j2, hsame i c' d hi h5 j3 j2⟩
                  rw [List.map_append, List.mem_append]
                  rintro (h | h)
                  · exact j1 h
                  · simp only [List.map_cons, List.map_nil, List.mem_cons, List.not_mem_nil, or_false] at h
                    exact hi h
                · exact .inr ⟨r'', j1, List.mem_append_left _ j2⟩
            · have hx : x.changes = false := by
                cases hfin with
                | call h _ => exact h
                | last _ h => exact absurd (h _) hret
              have hns : ¬ c.Single := fun h => hret (single_call h (k2 h).symm _)
              have hm := tsem_keep m hx
              rw [hm] at k3
              refine ⟨Q, ho, by rw [hm]; exact hr, ?_⟩
              intro i c' d hd
              rw [hm]
              rcases getElem?_set_cases hd with ⟨rfl, h5⟩ | ⟨hi, h5⟩
              · cases h5
                exact .inl ⟨k1, fun h => absurd h hns, k3⟩
              · exact ht i c' d h5
          · cases k1
        | peek _ _ => exact absurd ⟨rfl, rfl⟩ hxe
    · exact ⟨a, G, Q, by simpa using ha, hR', by simpa using ho, hr, by simpa using ht⟩

/-- the replies `rs`, if the code of the calls `cs` is executed, one call after the other -/
inductive CodeRun (N : Nat) (g₀ : GTree I L) : GTree I L → List (TCall I L) → List (TReply I L) → GTree I L → Prop
  | nil (m) : CodeRun N g₀ m [] [] m
  | cons {m m' m'' c cs r rs} : (tprog N g₀ c).exec m = (m', r) → CodeRun N g₀ m' cs rs m'' →
      CodeRun N g₀ m (c :: cs) (r :: rs) m''

theorem srun_code {g₀ m m' : GTree I L} {Q : List (Nat × TCall I L × TReply I L)}
    (h : SRuns (fun m c m' r => alone (scode N g₀ c) m = (m', r)) m Q m') :
    CodeRun N g₀ m (Q.map (·.2.1)) (Q.map (·.2.2)) m' := by
  induction h with
  | nil => exact .nil _
  | @cons m m' m'' n c r Q hc _ ih => exact .cons (by rw [← alone_scode]; exact hc) ih

/-- **C116** (tree16, tree32 and tree64, of every length, with any entries at the start, ids of any length): if
`ClaimRange` overlaps with no call, and the calls that are not one critical section with no call that changes the tree,
then the calls can be put in an order in which the same code, one call after the other, gives the same replies. -/
theorem C116_atomic {g₀ : GTree I L} {g : Cfg (TCall I L) (GTree I L) (TReply I L)} {H} (h : Exec (tprog N g₀) g₀ g H)
    (ha : Alone TCall.Loops H) (hs : ∀ n c, Ev.inv n c ∈ H → ¬ c.Single → ¬ Crossed TCall.Changes H n) :
    LinearizableBy (fun cs rs => ∃ m, CodeRun N g₀ g₀ cs rs m) H := by
  obtain ⟨g', h'⟩ := exec_sync h ha
  obtain ⟨a, _, Q, _, _, ho, hr, _⟩ := atomic_order h' hs
  refine ⟨Q, ho.nodup, ⟨a.mem, srun_code hr⟩, ho.inv, ho.ret, ho.order⟩

/-- a claim, an update and a `Get` of the same id of a tree64 overlap -/
example : ∃ g H, Exec (tprog 0 (newG tree64 Bool 4)) (newG tree64 Bool 4) g H ∧ Alone TCall.Loops H ∧
    (∀ n c, Ev.inv n c ∈ H → ¬ c.Single → ¬ Crossed TCall.Changes H n) ∧ g.Pending 0 ∧ g.Pending 1 ∧ g.Pending 2 := by
  have h := (((Exec.init (code := tprog 0 (newG tree64 Bool 4)) (m₀ := newG tree64 Bool 4)).step
    (.inv (.claim ⟨3, 64⟩ true))).step (.inv (.update ⟨3, 64⟩ false))).step (.inv (.get ⟨3, 64⟩))
  have hc : ∀ n c, Ev.inv n c ∈ ([.inv 0 (.claim ⟨3, 64⟩ true), .inv 1 (.update ⟨3, 64⟩ false), .inv 2 (.get ⟨3, 64⟩)] :
      List (Ev (TCall tree64 Bool) (TReply tree64 Bool))) → c.Single ∧ ¬ c.Loops := by
    intro n c hc
    simp only [List.mem_cons, Ev.inv.injEq, List.not_mem_nil, or_false] at hc
    rcases hc with ⟨_, rfl⟩ | ⟨_, rfl⟩ | ⟨_, rfl⟩ <;> exact ⟨trivial, fun h => h⟩
  refine ⟨_, _, h, ?_, fun n c h hs => absurd (hc n c h).1 hs, ⟨_, _, rfl, rfl⟩, ⟨_, _, rfl, rfl⟩, ⟨_, _, rfl, rfl⟩⟩
  intro n c h hs
  exact absurd hs (hc n c h).2

end Verif.Conc
