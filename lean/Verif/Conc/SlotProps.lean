import Verif.Conc.Props
import Verif.IPTable.AliasProps

/-!
C61 for the IP table of IPv6 addresses of any number: claims of a slot exclude each other.
-/

namespace Verif.Conc
open Verif.IdxTable (U64 Table Call Reply)
open Verif.IPTable
variable {R : Type} {parse : String → Option Addr} {f t : BitVec 128} {z z' : String}

/-- the call `c` with the reply `r` has claimed an address of slot `k` -/
def SClaims (parse : String → Option Addr) (f t : BitVec 128) (k : U64) : ICall R → IReply R → Prop
  | .claim x _, r => SlotOf parse f t x k ∧ r = .ok
  | _, _ => False

/-- the call `c` with the reply `r` has released an address of slot `k` -/
def SReleases (parse : String → Option Addr) (f t : BitVec 128) (k : U64) : ICall R → IReply R → Prop
  | .release x, r => SlotOf parse f t x k ∧ r = .ok
  | _, _ => False

theorem path_sclaims (hle : f.toNat ≤ t.toNat) {c : ICall R} {k : U64} {G : List (Call R × Reply R)} {y : IReply R}
    (h : (icode parse (new (.v6 f z) (.v6 t z')) c).Path G (.ret y)) (hc : SClaims parse f t k c y) :
    ∃ e, (Call.claim k e, Reply.ok) ∈ G := by
  cases c with
  | claim x d =>
    obtain ⟨hk, rfl⟩ := hc
    obtain ⟨ip, h1, h2⟩ := (slot_iff (parse := parse) (new_sinv (R := R) (z := z) (z' := z') hle) x k).1 hk
    have hp : parse x = some ip := by
      unfold validateIP at h1
      split at h1
      · cases h1
      · next he => split at h1 <;> cases h1; exact he
    obtain ⟨_, e, he⟩ := path_iclaims h (a := ip) ⟨hp, rfl⟩
    exact ⟨e, by rw [← h2]; exact he⟩
  | _ => cases hc

theorem path_sreleases (hle : f.toNat ≤ t.toNat) {k : U64} {c : ICall R} {G : List (Call R × Reply R)} {d : IClient R} {x : Call R}
    {y : Reply R} (h : (icode parse (new (.v6 f z) (.v6 t z')) c).Path G d) (hx : (x, y) ∈ G) (hr : Releases k x y) :
    (∃ r', SReleases parse f t k c r') ∧ ∀ r', d = .ret r' → SReleases parse f t k c r' := by
  by_cases hc : ∃ z, c = .release z
  · obtain ⟨w, rfl⟩ := hc
    simp only [icode] at h
    cases hv : validateIP parse (new (.v6 f z) (.v6 t z') : IPTab R) w with
    | error e =>
      rw [hv] at h
      obtain ⟨rfl, _⟩ := path_ret h
      cases hx
    | ok b =>
      rw [hv] at h
      rcases path_call' h with ⟨rfl, _⟩ | ⟨r1, G1, rfl, h1⟩
      · cases hx
      · have hG1 : G1 = [] := by
          try simp only at h1
          split at h1 <;> exact (path_ret h1).1
        subst hG1
        simp only [List.mem_cons, List.not_mem_nil, or_false] at hx
        injection hx with hx1 hx2
        subst hx1 hx2
        obtain ⟨hi, rfl⟩ := hr
        have hk : SlotOf parse f t w k :=
          (slot_iff (parse := parse) (new_sinv (R := R) (z := z) (z' := z') hle) w k).2 ⟨b, hv, hi⟩
        refine ⟨⟨.ok, hk, rfl⟩, ?_⟩
        intro r' hr'
        subst hr'
        have := (path_ret h1).2
        cases this
        exact ⟨hk, rfl⟩
  · have hu : (icode parse (new (.v6 f z) (.v6 t z') : IPTab R) c).Uses NoRelease True := by
      refine uses_icode _ c _ _ ?_ ?_ ?_ ?_ ?_ ?_ ?_ (fun h => absurd h hc) ?_ ?_
      all_goals first | (intros; intro i h; cases h; done) | skip
      exact fun _ => ⟨fun i h => (by cases h), trivial⟩
    have := Client.Uses.path h hu _ hx
    cases x with
    | release i => exact absurd rfl (this i)
    | _ => cases hr

/-- C61 for the IP table of the IPv6 addresses `f` to `t`, of any number: two calls that claimed addresses of the same
slot have a release of an address of this slot between them. Missing: that this is a release of the same address
(`C61_ip_exclusive_violated`). -/
theorem C61_ip_slots_partial (hle : f.toNat ≤ t.toNat) {g : Cfg (ICall R) (Table R) (IReply R)} {H}
    (h : Exec (iprog parse (.v6 f z) (.v6 t z')) (new (.v6 f z) (.v6 t z') : IPTab R).tab g H) {n n' : Nat} (hn : n ≠ n')
    {c c' : ICall R} {r r' : IReply R}
    (hi : Ev.inv n c ∈ H) (hr : Ev.ret n r ∈ H) (hi' : Ev.inv n' c' ∈ H) (hr' : Ev.ret n' r' ∈ H)
    {k : U64} (hc : SClaims parse f t k c r) (hc' : SClaims parse f t k c' r') :
    OnlyAfterRelease H (SReleases parse f t k) n n' := by
  obtain ⟨b, G, hb, _⟩ := sim sections h
  obtain ⟨e, he⟩ := path_sclaims hle (hb.facts.returned hi hr) hc
  obtain ⟨e', he'⟩ := path_sclaims hle (hb.facts.returned hi' hr') hc'
  refine only_after_release (x := (_, .ok)) (z := (_, .ok)) hb ?_ hn he he' ⟨rfl, rfl⟩ ⟨rfl, rfl⟩
  intro c l d x r hp hx hrel
  exact path_sreleases hle hp hx hrel

-- the claims of `C61_ip_exclusive_violated`: `::1:0:0:0:0` has the same slot as `::`
example : SClaims exParse 0 0x20000000000000000#128 0 (.claim "::" "a") (.ok : IReply String) ∧
    SReleases exParse 0 0x20000000000000000#128 0 (.release "::1:0:0:0:0") (.ok : IReply String) :=
  ⟨⟨⟨0, rfl, by decide, by decide, by decide⟩, rfl⟩, ⟨⟨_, rfl, by decide, by decide, by decide⟩, rfl⟩⟩

end Verif.Conc
