import Verif.Errs.TableProps
import Verif.IPTable.AliasProps

/-!
C110 for tables of IPv6 addresses of every size: which texts the calls fail with.
-/

namespace Verif.IPTable
open Verif.IdxTable (U64 Text PMap absMap numeral_num Sentence spells1' spells2')
open Verif.GTree (ascii)
variable {R : Type} {parse : String → Option Addr} {sh : Show} {f t : BitVec 128} {z z' : String}

theorem Reach.sinv (hle : f.toNat ≤ t.toNat) {r : IPTab R} (h : Reach parse (.v6 f z) (.v6 t z') r) : SInv f t r := by
  obtain ⟨cs, rfl⟩ := h
  have key : ∀ (cs : List (ICall R)) (r : IPTab R), SInv f t r → SInv f t (run parse r cs).1 := by
    intro cs
    induction cs with
    | nil => exact fun r h => h
    | cons c cs ih =>
      intro r h
      refine ih _ ?_
      cases c with
      | getAll | getByLabel _ | size | findFree => exact h
      | _ => exact (slot_step (parse := parse) h _ (fun hl => by cases hl)).2
  exact key cs _ (new_sinv hle)

/-- the slot is not open: the text is that of `validate` of the index table -/
theorem validateMsg_open {r : IPTab R} (h : SInv f t r) (k : U64) :
    (Open f t k ∧ IdxTable.validateMsg r.tab k = none) ∨
    (¬ Open f t k ∧ ∃ m c, IdxTable.validateMsg r.tab k = some m ∧ c.toNat + 1 = capNat f t ∧ IdxTable.Says m (.idBig k c)) := by
  have ho := open_iff h k
  have hz := h.size
  unfold IdxTable.validateMsg
  by_cases hk : k > r.tab.size - 1
  · right
    rw [if_pos hk]
    have h0 : r.tab.size ≠ 0 := by
      intro h0
      rw [h0] at hk
      revert hk
      bv_omega
    have h1 : ¬ k < r.tab.size := by bv_omega
    refine ⟨fun hn => (ho.1 hn).elim h0 h1, _, r.tab.size - 1, rfl, ?_, ?_⟩
    · rw [← hz]; bv_omega
    · exact spells2' (numeral_num _) (numeral_num _)
  · left
    rw [if_neg hk]
    refine ⟨ho.2 ?_, rfl⟩
    by_cases h0 : r.tab.size = 0
    · exact .inl h0
    · right; bv_omega

/-- **C110, partial** (IP table of the IPv6 addresses `f` to `t`, of any number; `s` are the routes by slot, as for
`C22_slots_exact_partial`) The error texts of all calls for what is not an address of the range contain the text that was passed,
and so do those of `Update`, and that of `Claim` for an address whose slot is taken. The others name the slot: for an open
slot, which only `Get` fails for, as not found, for all others as bigger than allowed. -/
theorem C110_ip_slots_partial (hle : f.toNat ≤ t.toNat) {r : IPTab R} (h : Reach parse (.v6 f z) (.v6 t z') r) :
    ∃ s : PMap R, (∀ x d, (step parse r (.get x)).2 = .route d ↔ ∃ k, SlotOf parse f t x k ∧ s k = some d) ∧
    ∀ (x : String) (m : Text),
    ((∀ k, ¬ SlotOf parse f t x k) → getTxt parse sh r x = some m ∨ claimTxt parse sh r x = some m ∨
      releaseTxt parse sh r x = some m ∨ updateTxt parse sh r x = some m → Contains m (bytes x)) ∧
    (updateTxt parse sh r x = some m → Contains m (bytes x)) ∧
    ∀ k, SlotOf parse f t x k →
      (claimTxt parse sh r x = some m → (s k ≠ none ∧ Contains m (bytes x)) ∨
        (s k = none ∧ ¬ Open f t k ∧ ∃ c : U64, c.toNat + 1 = capNat f t ∧ IdxTable.Says m (.idBig k c))) ∧
      (releaseTxt parse sh r x = some m → ¬ Open f t k ∧ ∃ c : U64, c.toNat + 1 = capNat f t ∧ IdxTable.Says m (.idBig k c)) ∧
      (getTxt parse sh r x = some m → s k = none ∧
        ((Open f t k ∧ IdxTable.Says m (.notFound k)) ∨
         (¬ Open f t k ∧ ∃ c : U64, c.toNat + 1 = capNat f t ∧ IdxTable.Says m (.idBig k c)))) := by
  have hi := h.sinv hle
  have hv : ∀ {x : String} {k : U64}, SlotOf parse f t x k → validateIPMsg parse sh r x = none ∧ indexOf parse r x = k := by
    intro x k hk
    obtain ⟨ip, h1, h2⟩ := (slot_iff (parse := parse) hi x k).1 hk
    rcases validateIPMsg_cases parse sh r x with ⟨m, e, _, h3⟩ | ⟨a, ha, h3, h4⟩
    · rw [h1] at h3; cases h3
    · rw [h1] at h4
      injection h4 with h4
      refine ⟨h3, ?_⟩
      unfold indexOf
      rw [ha, ← h2, h4]; rfl
  have hstored : ∀ {k : U64}, absMap r.tab k = none ↔ r.tab.m.get? k = none := by
    intro k; unfold absMap; exact Option.map_eq_none_iff
  have hopen : ∀ {k : U64}, absMap r.tab k ≠ none → Open f t k := by
    intro k hk
    rw [open_iff hi]
    rcases hi.tab with ⟨_, h1⟩ | h1
    · right
      cases he : r.tab.m.get? k with
      | none => exact absurd (hstored.2 he) hk
      | some e => exact (h1.2 k e he).2
    · exact .inl h1.size
  have hno : ∀ {x : String} {m : Text}, (∀ k, ¬ SlotOf parse f t x k) → getTxt parse sh r x = some m ∨ claimTxt parse sh r x = some m ∨
      releaseTxt parse sh r x = some m ∨ updateTxt parse sh r x = some m → Contains m (bytes x) := by
    intro x m hx hm
    have hx' : ∀ a, parse x = some a → ¬ InIP (.v6 f z) (.v6 t z') a := by
      intro a ha hin
      match a, hin with
      | .v6 a w, ⟨h1, h2, h3⟩ =>
        subst h3
        exact hx (BitVec.ofNat 64 (a.toNat - f.toNat)) ⟨a, ha, h1, h2, by rw [BitVec.toNat_ofNat]⟩
    have hr : r.ipRange = ipRangeFrom (.v6 f z) (.v6 t z') := hi.rng
    obtain ⟨m', t0, t1, t2, t3, t4⟩ := txt_out (sh := sh) hr hx'
    have hc := (validateIPMsg_true hr (fun _ => none) t0).1
    rcases hm with hm | hm | hm | hm
    · rw [t1] at hm; cases hm; exact hc
    · rw [t2] at hm; cases hm; exact hc
    · rw [t3] at hm; cases hm; exact hc
    · rw [t4] at hm; cases hm; exact hc
  have hupd : ∀ {x : String} {m : Text} {k : U64}, SlotOf parse f t x k → updateTxt parse sh r x = some m → Contains m (bytes x) := by
    intro x m k hk hm
    obtain ⟨v1, v2⟩ := hv hk
    unfold updateTxt at hm
    rw [v1, v2] at hm
    dsimp only at hm
    split at hm
    · cases hm; exact ⟨_, _, rfl⟩
    · rename_i hf
      have hs : absMap r.tab k ≠ none := by
        intro hn
        rw [hstored] at hn
        exact hf (by unfold IdxTable.isFree IdxTable.isFreeB; rw [hn]; rfl)
      rcases validateMsg_open hi k with ⟨_, h2⟩ | ⟨h1, _⟩
      · unfold IdxTable.updateMsg at hm
        rw [h2] at hm
        exact absurd hm (by show (if _ then _ else _) ≠ _; unfold IdxTable.isFree at hf; simp [hf])
      · exact absurd (hopen hs) h1
  refine ⟨absMap r.tab, fun x d => ⟨fun hg => ?_, fun ⟨k, h1, h2⟩ => get_slot hi h1 h2⟩, fun x m => ⟨hno, fun hm => ?_, fun k hk => ⟨fun hm => ?_, fun hm => ?_, fun hm => ?_⟩⟩⟩
  · rcases (slot_step (parse := parse) hi (.get x) (fun hl => by cases hl)).1.2 with ⟨k, e, h1, h2, h3⟩ | ⟨_, h3⟩
    · rw [h3] at hg; injection hg with hg; exact ⟨k, h1, by rw [h2, hg]⟩
    · rw [h3] at hg; cases hg
  · by_cases hx : ∃ k, SlotOf parse f t x k
    · obtain ⟨k, hk⟩ := hx; exact hupd hk hm
    · exact hno (fun k hk => hx ⟨k, hk⟩) (.inr (.inr (.inr hm)))
  · obtain ⟨v1, v2⟩ := hv hk
    unfold claimTxt at hm
    rw [v1, v2] at hm
    dsimp only at hm
    split at hm
    · rename_i hf
      cases hm
      refine .inl ⟨fun hn => ?_, _, _, rfl⟩
      rw [hstored] at hn
      unfold IdxTable.isFree IdxTable.isFreeB at hf
      rw [hn] at hf
      cases hf
    · rename_i hf
      right
      have hs : absMap r.tab k = none := by
        rw [hstored]
        unfold IdxTable.isFree IdxTable.isFreeB at hf
        cases he : r.tab.m.get? k with
        | none => rfl
        | some e => rw [he] at hf; exact absurd rfl hf
      unfold IdxTable.addMsg at hm
      rcases validateMsg_open hi k with ⟨_, h2⟩ | ⟨h1, m', c, h2, h3, h4⟩
      · rw [h2] at hm
        exact absurd hm (by show (if _ then _ else _) ≠ _; unfold IdxTable.isFree at hf; simp [hf])
      · rw [h2] at hm
        cases hm
        exact ⟨hs, h1, c, h3, h4⟩
  · obtain ⟨v1, v2⟩ := hv hk
    unfold releaseTxt IdxTable.releaseMsg at hm
    rw [v1, v2] at hm
    dsimp only at hm
    rcases validateMsg_open hi k with ⟨_, h2⟩ | ⟨h1, m', c, h2, h3, h4⟩
    · rw [h2] at hm; cases hm
    · rw [h2] at hm; cases hm; exact ⟨h1, c, h3, h4⟩
  · obtain ⟨v1, v2⟩ := hv hk
    unfold getTxt IdxTable.getMsg at hm
    rw [v1, v2] at hm
    dsimp only at hm
    rcases validateMsg_open hi k with ⟨h0, h2⟩ | ⟨h1, m', c, h2, h3, h4⟩
    · rw [h2] at hm
      dsimp only at hm
      split at hm
      · rename_i hn
        cases hm
        exact ⟨hstored.2 hn, .inl ⟨h0, spells1' (numeral_num _)⟩⟩
      · cases hm
    · rw [h2] at hm; cases hm
      refine ⟨?_, .inr ⟨h1, c, h3, h4⟩⟩
      by_cases hs : absMap r.tab k = none
      · exact hs
      · exact absurd (hopen hs) h1

/-- the parser of the example -/
def bigParse (s : String) : Option Addr :=
  if s = "FE80::7" then some (.v6 0xfe800000000000000000000000000007#128 "") else none

/-- **C110, violated** (`fe80::` to `fe80::1:0:0:0:4`, nothing claimed) `Get("FE80::7")`, `Claim("FE80::7")` and
`Release("FE80::7")` fail with `id 7 is bigger then max allowed entries: 4`. -/
theorem C110_ip_slots_violated (r : IPTab R)
    (hr : r = new (.v6 0xfe800000000000000000000000000000#128 "") (.v6 0xfe800000000000010000000000000004#128 "")) :
    ∃ m, m = ascii "id " ++ IdxTable.num 7 ++ ascii " is bigger then max allowed entries: " ++ IdxTable.num 4 ∧
    getTxt bigParse sh r "FE80::7" = some m ∧ claimTxt bigParse sh r "FE80::7" = some m ∧
    releaseTxt bigParse sh r "FE80::7" = some m ∧ ¬ Contains m (bytes "FE80::7") := by
  subst hr
  have h1 : ∀ r' : IPTab R, r' = new (.v6 0xfe800000000000000000000000000000#128 "") (.v6 0xfe800000000000010000000000000004#128 "") →
      validateIPMsg bigParse sh r' "FE80::7" = none ∧ indexOf bigParse r' "FE80::7" = 7 ∧ r'.tab = ⟨5, .empty⟩ := by
    rintro _ rfl
    exact ⟨rfl, rfl, rfl⟩
  obtain ⟨v1, v2, v3⟩ := h1 _ rfl
  have v4 : IdxTable.validateMsg (⟨5, .empty⟩ : IdxTable.Table R) 7 =
    some (ascii "id " ++ IdxTable.num 7 ++ ascii " is bigger then max allowed entries: " ++ IdxTable.num 4) := by
    unfold IdxTable.validateMsg
    rw [if_pos (show (7 : U64) > 5 - 1 by decide), show (5 : U64) - 1 = 4 by decide]
  refine ⟨_, rfl, ?_, ?_, ?_, ?_⟩
  · unfold getTxt IdxTable.getMsg
    rw [v1, v2, v3, v4]
  · unfold claimTxt IdxTable.addMsg
    rw [v1, v2, v3, v4]
    rfl
  · unfold releaseTxt IdxTable.releaseMsg
    rw [v1, v2, v3, v4]
  rintro ⟨p, u, he⟩
  have hF : (70 : UInt8) ∈ ascii "id " ++ IdxTable.num 7 ++ ascii " is bigger then max allowed entries: " ++ IdxTable.num 4 := by
    rw [he]
    exact List.mem_append_left _ (List.mem_append_right _ (by decide))
  have hd : ∀ n : U64, (70 : UInt8) ∉ IdxTable.num n := by
    intro n h
    have := IdxTable.numeral_digits (numeral_num n) _ h
    revert this
    unfold IdxTable.IsDigit
    decide
  rcases List.mem_append.1 hF with h | h
  · rcases List.mem_append.1 h with h | h
    · rcases List.mem_append.1 h with h | h
      · revert h; decide
      · exact hd 7 h
    · revert h; decide
  · exact hd 4 h

-- the hypotheses of `C110_ip_slots_partial`
example : SlotOf bigParse 0xfe800000000000000000000000000000#128 0xfe800000000000010000000000000004#128 "FE80::7" 7 ∧
    ¬ Open 0xfe800000000000000000000000000000#128 0xfe800000000000010000000000000004#128 7 := by
  refine ⟨⟨_, rfl, by decide, by decide, by decide⟩, ?_⟩
  unfold Open capNat
  decide

end Verif.IPTable
