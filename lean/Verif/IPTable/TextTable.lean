import Verif.IPTable.TextProps
import Verif.IPTable.Props

/-!
Property C122: the texts of addresses, as the calls of the IP table take them.
-/

namespace Verif.IPTable
variable {R : Type} {lo hi : Addr}

/-- C122: for every valid address, of either family and with any zone, `ParseAddr` reads back what `String` writes. -/
theorem C122_text_round_trip {a : Addr} (h : a ≠ .zero) : parseAddr (addrString a) = some a := parse_string h

example : addrString (.v6 0x20010db8000000000000000000000001 "eth0") = "2001:db8::1%eth0" ∧
    addrString (.v6 0xffff0a000001 "") = "::ffff:10.0.0.1" ∧ addrString (.v6 0 "") = "::" ∧
    addrString (.v6 0x00010000000200000000000300000004 "") = "1:0:2::3:0:4" := by decide

/-- C122: different valid addresses have different texts. -/
theorem C122_text_injective {a b : Addr} (ha : a ≠ .zero) (hb : b ≠ .zero) (h : addrString a = addrString b) : a = b := by
  have e := parse_string ha
  rw [h, parse_string hb] at e
  injection e with e
  exact e.symm

/-- the four bytes of an IPv4 address in decimal, with points between them -/
def Dotted (a : BitVec 32) : String :=
  Nat.repr (a.toNat / 2 ^ 24) ++ "." ++ Nat.repr (a.toNat / 2 ^ 16 % 256) ++ "." ++ Nat.repr (a.toNat / 2 ^ 8 % 256) ++ "." ++
    Nat.repr (a.toNat % 256)

set_option maxRecDepth 10000 in
theorem fmtDec_digits10 : ∀ b < 256, fmtDec b = Nat.toDigits 10 b := by decide

theorem addrString_dotted (a : BitVec 32) : addrString (.v4 a) = Dotted a := by
  have ha := a.isLt
  show String.ofList (string4 a) = _
  unfold string4 Dotted
  rw [fmtDec_digits10 _ (byteOf_lt a 0), fmtDec_digits10 _ (byteOf_lt a 1), fmtDec_digits10 _ (byteOf_lt a 2), fmtDec_digits10 _ (byteOf_lt a 3)]
  apply String.toList_injective
  simp only [String.toList_append, String.toList_ofList, Nat.repr]
  have e0 : byteOf a 0 = a.toNat / 2 ^ 24 := by unfold byteOf; omega
  have e1 : byteOf a 1 = a.toNat / 2 ^ 16 % 256 := by unfold byteOf; omega
  have e2 : byteOf a 2 = a.toNat / 2 ^ 8 % 256 := by unfold byteOf; omega
  have e3 : byteOf a 3 = a.toNat % 256 := by unfold byteOf; omega
  rw [e0, e1, e2, e3, show ".".toList = ['.'] by decide]
  simp

/-- C122: a text is an IPv4 address only if it is its four bytes in decimal, without leading zeros, spaces or signs. -/
theorem C122_v4_text {x : String} {a : BitVec 32} : parseAddr x = some (.v4 a) ↔ x = Dotted a := by
  rw [← addrString_dotted]
  constructor
  · exact parse_v4_unique
  · rintro rfl
    exact parse_string (by simp)

example : Dotted 0x0a000102 = "10.0.1.2" ∧ parseAddr "10.0.01.2" = none ∧ parseAddr "10.0.258" = none ∧ parseAddr "10.0.1.256" = none ∧
    parseAddr "::ffff:10.0.1.2" = some (.v6 0xffff0a000102 "") := by decide

/-- C122, IPv4 tables of any range and any reachable state: every text other than the four bytes of an address of the range is
refused by `Get`, `Claim`, `Update` and `Release`, which leave the table as it is, and neither claimed nor free. -/
theorem C122_v4_table {f t : BitVec 32} {r : IPTab R} (h : Reach parseAddr (.v4 f) (.v4 t) r) {x : String}
    (hx : ∀ a : BitVec 32, f.toNat ≤ a.toNat → a.toNat ≤ t.toNat → x ≠ Dotted a) (d : R) :
    ((∃ e, (claim parseAddr r x d).2 = .error e) ∧ (claim parseAddr r x d).1 = r) ∧
    ((∃ e, (update parseAddr r x d).2 = .error e) ∧ (update parseAddr r x d).1 = r) ∧
    ((∃ e, (release parseAddr r x).2 = .error e) ∧ (release parseAddr r x).1 = r) ∧
    (∃ e, get parseAddr r x = .error e) ∧ has parseAddr r x = false ∧ isFree parseAddr r x = false := by
  refine C25_out_of_range_rejected h ?_ d
  intro a ha hin
  cases a with
  | v4 a => exact hx a hin.1 hin.2 (C122_v4_text.1 ha)
  | zero => exact hin
  | v6 a z => exact hin

/-- an address of the other family with the same bytes, and the address outside the range -/
example : ∀ a : BitVec 32, (0x0a000000#32).toNat ≤ a.toNat → a.toNat ≤ (0x0a000003#32).toNat → "::ffff:10.0.0.1" ≠ Dotted a := by
  intro a _ _ h
  have := C122_v4_text.2 h
  rw [show parseAddr "::ffff:10.0.0.1" = some (.v6 0xffff0a000001 "") by decide] at this
  cases this

/-- C122, tables of fewer than `2^64` addresses: the call that `FindFree` answers with an address, followed by `Claim` of its
text, succeeds; from then on the text is claimed, `Get` returns the route, and `Release` of the text frees the address. -/
theorem C122_findFree_claim (hs : SmallRange lo hi) {r : IPTab R} (h : Reach parseAddr lo hi r) {a : Addr} (hf : findFree r = .addr a) (d : R) :
    isFree parseAddr r (addrString a) = true ∧
    (claim parseAddr r (addrString a) d).2 = .ok () ∧
    get parseAddr (claim parseAddr r (addrString a) d).1 (addrString a) = .ok d ∧
    has parseAddr (claim parseAddr r (addrString a) d).1 (addrString a) = true ∧
    isFree parseAddr (claim parseAddr r (addrString a) d).1 (addrString a) = false ∧
    (release parseAddr (claim parseAddr r (addrString a) d).1 (addrString a)).2 = .ok () ∧
    isFree parseAddr (release parseAddr (claim parseAddr r (addrString a) d).1 (addrString a)).1 (addrString a) = true := by
  obtain ⟨m1, m2⟩ := mid_of_small hs
  obtain ⟨cs, rfl⟩ := h
  have hinv := (run_refines parseAddr (new lo hi : IPTab R) (new_inv m1) m2 cs).2
  generalize (run parseAddr (new lo hi : IPTab R) cs).1 = r at hinv hf ⊢
  obtain ⟨ha, _⟩ : LeastIP lo hi (absI r) a := by
    rcases findFree_spec hinv m2 with ⟨b, hb, he⟩ | ⟨_, e, he⟩
    · rw [hf] at he; injection he with he; rw [he]; exact hb
    · rw [hf] at he; cases he
  have hp : parseAddr (addrString a) = some a := parse_string (by rintro rfl; cases lo <;> cases hi <;> exact ha.1)
  have hfree : ∀ q : IPTab R, IInv lo hi q → ∀ b, (b = true ↔ AvailIP lo hi (absI q) a) → isFree parseAddr q (addrString a) = b := by
    intro q hq b hb
    obtain ⟨_, c, hc, he⟩ := (step_refines parseAddr q hq m2 (.isFree (addrString a))).1
    have he : isFree parseAddr q (addrString a) = c := by injection he
    have : c = true ↔ b = true := by
      rw [hc, hb]
      constructor
      · rintro ⟨a', g1, g2⟩; rw [hp] at g1; cases g1; exact g2
      · intro g; exact ⟨a, hp, g⟩
    rw [he]
    cases b <;> cases c <;> simp_all
  obtain ⟨h1, hq⟩ := step_refines parseAddr r hinv m2 (.claim (addrString a) d)
  change IInv lo hi (claim parseAddr r (addrString a) d).1 at hq
  have h1 : absI (claim parseAddr r (addrString a) d).1 = (absI r).put a d ∧ (claim parseAddr r (addrString a) d).2 = .ok () := by
    rcases h1 with ⟨a', g1, g2, g3, g4⟩ | ⟨g1, _⟩
    · rw [hp] at g1
      cases g1
      refine ⟨g3, ?_⟩
      have g4 : replyUnit (claim parseAddr r (addrString a) d).2 = (.ok : IReply R) := g4
      generalize (claim parseAddr r (addrString a) d).2 = o at g4 ⊢
      rcases o with e | ⟨⟩
      · cases g4
      · rfl
    · exact absurd ha (g1 a hp)
  refine ⟨hfree r hinv true (by simp [ha]), h1.2, ?_⟩
  replace h1 := h1.1
  generalize (claim parseAddr r (addrString a) d).1 = q at hq h1 ⊢
  have hin : InIP lo hi a := ha.1
  have hqa : absI q a = some d := by rw [h1]; simp [AMap.put]
  have hg : get parseAddr q (addrString a) = .ok d := by
    obtain ⟨_, g⟩ := (step_refines parseAddr q hq m2 (.get (addrString a))).1
    rcases g with ⟨a', d', g1, g2, g3⟩ | ⟨g1, _⟩
    · change (match get parseAddr q (addrString a) with | .ok d => .route d | .error _ => .err : IReply R) = _ at g3
      generalize get parseAddr q (addrString a) = o at g3 ⊢
      rw [hp] at g1
      cases g1
      rw [hqa] at g2
      cases g2
      cases o with
      | error e => cases g3
      | ok d'' => injection g3 with g3; rw [g3]
    · rw [g1 a hp] at hqa; cases hqa
  have hh : has parseAddr q (addrString a) = true := by
    obtain ⟨_, b, g, he⟩ := (step_refines parseAddr q hq m2 (.has (addrString a))).1
    have he : has parseAddr q (addrString a) = b := by injection he
    rw [he, g]
    exact ⟨a, hp, by rw [hqa]; simp⟩
  refine ⟨hg, hh, hfree q hq false (by simp [AvailIP, hqa]), ?_⟩
  obtain ⟨h2, hu⟩ := step_refines parseAddr q hq m2 (.release (addrString a))
  change IInv lo hi (release parseAddr q (addrString a)).1 at hu
  rcases h2 with ⟨a', g1, g2, g3, g4⟩ | ⟨g1, _⟩
  · rw [hp] at g1
    cases g1
    have g3 : absI (release parseAddr q (addrString a)).1 = (absI q).drop a := g3
    refine ⟨?_, hfree _ hu true (by rw [g3]; simp [AvailIP, hin, AMap.drop])⟩
    have g4 : replyUnit (release parseAddr q (addrString a)).2 = (.ok : IReply R) := g4
    generalize (release parseAddr q (addrString a)).2 = o at g4 ⊢
    rcases o with e | ⟨⟩
    · cases g4
    · rfl
  · exact absurd hin (g1 a hp)

/-- a table of the documentation prefix -/
example : SmallRange (.v6 0x20010db8000000000000000000000000 "") (.v6 0x20010db80000000000000000000000ff "") ∧
    ∃ a, findFree (new (.v6 0x20010db8000000000000000000000000 "") (.v6 0x20010db80000000000000000000000ff "") : IPTab R) = .addr a := by
  have hs : SmallRange (.v6 0x20010db8000000000000000000000000 "") (.v6 0x20010db80000000000000000000000ff "") := by
    unfold SmallRange; decide
  refine ⟨hs, ?_⟩
  obtain ⟨m1, m2⟩ := mid_of_small hs
  rcases findFree_spec (new_inv (R := R) m1) m2 with ⟨a, _, he⟩ | ⟨hn, _⟩
  · exact ⟨a, he⟩
  · exact absurd ⟨by unfold InIP; decide, by rw [abs_new]⟩ (hn (.v6 0x20010db8000000000000000000000001 ""))

end Verif.IPTable
