import Verif.GTree.AliasProps
import Verif.IPTable.SlotProps

/-!
Property C84 for the IP table: the labels of a route are the map of the caller, not a copy. Routes are an arbitrary type with
a reference to a map of labels; the memory may change between the calls.
-/

namespace Verif.IPTable
open Verif.IdxTable (U64 PMap absMap)
open Verif.GTree (Ref write)
variable {R V : Type} {parse : String → Option Addr} {lo hi : Addr} {f t : BitVec 128} {z z' : String}

/-- the labels that a client sees under an address: those in the memory `h` of the route that `Get` returns -/
def labelsOf (parse : String → Option Addr) (h : Ref → V) (lab : R → Ref) (r : IPTab R) (x : String) : Option V :=
  match step parse r (.get x) with
  | (_, .route d) => some (h (lab d))
  | _ => none

theorem labelsOf_route {h : Ref → V} {lab : R → Ref} {r : IPTab R} {x : String} {d : R}
    (hd : (step parse r (.get x)).2 = .route d) : labelsOf parse h lab r x = some (h (lab d)) := by
  unfold labelsOf
  split
  · next _ d' he => rw [he] at hd; injection hd with hd; rw [hd]
  · next hne => exact (hne _ d (Prod.ext rfl hd)).elim

/-- the call may replace or remove the route of an address that `T` tells to be the one -/
def Alters (T : String → Prop) : ICall R → Prop
  | .release x => T x
  | .update x _ => T x
  | _ => False

/-- from the specification, for ranges of at most `2^64` addresses -/
theorem get_mid {r : IPTab R} (h : IInv lo hi r) {x : String} {a : Addr} {d : R} (hp : parse x = some a) (hd : absI r a = some d) :
    (step parse r (.get x)).2 = .route d := by
  obtain ⟨⟨_, h1⟩, _⟩ := step_refines_explicit parse r h (.get x) (by simp [Explicit])
  rcases h1 with ⟨b, e, h2, h3, h4⟩ | ⟨h2, _⟩
  · rw [hp] at h2
    injection h2 with h2
    rw [← h2, hd] at h3
    injection h3 with h3
    rw [h4, h3]
  · rw [h2 a hp] at hd; cases hd

theorem keeps_mid {r : IPTab R} (h : IInv lo hi r) {a : Addr} {d : R} (hd : absI r a = some d) (c : ICall R)
    (ha : ¬ Alters (fun y => parse y = some a) c) :
    absI (step parse r c).1 a = some d ∧ IInv lo hi (step parse r c).1 := by
  cases c with
  | claim y e =>
    obtain ⟨h1, h2⟩ := step_refines_explicit parse r h (.claim y e) (by simp [Explicit])
    refine ⟨?_, h2⟩
    rcases h1 with ⟨b, _, h3, h4, _⟩ | ⟨_, h4, _⟩
    · rw [h4]; unfold AMap.put
      split
      · next he => rw [he, h3.2] at hd; cases hd
      · exact hd
    · rw [h4]; exact hd
  | release y =>
    obtain ⟨h1, h2⟩ := step_refines_explicit parse r h (.release y) (by simp [Explicit])
    refine ⟨?_, h2⟩
    rcases h1 with ⟨b, h3, _, h4, _⟩ | ⟨_, h4, _⟩
    · rw [h4]; unfold AMap.drop
      rw [if_neg]
      · exact hd
      · rintro rfl; exact ha h3
    · rw [h4]; exact hd
  | update y e =>
    obtain ⟨h1, h2⟩ := step_refines_explicit parse r h (.update y e) (by simp [Explicit])
    refine ⟨?_, h2⟩
    rcases h1 with ⟨b, h3, _, h4, _⟩ | ⟨_, h4, _⟩
    · rw [h4]; unfold AMap.put
      rw [if_neg]
      · exact hd
      · rintro rfl; exact ha h3
    · rw [h4]; exact hd
  | _ => exact ⟨hd, h⟩

/-- from the specification, for IPv6 ranges of any size -/
theorem get_slot {r : IPTab R} (h : SInv f t r) {x : String} {i : U64} {d : R} (hx : SlotOf parse f t x i) (hd : absMap r.tab i = some d) :
    (step parse r (.get x)).2 = .route d := by
  obtain ⟨⟨_, h1⟩, _⟩ := slot_step (parse := parse) h (.get x) (fun hl => by cases hl)
  rcases h1 with ⟨j, e, h2, h3, h4⟩ | ⟨h2, _⟩
  · have : j = i := by
      obtain ⟨a, p1, _, _, p2⟩ := h2
      obtain ⟨b, q1, _, _, q2⟩ := hx
      rw [p1] at q1
      injection q1 with q1
      injection q1 with q1
      subst q1
      exact BitVec.eq_of_toNat_eq (p2.trans q2.symm)
    rw [this, hd] at h3
    injection h3 with h3
    rw [h4, h3]
  · rw [h2 i hx] at hd; cases hd

theorem keeps_slot {r : IPTab R} (h : SInv f t r) {i : U64} {d : R} (hd : absMap r.tab i = some d) (c : ICall R)
    (ha : ¬ Alters (fun y => SlotOf parse f t y i) c) :
    absMap (step parse r c).1.tab i = some d ∧ SInv f t (step parse r c).1 := by
  cases c with
  | claim y e =>
    obtain ⟨h1, h2⟩ := slot_step (parse := parse) h (.claim y e) (fun hl => by cases hl)
    refine ⟨?_, h2⟩
    rcases h1 with ⟨b, _, h3, h4, _⟩ | ⟨_, h4, _⟩
    · rw [h4]; unfold PMap.put
      split
      · next he =>
        have he : i = b := by simpa using he
        rw [he, h3.2] at hd; cases hd
      · exact hd
    · rw [h4]; exact hd
  | release y =>
    obtain ⟨h1, h2⟩ := slot_step (parse := parse) h (.release y) (fun hl => by cases hl)
    refine ⟨?_, h2⟩
    rcases h1 with ⟨b, h3, _, h4, _⟩ | ⟨_, h4, _⟩
    · rw [h4]; unfold PMap.drop
      rw [if_neg]
      · exact hd
      · rintro rfl; exact ha h3
    · rw [h4]; exact hd
  | update y e =>
    obtain ⟨h1, h2⟩ := slot_step (parse := parse) h (.update y e) (fun hl => by cases hl)
    refine ⟨?_, h2⟩
    rcases h1 with ⟨b, h3, _, h4, _⟩ | ⟨_, h4, _⟩
    · rw [h4]; unfold PMap.put
      rw [if_neg]
      · exact hd
      · intro he
        have he : i = b := by simpa using he
        rw [he] at ha
        exact ha h3
    · rw [h4]; exact hd
  | _ => exact ⟨hd, h⟩

/-- `lo`-`hi` is a range of IPv4 addresses or of IPv6 addresses, of any size -/
def AnyRange : Addr → Addr → Prop
  | .v4 f, .v4 t => f.toNat ≤ t.toNat
  | .v6 f _, .v6 t _ => f.toNat ≤ t.toNat
  | _, _ => False

/-- two texts name the same route of the table `lo`-`hi`: their addresses have the same offset modulo `2^64`. For IPv4, and
for IPv6 ranges of at most `2^64` addresses, they are the same address. -/
def SameSlot (parse : String → Option Addr) (lo : Addr) (x y : String) : Prop :=
  ∃ a b, parse x = some a ∧ parse y = some b ∧ (num a - num lo) % 2 ^ 64 = (num b - num lo) % 2 ^ 64

/-- after a claim or an update that succeeds: the route is there, and stays until a call alters it -/
theorem stays (hs : AnyRange lo hi) {r : IPTab R} (hr : Reach parse lo hi r) {x : String} {d : R} {c : ICall R}
    (hc : c = .claim x d ∨ c = .update x d) (hok : (step parse r c).2 = .ok) (cs : List (ICall R))
    (ha : ∀ c ∈ cs, ¬ Alters (SameSlot parse lo x) c) :
    (step parse (run parse (step parse r c).1 cs).1 (.get x)).2 = .route d := by
  obtain ⟨ds, rfl⟩ := hr
  match lo, hi, hs with
  | .v4 f, .v4 t, hs =>
    have hi0 : ∀ (ds : List (ICall R)) (r : IPTab R), IInv (.v4 f) (.v4 t) r → IInv (.v4 f) (.v4 t) (run parse r ds).1 := by
      intro ds r h
      exact (run_refines parse r h (mid_of_small (lo := .v4 f) (hi := .v4 t) hs).2 ds).2
    have h0 := hi0 ds _ (new_inv (R := R) (lo := .v4 f) (hi := .v4 t) hs)
    obtain ⟨h1, h2⟩ := step_refines parse _ h0 (mid_of_small (lo := .v4 f) (hi := .v4 t) hs).2 c
    have key : ∃ a, parse x = some a ∧ absI (step parse (run parse (new (.v4 f) (.v4 t)) ds).1 c).1 a = some d := by
      rcases hc with rfl | rfl
      · rcases h1 with ⟨a, e1, _, e2, _⟩ | ⟨_, _, e⟩
        · exact ⟨a, e1, by rw [e2]; simp [AMap.put]⟩
        · rw [e] at hok; cases hok
      · rcases h1 with ⟨a, e1, _, e2, _⟩ | ⟨_, _, e⟩
        · exact ⟨a, e1, by rw [e2]; simp [AMap.put]⟩
        · rw [e] at hok; cases hok
    obtain ⟨a, hp, hd⟩ := key
    have hrun : ∀ (cs : List (ICall R)) (r : IPTab R), IInv (.v4 f) (.v4 t) r → absI r a = some d →
        (∀ c ∈ cs, ¬ Alters (SameSlot parse (.v4 f) x) c) →
        IInv (.v4 f) (.v4 t) (run parse r cs).1 ∧ absI (run parse r cs).1 a = some d := by
      intro cs
      induction cs with
      | nil => intro r h1 h2 _; exact ⟨h1, h2⟩
      | cons c cs ih =>
        intro r h1 h2 h3
        obtain ⟨k1, k2⟩ := keeps_mid (parse := parse) h1 h2 c (fun hal => h3 c (by simp) (by
          cases c with
          | release y => exact ⟨a, a, hp, hal, rfl⟩
          | update y e => exact ⟨a, a, hp, hal, rfl⟩
          | _ => exact hal))
        exact ih _ k2 k1 (fun c hc => h3 c (by simp [hc]))
    obtain ⟨k1, k2⟩ := hrun cs _ h2 hd ha
    exact get_mid k1 hp k2
  | .v6 f w, .v6 t w', hs =>
    have h0 : SInv f t (run parse (new (.v6 f w) (.v6 t w') : IPTab R) ds).1 := by
      have : ∀ (ds : List (ICall R)) (r : IPTab R), SInv f t r → SInv f t (run parse r ds).1 := by
        intro ds
        induction ds with
        | nil => intro r h; exact h
        | cons c ds ih =>
          intro r h
          refine ih _ ?_
          cases c with
          | getAll => exact h
          | getByLabel _ => exact h
          | size => exact h
          | findFree => exact h
          | _ => exact (slot_step (parse := parse) h _ (fun hl => by cases hl)).2
      exact this ds _ (new_sinv hs)
    have h1 := slot_step (parse := parse) h0 c (fun hl => by rcases hc with rfl | rfl <;> cases hl)
    have key : ∃ i, SlotOf parse f t x i ∧ absMap (step parse (run parse (new (.v6 f w) (.v6 t w')) ds).1 c).1.tab i = some d := by
      rcases hc with rfl | rfl
      · rcases h1.1 with ⟨i, e1, _, e2, _⟩ | ⟨_, _, e⟩
        · exact ⟨i, e1, by rw [e2]; simp [PMap.put]⟩
        · rw [e] at hok; cases hok
      · rcases h1.1 with ⟨i, e1, _, e2, _⟩ | ⟨_, _, e⟩
        · exact ⟨i, e1, by rw [e2]; simp [PMap.put]⟩
        · rw [e] at hok; cases hok
    obtain ⟨i, hp, hd⟩ := key
    have hsame : ∀ y, SlotOf parse f t y i → SameSlot parse (.v6 f w) x y := by
      rintro y ⟨b, q1, _, _, q2⟩
      obtain ⟨a, p1, _, _, p2⟩ := hp
      exact ⟨_, _, p1, q1, by show (a.toNat - f.toNat) % 2 ^ 64 = (b.toNat - f.toNat) % 2 ^ 64; rw [← p2, ← q2]⟩
    have hrun : ∀ (cs : List (ICall R)) (r : IPTab R), SInv f t r → absMap r.tab i = some d →
        (∀ c ∈ cs, ¬ Alters (SameSlot parse (.v6 f w) x) c) →
        SInv f t (run parse r cs).1 ∧ absMap (run parse r cs).1.tab i = some d := by
      intro cs
      induction cs with
      | nil => intro r h1 h2 _; exact ⟨h1, h2⟩
      | cons c cs ih =>
        intro r h1 h2 h3
        obtain ⟨k1, k2⟩ := keeps_slot (parse := parse) h1 h2 c (fun hal => h3 c (by simp) (by
          cases c with
          | release y => exact hsame y hal
          | update y e => exact hsame y hal
          | _ => exact hal))
        exact ih _ k2 k1 (fun c hc => h3 c (by simp [hc]))
    obtain ⟨k1, k2⟩ := hrun cs _ h1.2 hd ha
    exact get_slot k1 hp k2

/-- **C84, violated** (IP table; every range and state) After a successful `Claim` or `Update` with a route that has the
map `m`, changing this map changes the labels that `Get` reports. -/
theorem C84_ip_violated (hs : AnyRange lo hi) {r : IPTab R} (hr : Reach parse lo hi r) (h : Ref → V) (lab : R → Ref)
    (x : String) (d : R) (c : ICall R) (hc : c = .claim x d ∨ c = .update x d) (hok : (step parse r c).2 = .ok) :
    labelsOf parse h lab (step parse r c).1 x = some (h (lab d)) ∧
    ∀ v, labelsOf parse (write h (lab d) v) lab (step parse r c).1 x = some v := by
  have h1 : (step parse (step parse r c).1 (.get x)).2 = .route d := stays hs hr hc hok [] (by simp)
  refine ⟨labelsOf_route h1, fun v => ?_⟩
  rw [labelsOf_route h1]
  simp [write]

/-- **C84, partial** (IP table; every range and state) After a successful `Claim` or `Update` the labels are those of the map
of the route passed, until an address of the same slot is released or updated; so they do not change if the program does not
change this map. -/
theorem C84_ip_partial (hs : AnyRange lo hi) {r : IPTab R} (hr : Reach parse lo hi r) (h h' : Ref → V) (lab : R → Ref)
    (x : String) (d : R) (c : ICall R) (hc : c = .claim x d ∨ c = .update x d) (hok : (step parse r c).2 = .ok)
    (cs : List (ICall R)) (ha : ∀ c ∈ cs, ¬ Alters (SameSlot parse lo x) c) (hm : h' (lab d) = h (lab d)) :
    labelsOf parse h' lab (run parse (step parse r c).1 cs).1 x = some (h (lab d)) := by
  rw [labelsOf_route (stays hs hr hc hok cs ha), hm]

-- claim 10.0.0.1 with the map 7, look around and claim another, then change the map
example : (step exParse (new (.v4 0x0a000000) (.v4 0x0a000003) : IPTab Ref) (.claim "10.0.0.1" 7)).2 = .ok ∧
    (∀ c ∈ ([.getAll, .claim "10.0.0.0" 8, .release "10.0.0.0"] : List (ICall Ref)),
      ¬ Alters (SameSlot exParse (.v4 0x0a000000) "10.0.0.1") c) ∧
    labelsOf exParse (fun _ => "a") id (step exParse (new (.v4 0x0a000000) (.v4 0x0a000003)) (.claim "10.0.0.1" 7)).1 "10.0.0.1" = some "a" ∧
    labelsOf exParse (write (fun _ => "a") 7 "b") id
      (step exParse (new (.v4 0x0a000000) (.v4 0x0a000003)) (.claim "10.0.0.1" 7)).1 "10.0.0.1" = some "b" := by
  refine ⟨rfl, ?_, rfl, rfl⟩
  intro c hc
  simp only [List.mem_cons, List.not_mem_nil, or_false] at hc
  rcases hc with rfl | rfl | rfl
  · exact fun h => h
  · exact fun h => h
  · rintro ⟨a, b, ha, hb, hab⟩
    injection ha with ha
    injection hb with hb
    subst ha; subst hb
    revert hab
    decide

end Verif.IPTable
