import Verif.Errs.Model
import Verif.Errs.Spec
import Verif.IdxTable.Props

/-!
C109, C110: the error texts of the index table.
-/

namespace Verif.IdxTable
open Verif.Id (Numeral Digit numeral_fmtUint split_unique C34_numeral_deterministic)
open Verif.GTree (ascii)
variable {α : Type}

/-! ### reading texts -/

theorem numeral_num (x : U64) : Numeral (num x) x.toNat := numeral_fmtUint _

theorem ascii_nil : ascii "" = [] := rfl

theorem spells0 {w : String} : Spells (ascii w) [w] [] := .last

theorem spells1 {w v : String} {s : List UInt8} {n : Nat} (h : Numeral s n) : Spells (ascii w ++ s ++ ascii v) [w, v] [n] :=
  .more h .last

theorem spells1' {w : String} {s : List UInt8} {n : Nat} (h : Numeral s n) : Spells (ascii w ++ s) [w, ""] [n] := by
  have := spells1 (w := w) (v := "") h
  rwa [ascii_nil, List.append_nil] at this

theorem spells2' {w v : String} {s u : List UInt8} {n k : Nat} (h : Numeral s n) (h' : Numeral u k) :
    Spells (ascii w ++ s ++ ascii v ++ u) [w, v, ""] [n, k] := by
  have := Spells.more (w := w) h (spells1' (w := v) h')
  simpa only [List.append_assoc] using this

theorem spells2 {w v x : String} {s u : List UInt8} {n k : Nat} (h : Numeral s n) (h' : Numeral u k) :
    Spells (ascii w ++ s ++ ascii v ++ u ++ ascii x) [w, v, x] [n, k] := by
  have := Spells.more (w := w) h (spells1 (w := v) (v := x) h')
  simpa only [List.append_assoc] using this

theorem spells3' {w v x : String} {s u y : List UInt8} {n k l : Nat} (h : Numeral s n) (h' : Numeral u k) (h'' : Numeral y l) :
    Spells (ascii w ++ s ++ ascii v ++ u ++ ascii x ++ y) [w, v, x, ""] [n, k, l] := by
  have := Spells.more (w := w) h (spells2' (w := v) (v := x) h' h'')
  simpa only [List.append_assoc] using this

/-- not a digit -/
def nonDigit (c : UInt8) : Bool := decide (c.toNat < 48 ∨ 58 ≤ c.toNat)

theorem nonDigit_iff {c : UInt8} : nonDigit c = true ↔ ¬ IsDigit c := by
  unfold nonDigit IsDigit
  rw [decide_eq_true_iff]
  omega

theorem numeral_digits {s n} (h : Numeral s n) : ∀ c ∈ s, IsDigit c := by
  have hd : ∀ {x d}, Digit x d → IsDigit x := by
    rintro x d ⟨h1, h2⟩
    unfold IsDigit
    omega
  induction h with
  | digit h => intro c hc; rw [List.mem_singleton.1 hc]; exact hd h
  | more _ h ih =>
    intro c hc
    rcases List.mem_append.1 hc with hc | hc
    · exact ih c hc
    · rw [List.mem_singleton.1 hc]; exact hd h

theorem numeral_ne_nil {s n} (h : Numeral s n) : s ≠ [] := by
  cases h <;> simp

theorem filter_numeral {s n} (h : Numeral s n) : s.filter nonDigit = [] := by
  rw [List.filter_eq_nil_iff]
  intro c hc hn
  exact nonDigit_iff.1 hn (numeral_digits h c hc)

/-- the words without the numbers -/
def words (ws : List String) : List UInt8 := (ws.map fun w => (ascii w).filter nonDigit).flatten

theorem spells_words {m ws ns} (h : Spells m ws ns) : m.filter nonDigit = words ws := by
  induction h with
  | last => simp [words]
  | more h _ ih => simp [words, filter_numeral h, ih]

/-- each word but the first starts with something that is not a digit, and only the last may be empty -/
def Apart : List String → Bool
  | [] => true
  | [w] => (ascii w).isEmpty || (ascii w).head?.any nonDigit
  | w :: ws => (ascii w).head?.any nonDigit && Apart ws

theorem apart_head {w : String} {ws : List String} (h : Apart (w :: ws) = true) :
    (ws = [] ∧ ascii w = []) ∨ ∃ c l, ascii w = c :: l ∧ nonDigit c = true := by
  cases ws with
  | nil =>
    simp only [Apart, Bool.or_eq_true] at h
    rcases h with h | h
    · exact .inl ⟨rfl, List.isEmpty_iff.1 h⟩
    · cases hw : ascii w with
      | nil => rw [hw] at h; cases h
      | cons c l => rw [hw] at h; exact .inr ⟨c, l, rfl, h⟩
  | cons v vs =>
    simp only [Apart, Bool.and_eq_true] at h
    cases hw : ascii w with
    | nil => rw [hw] at h; cases h.1
    | cons c l => rw [hw] at h; exact .inr ⟨c, l, rfl, h.1⟩

theorem apart_tail {w : String} {ws : List String} (h : Apart (w :: ws) = true) : Apart ws = true := by
  cases ws with
  | nil => rfl
  | cons v vs => simp only [Apart, Bool.and_eq_true] at h; exact h.2

theorem spells_start {u w ws ns} (h : Spells u (w :: ws) ns) : ∃ y, u = ascii w ++ y ∧ (ws = [] → y = []) := by
  cases h with
  | last => exact ⟨[], by simp⟩
  | more h1 h2 =>
    refine ⟨_, List.append_assoc .., ?_⟩
    rintro rfl
    cases h2

theorem spells_single {m w ns} (h : Spells m [w] ns) : ns = [] := by
  cases h with
  | last => rfl
  | more _ h2 => cases h2

theorem spells_unique {m w ws ns ns'} (hok : Apart ws = true) (h : Spells m (w :: ws) ns) (h' : Spells m (w :: ws) ns') :
    ns = ns' := by
  induction ws generalizing m w ns ns' with
  | nil => rw [spells_single h, spells_single h']
  | cons v vs ih =>
    generalize hm : m = m' at h'
    cases h with
    | more h1 h2 =>
      rename_i n ns s u
      cases h' with
      | more h1' h2' =>
        rename_i n' ns' s' u'
        rw [List.append_assoc, List.append_assoc, List.append_cancel_left_eq] at hm
        have key : s = s' ∧ u = u' := by
          obtain ⟨y, hy, hy0⟩ := spells_start h2
          obtain ⟨y', hy', hy0'⟩ := spells_start h2'
          rcases apart_head hok with ⟨rfl, hv⟩ | ⟨c, l, hv, hc⟩
          · have e1 : u = [] := by rw [hy, hv, hy0 rfl]; rfl
            have e2 : u' = [] := by rw [hy', hv, hy0' rfl]; rfl
            rw [e1, e2, List.append_nil, List.append_nil] at hm
            exact ⟨hm, by rw [e1, e2]⟩
          · rw [hy, hy', hv, List.cons_append, List.cons_append] at hm
            have hn : ∀ {t : List UInt8} {k}, Numeral t k → c ∉ t :=
              fun ht hmem => nonDigit_iff.1 hc (numeral_digits ht c hmem)
            obtain ⟨e1, e2⟩ := split_unique (hn h1) (hn h1') hm
            exact ⟨e1, by rw [hy, hy', hv, List.cons_append, List.cons_append, e2]⟩
        obtain ⟨rfl, rfl⟩ := key
        rw [C34_numeral_deterministic h1 h1', ih (apart_tail hok) h2 h2']

theorem map_toNat_inj {l l' : List U64} (h : l.map BitVec.toNat = l'.map BitVec.toNat) : l = l' := by
  induction l generalizing l' with
  | nil => cases l' with
    | nil => rfl
    | cons _ _ => cases h
  | cons a l ih => cases l' with
    | nil => cases h
    | cons b l' =>
      simp only [List.map_cons, List.cons.injEq] at h
      rw [BitVec.eq_of_toNat_eq h.1, ih h.2]

/-- which sentence -/
def Sentence.kind : Sentence → Nat
  | .idBig .. => 0
  | .notFound .. => 1
  | .noFree => 2
  | .startBig .. => 3
  | .endBig .. => 4
  | .inUse .. => 5
  | .noRange .. => 6
  | .sizeBig .. => 7
  | .noSize .. => 8
  | .already .. => 9
  | .notCreated .. => 10

/-- the words of each sentence -/
def kinds : List (List UInt8) :=
  [words ["id ", " is bigger then max allowed entries: ", ""], words ["no entry found for: ", ""],
   words ["no free entry found"], words ["start ", " is bigger then max allowed entries: ", ""],
   words ["end ", " is bigger then max allowed entries: ", ""], words ["entry ", " in use in range: start: ", ", end ", ""],
   words ["could not find free range that fit in start ", ", size ", ""],
   words ["size ", " is bigger then max allowed entries: ", ""], words ["could not find free entries that fit in size ", ""],
   words ["entry ", " already exists"], words ["entry ", " not created"]]

theorem kinds_get (σ : Sentence) : kinds[σ.kind]? = some (words σ.parts.1) := by
  cases σ <;> rfl

theorem kinds_nodup : kinds.Nodup := by decide

theorem kind_of_words {σ τ : Sentence} (h : words σ.parts.1 = words τ.parts.1) : σ.kind = τ.kind := by
  have h1 := kinds_get σ
  have h2 := kinds_get τ
  rw [← h] at h2
  obtain ⟨i1, e1⟩ := List.getElem?_eq_some_iff.1 h1
  obtain ⟨i2, e2⟩ := List.getElem?_eq_some_iff.1 h2
  exact (List.Nodup.getElem_inj_iff kinds_nodup).1 (e1.trans e2.symm)

theorem parts_of_kind {σ τ : Sentence} (h : σ.kind = τ.kind) : σ.parts.1 = τ.parts.1 := by
  cases σ <;> cases τ <;> first | rfl | cases h

theorem eq_of_parts {σ τ : Sentence} (h : σ.kind = τ.kind) (h' : σ.parts.2 = τ.parts.2) : σ = τ := by
  cases σ <;> cases τ <;> first | (cases h'; rfl) | cases h

theorem parts_apart (σ : Sentence) : ∃ w ws, σ.parts.1 = w :: ws ∧ Apart ws = true := by
  cases σ <;> exact ⟨_, _, rfl, by decide⟩

/-- a text can be read in one way only -/
theorem C109_one_reading {m : List UInt8} {σ τ : Sentence} (h : Says m σ) (h' : Says m τ) : σ = τ := by
  have hk : σ.kind = τ.kind := kind_of_words ((spells_words h).symm.trans (spells_words h'))
  refine eq_of_parts hk ?_
  obtain ⟨w, ws, hw, ha⟩ := parts_apart σ
  unfold Says at h h'
  rw [← parts_of_kind hk] at h'
  rw [hw] at h h'
  exact map_toNat_inj (spells_unique ha h h')

/-! ### texts and failures -/

theorem validateMsg_none (t : Table α) (id : U64) : validateMsg t id = none ↔ validate t id = .ok () := by
  unfold validateMsg validate
  split <;> simp

theorem validateMsg_some (t : Table α) (id : U64) (m : Text) (h : validateMsg t id = some m) :
    t.size - 1 < id ∧ Says m (.idBig id (t.size - 1)) ∧ validate t id = .error .tooBig := by
  unfold validateMsg at h
  split at h
  · rename_i hc
    cases h
    refine ⟨hc, spells2' (numeral_num _) (numeral_num _), ?_⟩
    unfold validate
    rw [if_pos hc]
  · cases h

theorem validateMsg_cases (t : Table α) (id : U64) :
    (∃ m, validateMsg t id = some m ∧ validate t id = .error .tooBig) ∨ (validateMsg t id = none ∧ validate t id = .ok ()) := by
  cases h : validateMsg t id with
  | none => exact .inr ⟨rfl, (validateMsg_none t id).1 h⟩
  | some m => exact .inl ⟨m, rfl, (validateMsg_some t id m h).2.2⟩

theorem getMsg_none (t : Table α) (id : U64) : getMsg t id = none ↔ ∃ e, get t id = .ok e := by
  unfold getMsg get
  rcases validateMsg_cases t id with ⟨m, h1, h2⟩ | ⟨h1, h2⟩
  · simp [h1, h2]
  · rw [h1, h2]
    cases t.m.get? id <;> simp

theorem addMsg_none (t : Table α) (id : U64) (d : α) : addMsg t id = none ↔ (add t ⟨id, d⟩).2 = .ok () := by
  unfold addMsg add
  rcases validateMsg_cases t id with ⟨m, h1, h2⟩ | ⟨h1, h2⟩
  · simp [h1, h2]
  · simp only [h1, h2]
    split <;> simp

theorem updateMsg_none (t : Table α) (id : U64) (d : α) : updateMsg t id = none ↔ (update t id d).2 = .ok () := by
  unfold updateMsg update updateE
  rcases validateMsg_cases t id with ⟨m, h1, h2⟩ | ⟨h1, h2⟩
  · simp [h1, h2]
  · simp only [h1, h2]
    split <;> simp

theorem releaseMsg_none (t : Table α) (id : U64) : releaseMsg t id = none ↔ (release t id).2 = .ok () := by
  unfold releaseMsg release delete
  rcases validateMsg_cases t id with ⟨m, h1, h2⟩ | ⟨h1, h2⟩ <;> simp [h1, h2]

theorem findFreeMsg_none (t : Table α) : findFreeMsg t = none ↔ ∃ x, findFree t = .ok x := by
  unfold findFreeMsg findFree
  by_cases h : (iterateFree t).advance.inBounds <;> simp [h]

theorem claimDynamicMsg_none (t : Table α) (d : α) : claimDynamicMsg t = none ↔ ∃ e, (claimDynamic t d).2 = .ok e := by
  unfold claimDynamicMsg claimDynamic
  by_cases h : (iterateFree t).advance.inBounds
  · simp only [h, dif_pos]
    rw [addMsg_none t _ d]
    generalize add t _ = p
    obtain ⟨t', r⟩ := p
    cases r <;> simp
  · simp [h]

theorem findFreeRangeLoopMsg_none (start size stop : U64) (fuel : Nat) (it : Iter) (acc : List U64) :
    findFreeRangeLoopMsg start size stop fuel it = none ↔ ∃ ids, findFreeRangeLoop start stop fuel it acc = .ok ids := by
  induction fuel generalizing it acc with
  | zero => simp [findFreeRangeLoopMsg, findFreeRangeLoop]
  | succ fuel ih =>
    unfold findFreeRangeLoopMsg findFreeRangeLoop
    dsimp only
    by_cases h : it.advance.inBounds
    · rw [dif_pos h, dif_pos h]
      by_cases h1 : it.advance.id h < start
      · rw [if_pos h1, if_pos h1]; exact ih _ _
      rw [if_neg h1, if_neg h1]
      by_cases h2 : it.advance.id h = start
      · rw [if_pos h2, if_pos h2]; exact ih _ _
      rw [if_neg h2, if_neg h2]
      by_cases h3 : it.advance.id h > start ∧ it.advance.id h < stop
      · rw [if_pos h3, if_pos h3]
        by_cases h4 : (!it.advance.isConsecutive h) = true
        · rw [if_pos h4, if_pos h4]; simp
        · rw [if_neg h4, if_neg h4]; exact ih _ _
      · rw [if_neg h3, if_neg h3]; simp
    · rw [dif_neg h, dif_neg h]; simp

theorem findFreeRangeMsg_none (t : Table α) (start size : U64) :
    findFreeRangeMsg t start size = none ↔ ∃ ids, findFreeRange t start size = .ok ids := by
  unfold findFreeRangeMsg findFreeRange
  dsimp only
  split
  · simp
  split
  · simp
  exact findFreeRangeLoopMsg_none ..

theorem findFreeSizeLoopMsg_none (size : U64) (fuel : Nat) (it : Iter) (i : U64) (acc : List U64) :
    findFreeSizeLoopMsg size fuel it i = none ↔ ∃ ids, findFreeSizeLoop size fuel it i acc = .ok ids := by
  induction fuel generalizing it i acc with
  | zero => simp [findFreeSizeLoopMsg, findFreeSizeLoop]
  | succ fuel ih =>
    unfold findFreeSizeLoopMsg findFreeSizeLoop
    dsimp only
    by_cases h : it.advance.inBounds
    · rw [if_pos h, dif_pos h]
      split
      · simp
      · exact ih _ _ _
    · rw [if_neg h, dif_neg h]; simp

theorem findFreeSizeMsg_none (t : Table α) (size : U64) :
    findFreeSizeMsg t size = none ↔ ∃ ids, findFreeSize t size = .ok ids := by
  unfold findFreeSizeMsg findFreeSize
  dsimp only
  split
  · simp
  exact findFreeSizeLoopMsg_none ..

theorem addAllMsg_none (t : Table α) (d : α) (ids : List U64) : addAllMsg t d ids = none ↔ (addAll t d ids).2 = .ok () := by
  induction ids generalizing t with
  | nil => simp [addAllMsg, addAll]
  | cons id ids ih =>
    unfold addAllMsg addAll
    have h := addMsg_none t id d
    cases hm : addMsg t id with
    | none =>
      have h1 := h.1 hm
      cases hp : add t ⟨id, d⟩ with
      | mk t' r => rw [hp] at h1; cases h1; simpa using ih t'
    | some m =>
      cases hp : add t ⟨id, d⟩ with
      | mk t' r =>
        cases r with
        | ok u => cases u; rw [hm, hp] at h; simp at h
        | error e => simp

theorem addAllMsg_none' (t : Table α) (d : α) (ids : List U64) (acc : List (Entry α)) :
    addAllMsg t d ids = none ↔ ∃ es, (addAllE t d ids acc).2 = .ok es := by
  induction ids generalizing t acc with
  | nil => simp [addAllMsg, addAllE]
  | cons id ids ih =>
    unfold addAllMsg addAllE
    have h := addMsg_none t id d
    cases hm : addMsg t id with
    | none =>
      have h1 := h.1 hm
      cases hp : add t ⟨id, d⟩ with
      | mk t' r => rw [hp] at h1; cases h1; simpa using ih t' _
    | some m =>
      cases hp : add t ⟨id, d⟩ with
      | mk t' r =>
        cases r with
        | ok u => cases u; rw [hm, hp] at h; simp at h
        | error e => simp

theorem claimRangeMsg_none (t : Table α) (start n : U64) (d : α) :
    claimRangeMsg t start n d = none ↔ (claimRange t start n d).2 = .ok () := by
  unfold claimRangeMsg claimRange
  have h := findFreeRangeMsg_none t start n
  cases hm : findFreeRangeMsg t start n with
  | none =>
    obtain ⟨ids, hi⟩ := h.1 hm
    rw [hi]
    exact addAllMsg_none t d ids
  | some m =>
    cases hr : findFreeRange t start n with
    | ok ids => rw [hm, hr] at h; simp at h
    | error e => simp

theorem claimSizeMsg_none (t : Table α) (n : U64) (d : α) :
    claimSizeMsg t n d = none ↔ ∃ es, (claimSize t n d).2 = .ok es := by
  unfold claimSizeMsg claimSize
  have h := findFreeSizeMsg_none t n
  cases hm : findFreeSizeMsg t n with
  | none =>
    obtain ⟨ids, hi⟩ := h.1 hm
    rw [hi]
    exact addAllMsg_none' t d ids []
  | some m =>
    cases hr : findFreeSize t n with
    | ok ids => rw [hm, hr] at h; simp at h
    | error e => simp

/-- a call has an error text exactly if it fails (in every state) -/
theorem C109_fails (t : Table α) (c : Call α) : (∃ m, errMsg t c = some m) ↔ (step t c).2 = .err := by
  have aux : ∀ {β : Type} {o : Option Text} {r : Except Err β} {f : Except Err β → Reply α},
      (o = none ↔ ∃ x, r = .ok x) → (∀ x, f (.ok x) ≠ .err) → (∀ e, f (.error e) = .err) →
      ((∃ m, o = some m) ↔ f r = .err) := by
    intro β o r f h h1 h2
    cases r with
    | ok x => rw [h.2 ⟨x, rfl⟩]; simp [h1 x]
    | error e =>
      cases o with
      | none => obtain ⟨x, hx⟩ := h.1 rfl; cases hx
      | some m => simp [h2 e]
  have auxU : ∀ {o : Option Text} {r : Except Err Unit}, (o = none ↔ r = .ok ()) →
      ((∃ m, o = some m) ↔ (replyUnit r : Reply α) = .err) := by
    intro o r h
    exact aux (f := replyUnit) (h.trans ⟨fun h => ⟨(), h⟩, fun ⟨x, h⟩ => h⟩) (by intro x h; cases h) (fun _ => rfl)
  cases c with
  | get id => exact aux (f := replyEntry) (getMsg_none t id) (by intro x h; cases h) (fun _ => rfl)
  | claim id d => exact auxU (addMsg_none t id d)
  | claimDynamic d => exact aux (f := replyEntry) (claimDynamicMsg_none t d) (by intro x h; cases h) (fun _ => rfl)
  | claimRange start n d => exact auxU (claimRangeMsg_none t start n d)
  | claimSize n d => exact aux (f := replyEntries) (claimSizeMsg_none t n d) (by intro x h; cases h) (fun _ => rfl)
  | release id => exact auxU (releaseMsg_none t id)
  | update id d => exact auxU (updateMsg_none t id d)
  | findFree => exact aux (f := replyId) (findFreeMsg_none t) (by intro x h; cases h) (fun _ => rfl)
  | findFreeRange start n => exact aux (f := replyIds) (findFreeRangeMsg_none t start n) (by intro x h; cases h) (fun _ => rfl)
  | findFreeSize n => exact aux (f := replyIds) (findFreeSizeMsg_none t n) (by intro x h; cases h) (fun _ => rfl)
  | _ => simp [errMsg, step]

/-! ### C109 -/

/-- the sentence is true in the table -/
def TrueOf (size : U64) (t : Table α) (σ : Sentence) : Prop := σ.Holds (FreeId size t) (fun i => has t i = true)

/-- the calls for ranges, and those for no entries at all -/
def Odd : Call α → Prop
  | .claimRange .. => True
  | .findFreeRange .. => True
  | .claimSize n _ => n = 0
  | .findFreeSize n => n = 0
  | _ => False

theorem validateMsg_true {size : U64} {t : Table α} {id : U64} {m : Text}
    (hm : validateMsg t id = some m) : ∃ σ, Says m σ ∧ TrueOf size t σ := by
  obtain ⟨h1, h2, _⟩ := validateMsg_some t id m hm
  exact ⟨_, h2, h1⟩

theorem findFreeMsg_some {t : Table α} {m : Text} (hm : findFreeMsg t = some m) :
    m = ascii "no free entry found" ∧ freeKeys t = [] := by
  have hn : ¬ ∃ x, findFree t = .ok x := fun h => by rw [(findFreeMsg_none t).2 h] at hm; cases hm
  refine ⟨?_, ?_⟩
  · unfold findFreeMsg at hm
    dsimp only at hm
    split at hm <;> cases hm
    rfl
  · rw [findFree_eq] at hn
    cases hk : freeKeys t with
    | nil => rfl
    | cons x xs => rw [hk] at hn; simp at hn

theorem noFree_true {t : Table α} (h : freeKeys t = []) : TrueOf t.size t .noFree := by
  intro i hi
  rw [freeId_iff, avail_iff, h] at hi
  cases hi

/-- the texts of `findFreeSize` -/
theorem findFreeSizeMsg_some {t : Table α} {n : U64} {m : Text} (hm : findFreeSizeMsg t n = some m) :
    (Says m (.sizeBig n t.size) ∧ t.size < n) ∨ (Says m (.noSize n) ∧ ¬ t.size < n) := by
  unfold findFreeSizeMsg at hm
  split at hm
  · rename_i hc
    cases hm
    exact .inl ⟨spells2' (numeral_num _) (numeral_num _), hc⟩
  · rename_i hc
    refine .inr ⟨?_, hc⟩
    dsimp only at hm
    generalize (iterateFree t).keys.length + 1 = fuel at hm
    generalize iterateFree t = it at hm
    generalize (0 : U64) = i at hm
    induction fuel generalizing it i with
    | zero => cases hm; exact spells1' (numeral_num _)
    | succ fuel ih =>
      unfold findFreeSizeLoopMsg at hm
      dsimp only at hm
      split at hm
      · split at hm
        · cases hm
        · exact ih _ _ hm
      · cases hm; exact spells1' (numeral_num _)

theorem claimSizeMsg_eq {t : Table α} {n : U64} {d : α} {m : Text} (hm : claimSizeMsg t n d = some m) :
    findFreeSizeMsg t n = some m := by
  cases h : findFreeSizeMsg t n with
  | some m' => unfold claimSizeMsg at hm; rw [h] at hm; exact hm
  | none =>
    have : claimSizeMsg t n d = none := by
      rw [claimSizeMsg_none]
      obtain ⟨ids, hi⟩ := (findFreeSizeMsg_none t n).1 h
      rcases claimSize_eq t n d with ⟨ids', h1, h2, h3⟩ | ⟨e, h1, h2, h3⟩
      · rw [h3]; exact ⟨_, rfl⟩
      · rw [hi] at h1; cases h1
    rw [this] at hm; cases hm

theorem size_true {t : Table α} {n : U64} {m : Text} (hm : findFreeSizeMsg t n = some m) :
    ∃ σ, Says m σ ∧ (TrueOf t.size t σ ↔ n ≠ 0) := by
  have hn : ¬ ∃ ids, findFreeSize t n = .ok ids := fun h => by rw [(findFreeSizeMsg_none t n).2 h] at hm; cases hm
  rcases findFreeSizeMsg_some hm with ⟨h1, h2⟩ | ⟨h1, h2⟩
  · exact ⟨_, h1, ⟨fun _ h0 => by subst h0; bv_omega, fun _ => h2⟩⟩
  · refine ⟨_, h1, ?_, ?_⟩
    · rintro ht rfl
      exact ht ⟨[], rfl, List.nodup_nil, by simp⟩
    · rintro h0 ⟨ids, h3, h4, h5⟩
      refine hn ⟨(freeKeys t).take n.toNat, ?_⟩
      rw [findFreeSize_eq, if_neg h2, if_pos]
      refine ⟨by bv_omega, ?_⟩
      rw [← h3]
      exact (List.subperm_of_subset h4 fun i hi => (avail_iff t i).1 ((freeId_iff i).1 (h5 i hi))).length_le

/-- **C109, partial** (index table) The error text of a call is a sentence that is true of the table at that moment, for
all calls but those for ranges (see `C109_range_partial`) and those for zero entries. -/
theorem C109_true_partial {size : U64} {t : Table α} (h : Reachable size t) (c : Call α) (hc : ¬ Odd c) {m : Text}
    (hm : errMsg t c = some m) : ∃ σ, Says m σ ∧ TrueOf size t σ := by
  obtain ⟨hi, rfl⟩ := h.inv
  cases c with
  | get id =>
    change getMsg t id = some m at hm
    unfold getMsg at hm
    rcases validateMsg_cases t id with ⟨m', h1, _⟩ | ⟨h1, _⟩
    · rw [h1] at hm; cases hm; exact validateMsg_true h1
    · rw [h1] at hm
      dsimp only at hm
      split at hm
      · rename_i hg
        cases hm
        refine ⟨.notFound id, spells1' (numeral_num _), ?_⟩
        show ¬ has t id = true
        rw [(has_eq_false t id).2 hg]; decide
      · cases hm
  | claim id d =>
    change addMsg t id = some m at hm
    unfold addMsg at hm
    rcases validateMsg_cases t id with ⟨m', h1, _⟩ | ⟨h1, _⟩
    · rw [h1] at hm; cases hm; exact validateMsg_true h1
    · rw [h1] at hm
      dsimp only at hm
      split at hm
      · rename_i hg
        cases hm
        refine ⟨.already id, spells1 (numeral_num _), ?_⟩
        show has t id = true
        unfold isFreeB at hg
        unfold has
        cases hx : t.m.get? id
        · rw [hx] at hg; cases hg
        · rfl
      · cases hm
  | update id d =>
    change updateMsg t id = some m at hm
    unfold updateMsg at hm
    rcases validateMsg_cases t id with ⟨m', h1, _⟩ | ⟨h1, _⟩
    · rw [h1] at hm; cases hm; exact validateMsg_true h1
    · rw [h1] at hm
      dsimp only at hm
      split at hm
      · rename_i hg
        cases hm
        refine ⟨.notCreated id, spells1 (numeral_num _), ?_⟩
        show ¬ has t id = true
        unfold isFreeB at hg
        unfold has
        cases hx : t.m.get? id
        · exact Bool.false_ne_true
        · rw [hx] at hg; cases hg
      · cases hm
  | release id => exact validateMsg_true (id := id) hm
  | findFree =>
    obtain ⟨rfl, hk⟩ := findFreeMsg_some hm
    exact ⟨.noFree, spells0, noFree_true hk⟩
  | claimDynamic d =>
    have hk : freeKeys t = [] := by
      cases hk : freeKeys t with
      | nil => rfl
      | cons x xs =>
        have := (claimDynamicMsg_none t d).2 (by rw [claimDynamic_eq, hk]; exact ⟨_, rfl⟩)
        change claimDynamicMsg t = some m at hm
        rw [this] at hm; cases hm
    change claimDynamicMsg t = some m at hm
    unfold claimDynamicMsg at hm
    have hb : ¬ (iterateFree t).advance.inBounds := by
      intro hb
      have : findFreeMsg t = none := by unfold findFreeMsg; rw [if_pos hb]
      obtain ⟨x, hx⟩ := (findFreeMsg_none t).1 this
      rw [findFree_eq, hk] at hx; cases hx
    dsimp only at hm
    rw [dif_neg hb] at hm
    cases hm
    exact ⟨.noFree, spells0, noFree_true hk⟩
  | findFreeSize n =>
    obtain ⟨σ, h1, h2⟩ := size_true hm
    exact ⟨σ, h1, h2.2 hc⟩
  | claimSize n d =>
    obtain ⟨σ, h1, h2⟩ := size_true (claimSizeMsg_eq hm)
    exact ⟨σ, h1, h2.2 hc⟩
  | claimRange _ _ _ => exact absurd trivial hc
  | findFreeRange _ _ => exact absurd trivial hc
  | _ => cases hm

/-! ### ranges -/

/-- list form of the loop of `findFreeRange` -/
def ffrMsgList (start size stop : U64) : Option U64 → List U64 → Option Text
  | _, [] => some (noRangeText start size)
  | prev, x :: xs =>
    if x < start then ffrMsgList start size stop (some x) xs
    else if x = start then ffrMsgList start size stop (some x) xs
    else if x > start ∧ x < stop then
      if prev = some (x - 1) then ffrMsgList start size stop (some x) xs
      else some (ascii "entry " ++ num x ++ ascii " in use in range: start: " ++ num start ++ ascii ", end " ++ num stop)
    else none

theorem ffrMsg_loop_eq_list (start size stop : U64) (ks : List U64) (hk : ks.length < 2 ^ 64) :
    ∀ (fuel i : Nat), i ≤ ks.length → ks.length - i < fuel →
      findFreeRangeLoopMsg start size stop fuel (Iter.at ks i) =
        ffrMsgList start size stop (if 0 < i then ks[i - 1]? else none) (ks.drop i) := by
  intro fuel
  induction fuel with
  | zero => intro i _ h; omega
  | succ fuel ih =>
    intro i hi hf
    unfold findFreeRangeLoopMsg
    by_cases hlt : i < ks.length
    · have hb : (Iter.at ks i).advance.inBounds := (Iter.inBounds_at ks i (by omega)).2 hlt
      have hprev : (if 0 < i + 1 then ks[i + 1 - 1]? else none) = some ks[i] := by simp [hlt]
      have ih' := ih (i + 1) (by omega) (by omega)
      simp only [hprev] at ih'
      rw [List.drop_eq_getElem_cons hlt]
      simp only [dif_pos hb, Iter.id_at ks i (by omega) hlt hb,
        Iter.isConsecutive_at ks i (by omega) hlt hb, ffrMsgList]
      simp only [Iter.advance_at', ih']
      by_cases h0 : 0 < i
      · simp only [h0, true_and, if_true, Bool.not_eq_eq_eq_not, Bool.not_true,
          decide_eq_false_iff_not]
        by_cases h5 : ks[i - 1]? = some (ks[i] - 1) <;> simp [h5]
      · simp [h0]
    · have hb : ¬ (Iter.at ks i).advance.inBounds := by
        rw [Iter.inBounds_at ks i (by omega)]; exact hlt
      have hd : ks.drop i = [] := List.drop_eq_nil_of_le (by omega)
      simp only [dif_neg hb, hd, ffrMsgList]

/-- in an ascending list the predecessor of a number comes right before it -/
theorem pred_last {done xs : List U64} {x : U64} (hs : (done ++ x :: xs).Pairwise (· < ·)) (h0 : x ≠ 0)
    (hm : x - 1 ∈ done ++ x :: xs) : done.getLast? = some (x - 1) := by
  rw [List.pairwise_append] at hs
  obtain ⟨hs1, hs2, hs3⟩ := hs
  rw [List.pairwise_cons] at hs2
  have hmd : x - 1 ∈ done := by
    rw [List.mem_append, List.mem_cons] at hm
    rcases hm with h | h | h
    · exact h
    · bv_omega
    · have := hs2.1 _ h; bv_omega
  have hne : done ≠ [] := by rintro rfl; cases hmd
  rw [List.getLast?_eq_some_getLast hne]
  congr 1
  have hl := List.getLast_mem hne
  have hlx := hs3 _ hl x (by simp)
  have hle : x - 1 ≤ done.getLast hne := by
    rw [← List.dropLast_concat_getLast hne] at hmd hs1
    rw [List.mem_append, List.mem_singleton] at hmd
    rcases hmd with h | h
    · rw [List.pairwise_append] at hs1
      have := hs1.2.2 _ h _ (List.mem_singleton.2 rfl)
      bv_omega
    · bv_omega
  bv_omega

theorem ffrMsgList_some {start size stop : U64} {whole : List U64} (hs : whole.Pairwise (· < ·)) {m : Text} :
    ∀ (rest done : List U64), whole = done ++ rest → ffrMsgList start size stop done.getLast? rest = some m →
      m = noRangeText start size ∨
      ∃ x ∈ whole, start < x ∧ x < stop ∧ x - 1 ∉ whole ∧
        m = ascii "entry " ++ num x ++ ascii " in use in range: start: " ++ num start ++ ascii ", end " ++ num stop := by
  intro rest
  induction rest with
  | nil => intro done _ hm; cases hm; exact .inl rfl
  | cons x xs ih =>
    intro done hw hm
    have hstep : whole = (done ++ [x]) ++ xs := by simp [hw]
    have hlast : (done ++ [x]).getLast? = some x := by simp
    have ih' := ih (done ++ [x]) hstep
    rw [hlast] at ih'
    unfold ffrMsgList at hm
    split at hm
    · exact ih' hm
    split at hm
    · exact ih' hm
    split at hm
    · rename_i hc
      split at hm
      · exact ih' hm
      · rename_i hp
        cases hm
        refine .inr ⟨x, by simp [hw], hc.1, hc.2, ?_, rfl⟩
        intro hmem
        rw [hw] at hs hmem
        exact hp (pred_last hs (by bv_omega) hmem)
    · cases hm

/-- the sentences of a failed `FindFreeRange` or `ClaimRange`, with what is true of them -/
inductive RangeText (size : U64) (t : Table α) (start n : U64) : Sentence → Prop
  /-- true unless the start is the capacity -/
  | startBig : size ≤ start → (TrueOf size t (.startBig start size) ↔ start ≠ size) → RangeText size t start n (.startBig start size)
  /-- true unless the end is the capacity -/
  | endBig : start < size → size ≤ start + n - 1 → (TrueOf size t (.endBig (start + n - 1) size) ↔ start + n - 1 ≠ size) →
      RangeText size t start n (.endBig (start + n - 1) size)
  /-- never true: the id is free, in use is the one before it -/
  | inUse {x} : FreeId size t x → start ≤ x - 1 → x - 1 < x → x < start + n - 1 → has t (x - 1) = true →
      ¬ TrueOf size t (.inUse x start (start + n - 1)) → RangeText size t start n (.inUse x start (start + n - 1))
  /-- true unless no ids were asked for, or one which is free -/
  | noRange : start < size → (TrueOf size t (.noRange start n) ↔ ¬ (n = 0 ∨ n = 1 ∧ FreeId size t start)) →
      RangeText size t start n (.noRange start n)

theorem findFreeRangeMsg_text {size : U64} {t : Table α} (h : Reachable size t) {start n : U64} {m : Text}
    (hm : findFreeRangeMsg t start n = some m) : ∃ σ, Says m σ ∧ RangeText size t start n σ := by
  have hn : ¬ ∃ ids, findFreeRange t start n = .ok ids := fun h => by rw [(findFreeRangeMsg_none t start n).2 h] at hm; cases hm
  have hr := h
  obtain ⟨hi, rfl⟩ := h.inv
  have h0 := hi.1
  unfold findFreeRangeMsg at hm
  dsimp only at hm
  split at hm
  · rename_i hc
    cases hm
    refine ⟨.startBig start t.size, spells2' (numeral_num _) (numeral_num _), .startBig (by bv_omega) ?_⟩
    show t.size < start ↔ _
    constructor
    · rintro h rfl; bv_omega
    · intro h; bv_omega
  split at hm
  · rename_i hc' hc
    cases hm
    refine ⟨.endBig (start + n - 1) t.size, spells2' (numeral_num _) (numeral_num _), .endBig (by bv_omega) (by bv_omega) ?_⟩
    show t.size < start + n - 1 ↔ _
    constructor
    · intro h he; rw [he] at h; bv_omega
    · intro h; bv_omega
  rename_i hc1 hc2
  rw [iterateFree_keys, iterateFree_at, ffrMsg_loop_eq_list _ _ _ _ (freeKeys_length_lt t) _ _ (by omega) (by omega)] at hm
  have hk : ∀ x, x ∈ freeKeys t ↔ FreeId t.size t x := fun x => by rw [freeId_iff, avail_iff]
  rcases ffrMsgList_some (freeKeys_sorted t) (freeKeys t) [] rfl hm with rfl | ⟨x, h1, h2, h3, h4, rfl⟩
  · refine ⟨.noRange start n, spells2' (numeral_num _) (numeral_num _), .noRange (by bv_omega) ?_⟩
    constructor
    · rintro ht (rfl | ⟨rfl, hf⟩)
      · exact ht (fun k hk => absurd hk (Nat.not_lt_zero k))
      · refine ht fun k hk => ⟨start, ?_, hf⟩
        have : k < 1 := hk
        omega
    · intro hodd hall
      rcases Nat.lt_or_ge n.toNat 2 with hlt | hge
      · have : n = 0 ∨ n = 1 := by bv_omega
        rcases this with rfl | rfl
        · exact hodd (.inl rfl)
        · obtain ⟨i, e1, e2⟩ := hall 0 (by decide)
          have : i = start := BitVec.eq_of_toNat_eq (by simpa using e1)
          exact hodd (.inr ⟨rfl, this ▸ e2⟩)
      · obtain ⟨i, e1, e2⟩ := hall (n.toNat - 1) (by omega)
        have e3 := e2.1
        rw [BitVec.lt_def] at e3
        obtain ⟨_, ids, _, hids⟩ := window_result hr start n hge (by omega) (fun x hx => by
          obtain ⟨j, j1, j2⟩ := hall (x.toNat - start.toNat) (by unfold InWindow at hx; omega)
          have : j = x := BitVec.eq_of_toNat_eq (by unfold InWindow at hx; omega)
          exact this ▸ j2.2)
        exact hn ⟨ids, (rangeResult_iff t h0 start n ids).1 hids⟩
  · have hx := (hk x).1 h1
    have hu : has t (x - 1) = true := by
      cases hb : has t (x - 1) with
      | true => rfl
      | false => exact absurd ((hk (x - 1)).2 ⟨by have := hx.1; bv_omega, hb⟩) h4
    refine ⟨.inUse x start (start + n - 1), spells3' (numeral_num _) (numeral_num _) (numeral_num _), .inUse hx (by bv_omega) (by bv_omega) h3 hu ?_⟩
    rintro ⟨h5, _⟩
    have : has t x = true := h5
    rw [hx.2] at this
    cases this

theorem claimRangeMsg_eq {t : Table α} (hs : t.size ≠ 0) {start n : U64} {d : α} {m : Text}
    (hm : claimRangeMsg t start n d = some m) : findFreeRangeMsg t start n = some m := by
  cases h : findFreeRangeMsg t start n with
  | some m' => unfold claimRangeMsg at hm; rw [h] at hm; exact hm
  | none =>
    have : claimRangeMsg t start n d = none := by
      rw [claimRangeMsg_none]
      obtain ⟨ids, hi⟩ := (findFreeRangeMsg_none t start n).1 h
      rcases claimRange_eq t hs start n d with ⟨ids', h1, h2, h3⟩ | ⟨e, h1, h2, h3⟩
      · rw [h3]
      · rw [hi] at h1; cases h1
    rw [this] at hm; cases hm

/-- **C109, partial** (index table) The error texts of `FindFreeRange` and `ClaimRange`, and which of them are true:
`start %d is bigger ...` and `end %d is bigger ...` unless the number is the capacity itself, `could not find free range
...` unless the range is empty or a single free id, and `entry %d in use ...` never. -/
theorem C109_range_partial {size : U64} {t : Table α} (h : Reachable size t) (start n : U64) (c : Call α)
    (hc : c = .findFreeRange start n ∨ ∃ d, c = .claimRange start n d) {m : Text} (hm : errMsg t c = some m) :
    ∃ σ, Says m σ ∧ RangeText size t start n σ := by
  rcases hc with rfl | ⟨d, rfl⟩
  · exact findFreeRangeMsg_text h hm
  · exact findFreeRangeMsg_text h (claimRangeMsg_eq h.inv.1.1 hm)

theorem findFreeRangeMsg_eq_list (t : Table α) (start n : U64) (h1 : ¬ start > t.size - 1) (h2 : ¬ start + n - 1 > t.size - 1) :
    findFreeRangeMsg t start n = ffrMsgList start n (start + n - 1) none (freeKeys t) := by
  unfold findFreeRangeMsg
  dsimp only
  rw [if_neg h1, if_neg h2, iterateFree_keys, iterateFree_at,
    ffrMsg_loop_eq_list _ _ _ _ (freeKeys_length_lt t) _ _ (by omega) (by omega)]
  rfl

theorem exTable_free : freeKeys exTable = [0, 2, 3, 4, 6, 7] := by decide

/-- **C109, violated** With 1 and 5 claimed of 0 to 7, `FindFreeRange(0, 4)` says that entry 2 is in use; 2 is free. -/
theorem C109_inUse_violated : ∃ m, errMsg exTable (.findFreeRange 0 4) = some m ∧ Says m (.inUse 2 0 3) ∧
    has exTable 2 = false ∧ ¬ TrueOf 8 exTable (.inUse 2 0 3) := by
  refine ⟨ascii "entry " ++ num 2 ++ ascii " in use in range: start: " ++ num 0 ++ ascii ", end " ++ num 3, ?_,
    spells3' (numeral_num _) (numeral_num _) (numeral_num _), by decide, ?_⟩
  · show findFreeRangeMsg exTable 0 4 = _
    rw [findFreeRangeMsg_eq_list exTable 0 4 (by decide) (by decide), exTable_free]
    rfl
  · rintro ⟨h, _⟩
    exact absurd h (by decide)

/-- **C109, violated** `FindFreeRange(8, 1)` on a table of 8 ids says that 8 is bigger than 8. -/
theorem C109_bound_violated : ∃ m, errMsg exTable (.findFreeRange 8 1) = some m ∧ Says m (.startBig 8 8) ∧
    ¬ TrueOf 8 exTable (.startBig 8 8) :=
  ⟨ascii "start " ++ num 8 ++ ascii " is bigger then max allowed entries: " ++ num 8, rfl,
    spells2' (numeral_num _) (numeral_num _), by show ¬ (8 : U64) < 8; decide⟩

/-- **C109, violated** `FindFreeRange(7, 1)` says that it could not find a range of one id from 7; 7 is free. -/
theorem C109_single_violated : ∃ m, errMsg exTable (.findFreeRange 7 1) = some m ∧ Says m (.noRange 7 1) ∧
    FreeId 8 exTable 7 ∧ ¬ TrueOf 8 exTable (.noRange 7 1) := by
  have hf : FreeId 8 exTable 7 := ⟨by decide, by decide⟩
  refine ⟨noRangeText 7 1, ?_, spells2' (numeral_num _) (numeral_num _), hf, ?_⟩
  · show findFreeRangeMsg exTable 7 1 = _
    rw [findFreeRangeMsg_eq_list exTable 7 1 (by decide) (by decide), exTable_free]
    rfl
  · intro h
    refine h fun k hk => ⟨7, ?_, hf⟩
    have : k < 1 := hk
    omega

/-- **C109, violated** (every table) `FindFreeSize(0)` says that it could not find no entries. -/
theorem C109_zero_violated {size : U64} {t : Table α} (h : Reachable size t) :
    ∃ m, errMsg t (.findFreeSize 0) = some m ∧ Says m (.noSize 0) ∧ ¬ TrueOf size t (.noSize 0) := by
  obtain ⟨hi, rfl⟩ := h.inv
  cases hm : findFreeSizeMsg t 0 with
  | none =>
    obtain ⟨ids, h1⟩ := (findFreeSizeMsg_none t 0).1 hm
    rw [findFreeSize_eq, if_neg (by bv_omega), if_neg (by simp)] at h1
    cases h1
  | some m =>
    refine ⟨m, hm, ?_, fun h => h ⟨[], rfl, List.nodup_nil, by simp⟩⟩
    rcases findFreeSizeMsg_some hm with ⟨_, h2⟩ | ⟨h1, _⟩
    · bv_omega
    · exact h1

/-- `Update(6)` of the table in the examples has a text -/
example : Reachable 8 exTable ∧ ¬ Odd (.update 6 "x") ∧
    errMsg exTable (.update 6 "x") = some (ascii "entry " ++ num 6 ++ ascii " not created") :=
  ⟨exTable_reachable, fun h => h, rfl⟩

/-! ### C110 -/

theorem isDigit_of_numeral_head {s n} (h : Numeral s n) {c : UInt8} {l : List UInt8} (hs : s = c :: l) : IsDigit c :=
  numeral_digits h c (by rw [hs]; exact List.mem_cons_self ..)

theorem names_single {A s B : List UInt8} {k : Nat} (hs : Numeral s k) (hA : ∀ c ∈ A, ¬ IsDigit c) (hB : ∀ c ∈ B, ¬ IsDigit c)
    (n : Nat) : Names (A ++ s ++ B) n ↔ n = k := by
  constructor
  · rintro ⟨p, s', u, hm, hs', hp, hu⟩
    have first : s ++ B = s' ++ u := by
      rw [List.append_assoc, List.append_assoc] at hm
      rcases List.append_eq_append_iff.1 hm with ⟨a, h1, h2⟩ | ⟨a, h1, h2⟩
      · -- `p = A ++ a`
        cases ha : a.getLast? with
        | none =>
          rw [List.getLast?_eq_none_iff.1 ha] at h2
          exact h2
        | some c =>
          have hc : ¬ IsDigit c := hp c (by rw [h1, List.getLast?_append, ha]; rfl)
          have hca : c ∈ a := List.mem_of_getLast? ha
          rcases List.append_eq_append_iff.1 h2 with ⟨b, h3, h4⟩ | ⟨b, h3, h4⟩
          · -- `a = s ++ b`, so that `s'` is in `B`
            obtain ⟨x, l, hx⟩ := List.exists_cons_of_ne_nil (numeral_ne_nil hs')
            exact absurd (isDigit_of_numeral_head hs' hx) (hB x (by rw [h4, hx]; simp))
          · exact absurd (numeral_digits hs c (by rw [h3]; exact List.mem_append_left _ hca)) hc
      · -- `A = p ++ a`
        cases a with
        | nil => exact h2.symm
        | cons x l =>
          obtain ⟨y, l', hy⟩ := List.exists_cons_of_ne_nil (numeral_ne_nil hs')
          rw [hy] at h2
          simp only [List.cons_append, List.cons.injEq] at h2
          have : IsDigit x := h2.1 ▸ isDigit_of_numeral_head hs' hy
          exact absurd this (hA x (by rw [h1]; simp))
    rcases List.append_eq_append_iff.1 first with ⟨a, h1, h2⟩ | ⟨a, h1, h2⟩
    · cases a with
      | nil => rw [h1, List.append_nil] at hs'; exact C34_numeral_deterministic hs' hs
      | cons x l =>
        exact absurd (numeral_digits hs' x (by rw [h1]; simp)) (hB x (by rw [h2]; simp))
    · cases a with
      | nil => rw [h1, List.append_nil] at hs; exact C34_numeral_deterministic hs' hs
      | cons x l =>
        exact absurd (numeral_digits hs x (by rw [h1]; simp)) (hu x (by rw [h2]; rfl))
  · rintro rfl
    refine ⟨A, s, B, rfl, hs, fun c hc => hA c (List.mem_of_getLast? hc), fun c hc => hB c (List.mem_of_mem_head? hc)⟩

/-- the first number of a text is named -/
theorem names_first {w : String} {s B : List UInt8} {k : Nat} (hs : Numeral s k) (hw : (ascii w).all nonDigit = true)
    (hB : ∀ c, B.head? = some c → ¬ IsDigit c) : Names (ascii w ++ s ++ B) k :=
  ⟨_, s, B, rfl, hs, fun c hc => nonDigit_iff.1 (List.all_eq_true.1 hw c (List.mem_of_getLast? hc)), hB⟩

theorem head_ascii {w : String} (hw : (ascii w).head?.any nonDigit = true) (u : List UInt8) :
    ∀ c, (ascii w ++ u).head? = some c → ¬ IsDigit c := by
  intro c hc
  cases h : ascii w with
  | nil => rw [h] at hw; cases hw
  | cons x l =>
    rw [h] at hw hc
    cases hc
    exact nonDigit_iff.1 hw

theorem names_num {w v : String} (x : U64) (u : List UInt8) (hw : (ascii w).all nonDigit = true)
    (hv : (ascii v).head?.any nonDigit = true) : Names (ascii w ++ num x ++ (ascii v ++ u)) x.toNat :=
  names_first (numeral_num x) hw (head_ascii hv u)

theorem names_end {w : String} (x : U64) (hw : (ascii w).all nonDigit = true) : Names (ascii w ++ num x) x.toNat := by
  have := names_first (B := []) (numeral_num x) hw (by intro c hc; cases hc)
  rwa [List.append_nil] at this

theorem validateMsg_names {t : Table α} {id : U64} {m : Text} (h : validateMsg t id = some m) : Names m id.toNat := by
  unfold validateMsg at h
  split at h
  · cases h
    rw [List.append_assoc]
    exact names_num id _ (by decide) (by decide)
  · cases h

/-- the id a call is about -/
def Call.target : Call α → Option U64
  | .get id => some id
  | .claim id _ => some id
  | .release id => some id
  | .update id _ => some id
  | _ => none

/-- **C110** (index table) In every state, the error text of `Get`, `Claim`, `Release` and `Update` names the id that was
passed. -/
theorem C110_names_id (t : Table α) (c : Call α) {id : U64} (hc : c.target = some id) {m : Text} (hm : errMsg t c = some m) :
    Names m id.toNat := by
  cases c with
  | get i =>
    cases hc
    change getMsg t id = some m at hm
    unfold getMsg at hm
    split at hm
    · rename_i h; cases hm; exact validateMsg_names h
    · split at hm
      · cases hm; exact names_end id (by decide)
      · cases hm
  | claim i d =>
    cases hc
    change addMsg t id = some m at hm
    unfold addMsg at hm
    split at hm
    · rename_i h; cases hm; exact validateMsg_names h
    · split at hm
      · cases hm
        have := names_num (w := "entry ") (v := " already exists") id [] (by decide) (by decide)
        rwa [List.append_nil] at this
      · cases hm
  | update i d =>
    cases hc
    change updateMsg t id = some m at hm
    unfold updateMsg at hm
    split at hm
    · rename_i h; cases hm; exact validateMsg_names h
    · split at hm
      · cases hm
        have := names_num (w := "entry ") (v := " not created") id [] (by decide) (by decide)
        rwa [List.append_nil] at this
      · cases hm
  | release i =>
    cases hc
    exact validateMsg_names (t := t) hm
  | _ => cases hc

/-- `Claim(5)` of the table in the examples fails with a text that names 5 and no other number -/
example : ∃ m, errMsg exTable (.claim 5 "x") = some m ∧ (Call.claim 5 "x").target = some 5 ∧ ∀ n, Names m n ↔ n = 5 :=
  ⟨_, rfl, rfl, fun n => names_single (numeral_num 5) (fun c hc => nonDigit_iff.1
    (List.all_eq_true.1 (show (ascii "entry ").all nonDigit = true by decide) c hc)) (fun c hc => nonDigit_iff.1
    (List.all_eq_true.1 (show (ascii " already exists").all nonDigit = true by decide) c hc)) n⟩

end Verif.IdxTable
