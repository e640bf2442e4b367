/-!
Concurrent programs: goroutines that share a memory protected by one `sync.RWMutex`.

* A method is a program `Prog`: a tree of atomic actions. Every access to the shared memory is an
  action of its own, and between any two actions every other goroutine may run.
* `sync.RWMutex`, from its documentation: any number of readers or one writer hold it; a writer that
  calls `Lock` waits until the readers are gone, and from that moment on `RLock` blocks until the
  writer has come and gone ("If any goroutine calls Lock while the lock is already held by one or
  more readers, concurrent calls to RLock will block until the writer has acquired (and released) the
  lock"). One writer waits in this way, further ones queue behind it.
* Simplification: when a writer leaves, the waiting readers are not handed the lock at once, they
  compete for it with the next writer. This allows more schedules than the Go runtime has.
* An execution may start any call at any time (`Step.inv`), so any number of goroutines with any
  sequences of calls are covered. Calls are numbered in the order in which they start.
-/

namespace Verif.Conc

/-- a program with shared memory `σ` and result `ρ` -/
inductive Prog (σ ρ : Type) : Type
  /-- finished -/
  | ret (r : ρ)
  /-- read the memory and go on -/
  | read (k : σ → Prog σ ρ)
  /-- change the memory and go on -/
  | write (w : σ → σ) (k : Prog σ ρ)
  | rlock (k : Prog σ ρ)
  | runlock (k : Prog σ ρ)
  | lock (k : Prog σ ρ)
  | unlock (k : Prog σ ρ)

/-- sequential composition -/
def Prog.bind {σ β ρ : Type} : Prog σ β → (β → Prog σ ρ) → Prog σ ρ
  | .ret r, f => f r
  | .read k, f => .read (fun s => (k s).bind f)
  | .write w k, f => .write w (k.bind f)
  | .rlock k, f => .rlock (k.bind f)
  | .runlock k, f => .runlock (k.bind f)
  | .lock k, f => .lock (k.bind f)
  | .unlock k, f => .unlock (k.bind f)

instance {σ : Type} : Monad (Prog σ) where
  pure := .ret
  bind := .bind

/-- read something off the memory -/
def get {σ β : Type} (f : σ → β) : Prog σ β := .read (fun s => .ret (f s))

/-- change the memory -/
def put {σ : Type} (w : σ → σ) : Prog σ Unit := .write w (.ret ())

/-- `m.RLock(); defer m.RUnlock(); p` -/
def withRLock {σ β : Type} (p : Prog σ β) : Prog σ β :=
  .rlock (p.bind fun x => .runlock (.ret x))

/-- `m.Lock(); defer m.Unlock(); p` -/
def withLock {σ β : Type} (p : Prog σ β) : Prog σ β :=
  .lock (p.bind fun x => .unlock (.ret x))

/-- a goroutine as a writer of the mutex: not in `Lock`, waiting in `Lock` for the readers to leave,
or holding the mutex -/
inductive WSt
  | none | waiting | held
deriving DecidableEq

/-- a call in progress -/
structure Thread (κ σ ρ : Type) where
  /-- what was called -/
  call : κ
  /-- what remains to be executed; `none` after the return -/
  prog : Option (Prog σ ρ)
  /-- number of read locks held -/
  rd : Nat
  wr : WSt

/-- shared memory and calls -/
structure Cfg (κ σ ρ : Type) where
  mem : σ
  th : List (Thread κ σ ρ)

/-- what a client observes: call number `n` starts, call number `n` returns -/
inductive Ev (κ ρ : Type)
  | inv (n : Nat) (c : κ)
  | ret (n : Nat) (r : ρ)

variable {κ σ ρ : Type}

/-- nobody holds or waits for the write lock -/
def NoWriter (th : List (Thread κ σ ρ)) : Prop := ∀ x ∈ th, x.wr = .none

/-- nobody holds a read lock -/
def NoReader (th : List (Thread κ σ ρ)) : Prop := ∀ x ∈ th, x.rd = 0

/-- one step of the system, `code` being the program of each call -/
inductive Step (code : κ → Prog σ ρ) : Cfg κ σ ρ → Option (Ev κ ρ) → Cfg κ σ ρ → Prop
  | inv {m th} (c : κ) :
      Step code ⟨m, th⟩ (some (.inv th.length c)) ⟨m, th ++ [⟨c, some (code c), 0, .none⟩]⟩
  | ret {m th n c r rd wr} : th[n]? = some ⟨c, some (.ret r), rd, wr⟩ →
      Step code ⟨m, th⟩ (some (.ret n r)) ⟨m, th.set n ⟨c, none, rd, wr⟩⟩
  | read {m th n c k rd wr} : th[n]? = some ⟨c, some (.read k), rd, wr⟩ →
      Step code ⟨m, th⟩ none ⟨m, th.set n ⟨c, some (k m), rd, wr⟩⟩
  | write {m th n c w k rd wr} : th[n]? = some ⟨c, some (.write w k), rd, wr⟩ →
      Step code ⟨m, th⟩ none ⟨w m, th.set n ⟨c, some k, rd, wr⟩⟩
  | rlock {m th n c k rd wr} : th[n]? = some ⟨c, some (.rlock k), rd, wr⟩ → NoWriter th →
      Step code ⟨m, th⟩ none ⟨m, th.set n ⟨c, some k, rd + 1, wr⟩⟩
  | runlock {m th n c k rd wr} : th[n]? = some ⟨c, some (.runlock k), rd + 1, wr⟩ →
      Step code ⟨m, th⟩ none ⟨m, th.set n ⟨c, some k, rd, wr⟩⟩
  /-- `Lock` is called: new readers are kept out -/
  | wait {m th n c k rd} : th[n]? = some ⟨c, some (.lock k), rd, .none⟩ → NoWriter th →
      Step code ⟨m, th⟩ none ⟨m, th.set n ⟨c, some (.lock k), rd, .waiting⟩⟩
  /-- `Lock` returns: the readers are gone -/
  | lock {m th n c k rd} : th[n]? = some ⟨c, some (.lock k), rd, .waiting⟩ → NoReader th →
      Step code ⟨m, th⟩ none ⟨m, th.set n ⟨c, some k, rd, .held⟩⟩
  | unlock {m th n c k rd} : th[n]? = some ⟨c, some (.unlock k), rd, .held⟩ →
      Step code ⟨m, th⟩ none ⟨m, th.set n ⟨c, some k, rd, .none⟩⟩

/-- executions from the memory `m₀`: reached state and history -/
inductive Exec (code : κ → Prog σ ρ) (m₀ : σ) : Cfg κ σ ρ → List (Ev κ ρ) → Prop
  | init : Exec code m₀ ⟨m₀, []⟩ []
  | step {g H e g'} : Exec code m₀ g H → Step code g e g' → Exec code m₀ g' (H ++ e.toList)

/-! ### What can go wrong -/

/-- the call number `n` has not returned -/
def Cfg.Pending (g : Cfg κ σ ρ) (n : Nat) : Prop := ∃ x p, g.th[n]? = some x ∧ x.prog = some p

/-- the steps of calls in progress -/
def Moves (code : κ → Prog σ ρ) (g : Cfg κ σ ρ) : Prop :=
  ∃ e g', Step code g e g' ∧ ∀ n c, e ≠ some (.inv n c)

/-- there are calls in progress, and none of them can make a step -/
def Deadlock (code : κ → Prog σ ρ) (g : Cfg κ σ ρ) : Prop :=
  (∃ n, g.Pending n) ∧ ¬ Moves code g

/-- the next action reads or writes the memory -/
def Thread.Accesses (x : Thread κ σ ρ) : Prop :=
  (∃ k, x.prog = some (.read k)) ∨ ∃ w k, x.prog = some (.write w k)

/-- a data race: of two goroutines that can both access the memory now, one writes (on a Go map:
"fatal error: concurrent map read and map write") -/
def Race (g : Cfg κ σ ρ) : Prop :=
  ∃ (i j : Nat) (x y : Thread κ σ ρ), i ≠ j ∧ g.th[i]? = some x ∧ g.th[j]? = some y ∧
    (∃ w k, x.prog = some (.write w k)) ∧ y.Accesses

/-- call `a` has returned before call `b` starts -/
def Before (H : List (Ev κ ρ)) (a b : Nat) : Prop :=
  ∃ r c, List.Sublist [.ret a r, .inv b c] H

end Verif.Conc
