import Verif.Model.Str

/-!
Deferred content: `/repo/lazy.go`. `Force` (lines 52-58) called by any number of goroutines on the same value, as a
state machine over the steps of `sync.Once` (Go's sync/once.go: a fast check of `done`, then a mutex, a second check,
the call, and `done` set when the function returns or panics).

The generator `fn` (lazy.go:8) is not modelled: it may take any time, and each run of it may return any value or
panic. Values stand for pairs of content and error; `nil` for the pair of two nils that the fields hold at first.
Simplification: `fn` does not force its own value (that is a deadlock in Go).
-/

namespace Booklit.Lazy

/-- Where a call of `Force` stands. -/
inductive Caller (V : Type) where
  /-- not called yet -/
  | idle
  /-- `done` was not set: waits for the mutex -/
  | waiting
  /-- has the mutex, before the second check of `done` -/
  | locked
  /-- runs the generator (lazy.go:54) -/
  | running
  /-- the generator has returned and the fields are assigned (lazy.go:54) -/
  | assigned
  /-- the generator has panicked -/
  | panicking
  /-- `done` is set; the mutex is still held -/
  | marked
  /-- `done` is set after a panic; the mutex is still held -/
  | markedPanic
  /-- `once.Do` has returned (lazy.go:55) -/
  | ready
  /-- `Force` has returned this (lazy.go:57) -/
  | returned (v : V)
  /-- `Force` has panicked -/
  | panicked

/-- The shared value: `once` and the fields `result` and `err` (lazy.go:8-11), and the callers. -/
structure Sys (V : Type) where
  done : Bool
  mutex : Option Nat
  result : V
  callers : Nat → Caller V

/-- `LazyFlow` and `LazyBlock` (lazy.go:14-28). -/
def Sys.init {V : Type} (nil : V) : Sys V := ⟨false, none, nil, fun _ => .idle⟩

/-- Steps of caller `id`. -/
inductive Action (V : Type) where
  | check (id : Nat)
  | lock (id : Nat)
  /-- the generator is called -/
  | call (id : Nat)
  | skip (id : Nat)
  /-- the generator returns -/
  | yield (id : Nat) (v : V)
  /-- the generator panics -/
  | panic (id : Nat)
  | mark (id : Nat)
  | unlock (id : Nat)
  | read (id : Nat)

/-- Caller `id` goes on to `c`. -/
def Sys.goto {V : Type} (s : Sys V) (id : Nat) (c : Caller V) : Sys V :=
  { s with callers := fun j => if j = id then c else s.callers j }

/-- One step; `none` when it cannot happen now. -/
def step {V : Type} (s : Sys V) : Action V → Option (Sys V)
  | .check id =>                                    -- once.Do: fast path
    match s.callers id with
    | .idle => some (s.goto id (if s.done then .ready else .waiting))
    | _ => none
  | .lock id =>
    match s.callers id, s.mutex with
    | .waiting, none => some { s.goto id .locked with mutex := some id }
    | _, _ => none
  | .call id =>                                     -- lazy.go:54, `done` is not set
    match s.callers id with
    | .locked => if s.done then none else some (s.goto id .running)
    | _ => none
  | .skip id =>                                     -- `done` has been set meanwhile
    match s.callers id with
    | .locked => if s.done then some (s.goto id .marked) else none
    | _ => none
  | .yield id v =>                                  -- lazy.go:54
    match s.callers id with
    | .running => some { s.goto id .assigned with result := v }
    | _ => none
  | .panic id =>
    match s.callers id with
    | .running => some (s.goto id .panicking)
    | _ => none
  | .mark id =>                                     -- deferred store of `done`
    match s.callers id with
    | .assigned => some { s.goto id .marked with done := true }
    | .panicking => some { s.goto id .markedPanic with done := true }
    | _ => none
  | .unlock id =>                                   -- deferred unlock
    match s.callers id with
    | .marked => some { s.goto id .ready with mutex := none }
    | .markedPanic => some { s.goto id .panicked with mutex := none }
    | _ => none
  | .read id =>                                     -- lazy.go:57
    match s.callers id with
    | .ready => some (s.goto id (.returned s.result))
    | _ => none

/-- Several steps. -/
def run {V : Type} : Sys V → List (Action V) → Option (Sys V)
  | s, [] => some s
  | s, a :: as =>
    match step s a with
    | some s' => run s' as
    | none => none

end Booklit.Lazy
