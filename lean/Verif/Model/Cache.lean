import Verif.Model.Eval

/-!
The cache of parsed files under concurrent loads: `EvaluateFile` (`/repo/load/processor.go` lines 59-139) called by
any number of goroutines on one `Processor`, while files are edited. The sequential model is `evalFile`
(`Verif.Model.Eval`); here only the steps that matter for the cache are kept, and these interleave arbitrarily.

Simplifications: reading a file is one step, so a reader sees one version of it (an editor that writes in place could
expose a mixture); the two critical sections of `parsedL` (67-72, 131-136) are one step each; the evaluation of the
node is not modelled here, it ends with success or failure at any time (nested loads are further loaders).
-/

namespace Booklit.Cache

open Booklit

/-- How far a call of `EvaluateFile` has come. -/
inductive Loader where
  /-- not called yet -/
  | idle
  /-- after `os.Stat` (processor.go:60-65) -/
  | statted (path : Str) (mtime : Nat)
  /-- the cache has no usable entry (processor.go:67-72, 80) -/
  | missed (path : Str) (mtime : Nat)
  /-- has the node, from the cache or from parsing, and evaluates it (processor.go:81, 111, 125-128) -/
  | has (path : Str) (mtime : Nat) (node : Node)
  /-- returned a section (processor.go:138) -/
  | finished (path : Str) (mtime : Nat) (node : Node)
  /-- returned an error -/
  | failed

/-- The whole system. `disk` holds all versions of each file there have been, the current one first; `present` says
whether the file exists at the moment. `cache` is `Processor.parsed` (processor.go:26). -/
structure Sys where
  disk : Str → List FileInfo
  present : Str → Bool
  cache : List (Str × Node × Nat)
  loaders : Nat → Loader

/-- At the start: a new `Processor` (processor.go:23-28) and no files. -/
def Sys.init : Sys := ⟨fun _ => [], fun _ => false, [], fun _ => .idle⟩

/-- What can happen. Loaders are told apart by numbers. -/
inductive Action where
  /-- somebody writes a file -/
  | edit (path : Str) (info : FileInfo)
  /-- somebody removes a file -/
  | remove (path : Str)
  /-- processor.go:60-65 -/
  | stat (id : Nat) (path : Str)
  /-- processor.go:67-81 -/
  | look (id : Nat)
  /-- processor.go:85-112 -/
  | read (id : Nat)
  /-- evaluation returns an error (processor.go:126-128) -/
  | giveUp (id : Nat)
  /-- evaluation succeeds (processor.go:130-138) -/
  | store (id : Nat)

/-- Change one entry. -/
def set {α β : Type} [DecidableEq α] (f : α → β) (a : α) (b : β) : α → β := fun x => if x = a then b else f x

/-- The outcome of `os.Stat` (processor.go:60-65). -/
def Sys.statted (s : Sys) (path : Str) : Loader :=
  match s.disk path with
  | v :: _ => if s.present path then .statted path v.mtime else .failed
  | [] => .failed

/-- The outcome of opening, reading and parsing (processor.go:85-112). -/
def Sys.parsed (s : Sys) (path : Str) (mtime : Nat) : Loader :=
  match s.disk path with
  | v :: _ =>
    if s.present path then
      match parseFile path v with
      | .ok node => .has path mtime node
      | _ => .failed
    else .failed
  | [] => .failed

/-- One step; `none` when it cannot happen now. -/
def step (s : Sys) : Action → Option Sys
  | .edit path info => some { s with disk := set s.disk path (info :: s.disk path), present := set s.present path true }
  | .remove path => some { s with present := set s.present path false }
  | .stat id path =>                                                         -- processor.go:60-65
    match s.loaders id with
    | .idle => some { s with loaders := set s.loaders id (s.statted path) }
    | _ => none
  | .look id =>                                                              -- processor.go:67-81
    match s.loaders id with
    | .statted path mtime =>
      match cached s.cache path mtime with
      | some node => some { s with loaders := set s.loaders id (.has path mtime node) }
      | none => some { s with loaders := set s.loaders id (.missed path mtime) }
    | _ => none
  | .read id =>                                                              -- processor.go:85-112
    match s.loaders id with
    | .missed path mtime => some { s with loaders := set s.loaders id (s.parsed path mtime) }
    | _ => none
  | .giveUp id =>                                                            -- processor.go:126-128
    match s.loaders id with
    | .has _ _ _ => some { s with loaders := set s.loaders id .failed }
    | _ => none
  | .store id =>                                                             -- processor.go:130-138
    match s.loaders id with
    | .has path mtime node => some { s with
        cache := (remember path node mtime ⟨[], s.cache⟩).2.cache
        loaders := set s.loaders id (.finished path mtime node) }
    | _ => none

/-- Several steps. -/
def run : Sys → List Action → Option Sys
  | s, [] => some s
  | s, a :: as =>
    match step s a with
    | some s' => run s' as
    | none => none

end Booklit.Cache
