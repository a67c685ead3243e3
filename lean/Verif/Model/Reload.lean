import Verif.Model.Templates

/-!
`LoadTemplates` (`/repo/render/html.go` lines 108-153, `/repo/render/text.go` lines 100-145) step by step, while the
directory is edited: the listing, each `os.Stat` and each `ioutil.ReadFile` are steps of their own, and between any two
of them files may be written or removed. `Verif.Model.Templates` has the whole load as one step.

There is one load at a time: the development server holds `buildLock` from before `LoadTemplates` until the page is
rendered (`/repo/booklitcmd/server.go` lines 48-76, see `Verif.Model.Serve` for the lock).

Simplifications: as in `Verif.Model.Templates`, but for edits during the load. Reading one file is one step.
-/

namespace Booklit.Reload

open Booklit Booklit.Templates

/-- How far the request that holds the lock has come. -/
inductive Phase where
  /-- nobody holds the lock -/
  | idle
  /-- in the loop over the modification times (html.go:115-130): the files still to look at, all that were listed, and
  `shouldReload` -/
  | stat (todo all : List Str) (reload : Bool)
  /-- in the loop that parses (html.go:138-150): the files still to read -/
  | read (todo : List Str)
  /-- `LoadTemplates` returned nil (html.go:132-134, 152); the page is being rendered -/
  | ready
  /-- `LoadTemplates` returned an error (html.go:118-120, 140-142, 147-149) -/
  | failed
deriving DecidableEq

/-- The whole system. `disk` holds all versions of each file there have been, the latest first; `present` lists the
files that exist at the moment. -/
structure Sys where
  disk : Str → List TFile
  present : List Str
  eng : Eng
  phase : Phase

/-- At the start: a new engine (html.go:91-99) and an empty directory. -/
def Sys.init (builtin : TSet) : Sys := ⟨fun _ => [], [], Eng.new builtin, .idle⟩

/-- What can happen. -/
inductive Action where
  /-- somebody writes a file -/
  | edit (name : Str) (f : TFile)
  /-- somebody removes a file -/
  | remove (name : Str)
  /-- a request takes the lock (server.go:48) and lists the directory (html.go:110-113), in any order -/
  | begin (names : List Str)
  /-- one round of the first loop, or its end (html.go:116-136) -/
  | stat
  /-- one round of the second loop, or its end (html.go:138-152) -/
  | read
  /-- the request gives back the lock (server.go:49) -/
  | release
deriving DecidableEq

/-- Somebody writes a file. -/
def Sys.edited (s : Sys) (n : Str) (f : TFile) : Sys :=
  { s with disk := Cache.set s.disk n (f :: s.disk n), present := if n ∈ s.present then s.present else n :: s.present }

/-- Somebody removes a file. -/
def Sys.removed (s : Sys) (n : Str) : Sys := { s with present := s.present.filter (· ≠ n) }

/-- Whether a file counts as changed (html.go:124-127). -/
def newerThan (last : Option Nat) (mtime : Nat) : Bool :=
  match last with
  | none => true
  | some t => t < mtime

/-- A round of the first loop, for a file (html.go:117-129). -/
def Sys.statFile (s : Sys) (n : Str) (todo all : List Str) (reload : Bool) : Sys :=
  match s.disk n with
  | f :: _ =>
    if n ∈ s.present then
      { s with
        eng := ⟨s.eng.tmpl, Cache.set s.eng.modTimes n (some f.mtime)⟩
        phase := .stat todo all (reload || newerThan (s.eng.modTimes n) f.mtime) }
    else { s with phase := .failed }
  | [] => { s with phase := .failed }

/-- A round of the second loop, for a file (html.go:139-149). -/
def Sys.readFile (L : Lang) (s : Sys) (n : Str) (todo : List Str) : Sys :=
  match s.disk n with
  | f :: _ =>
    if n ∈ s.present then
      match L.define s.eng.tmpl n (trimNewlines f.text) with
      | some ts => { s with eng := ⟨ts, s.eng.modTimes⟩, phase := .read todo }
      | none => { s with phase := .failed }
    else { s with phase := .failed }
  | [] => { s with phase := .failed }

/-- One step; `none` when it cannot happen now. -/
def step (L : Lang) (builtin : TSet) (s : Sys) : Action → Option Sys
  | .edit n f => some (s.edited n f)
  | .remove n => some (s.removed n)
  | .begin names =>                                                          -- html.go:110-115
    match s.phase with
    | .idle => if names.isPerm s.present then some { s with phase := .stat names names false } else none
    | _ => none
  | .stat =>                                                                 -- html.go:116-136
    match s.phase with
    | .stat (n :: todo) all reload => some (s.statFile n todo all reload)
    | .stat [] all true => some { s with eng := ⟨builtin, s.eng.modTimes⟩, phase := .read all }
    | .stat [] _ false => some { s with phase := .ready }
    | _ => none
  | .read =>                                                                 -- html.go:138-152
    match s.phase with
    | .read (n :: todo) => some (s.readFile L n todo)
    | .read [] => some { s with phase := .ready }
    | _ => none
  | .release =>                                                              -- server.go:49
    match s.phase with
    | .ready => some { s with phase := .idle }
    | .failed => some { s with phase := .idle }
    | _ => none

/-- Several steps. -/
def run (L : Lang) (builtin : TSet) : Sys → List Action → Option Sys
  | s, [] => some s
  | s, a :: as =>
    match step L builtin s a with
    | some s' => run L builtin s' as
    | none => none

end Booklit.Reload
