import Verif.Model.Templates

/-!
Requests to the development server, handled concurrently: `ServeHTTP` (`/repo/booklitcmd/server.go` lines 28-82), which
uses one engine for all requests, with `RenderSection` (`/repo/render/html.go` lines 171-194) as several steps.

Simplifications: what is rendered is not modelled, only which template, which section and which template sets go into
it (`Out`). Loading a section and the file server are one step each; they do not touch the engine (loading is the subject
of `Verif.Model.Cache`).
-/

namespace Booklit.Serve

open Booklit Booklit.Templates

/-- A section loaded for a request: every load makes new ones (server.go:100). -/
structure Page where
  id : Nat
  style : Str
deriving DecidableEq

/-- What a rendering consists of: the template and the section that were executed, and the template sets used for the
parts (html.go:314-334: every part looks at the engine's templates again). -/
structure Out where
  template : Option Str
  section_ : Option Page
  parts : List TSet

/-- What the client gets. -/
inductive Response where
  | page (o : Out)
  | error
  | file
  /-- the connection is closed: a panic, recovered by net/http -/
  | closed

/-- How far a request has come. -/
inductive Phase where
  | idle
  /-- has its section (server.go:35-46) -/
  | loaded (p : Page)
  /-- holds the lock (server.go:48-49) -/
  | locked (p : Page)
  /-- the templates are loaded (server.go:51-59) -/
  | ready (p : Page)
  /-- after `engine.data = con` (html.go:172) -/
  | given (p : Page)
  /-- a template has been found (html.go:183-191) -/
  | chosen (p : Page)
  /-- executes a template (html.go:193, 317-323) -/
  | running (p : Page) (o : Out)
  /-- has responded, still holds the lock (server.go:76) -/
  | sent (r : Response)
  /-- has responded -/
  | done (r : Response)

/-- The engine (html.go:80-86). -/
structure Engine where
  tmpl : TSet
  template : Option Str
  data : Option Page

/-- The server. -/
structure Sys where
  engine : Engine
  lock : Option Nat
  req : Nat → Phase

/-- At the start. -/
def Sys.init (ts : TSet) : Sys := ⟨⟨ts, none, none⟩, none, fun _ => .idle⟩

/-- The outcome of `loadRequestedSection` (server.go:35-46). -/
inductive Loaded where
  | page (p : Page)
  | missing
  | failed
deriving DecidableEq

/-- What can happen; requests are told apart by numbers. -/
inductive Action where
  /-- server.go:35-46 -/
  | load (r : Nat) (l : Loaded)
  /-- server.go:48 -/
  | lock (r : Nat)
  /-- `LoadTemplates` succeeds, or there is no template directory: then the set stays the same (server.go:51-59) -/
  | templates (r : Nat) (ts : TSet)
  /-- `LoadTemplates` fails (server.go:53-58); the engine may have got another set -/
  | noTemplates (r : Nat) (ts : TSet)
  /-- html.go:172 -/
  | give (r : Nat)
  /-- html.go:174-191 -/
  | choose (r : Nat)
  /-- html.go:193 -/
  | start (r : Nat)
  /-- html.go:325-331 -/
  | part (r : Nat)
  /-- rendering succeeds and is copied to the response (server.go:68-76) -/
  | finish (r : Nat)
  /-- rendering fails (server.go:69-74) -/
  | fail (r : Nat)
  /-- the deferred unlock (server.go:49) -/
  | unlock (r : Nat)
  /-- something panics while the lock is held: unlocks and closes the connection -/
  | panic (r : Nat)

/-- Request `r` moves on. -/
def Sys.go (s : Sys) (r : Nat) (p : Phase) : Sys := { s with req := Cache.set s.req r p }

/-- Whether a request holds the lock. -/
def Phase.inside : Phase → Bool
  | .locked _ | .ready _ | .given _ | .chosen _ | .running _ _ | .sent _ => true
  | _ => false

/-- One step; `none` when it cannot happen now. -/
def step (s : Sys) : Action → Option Sys
  | .load r l =>
    match s.req r with
    | .idle =>
      match l with
      | .page p => some (s.go r (.loaded p))
      | .missing => some (s.go r (.done .file))
      | .failed => some (s.go r (.done .error))
    | _ => none
  | .lock r =>
    match s.req r, s.lock with
    | .loaded p, none => some { s.go r (.locked p) with lock := some r }
    | _, _ => none
  | .templates r ts =>
    match s.req r with
    | .locked p => some { s.go r (.ready p) with engine := { s.engine with tmpl := ts } }
    | _ => none
  | .noTemplates r ts =>
    match s.req r with
    | .locked _ => some { s.go r (.sent .error) with engine := { s.engine with tmpl := ts } }
    | _ => none
  | .give r =>
    match s.req r with
    | .ready p => some { s.go r (.given p) with engine := { s.engine with data := some p } }
    | _ => none
  | .choose r =>
    match s.req r with
    | .given p =>
      match s.engine.tmpl.htmlPage p.style with
      | some t => some { s.go r (.chosen p) with engine := { s.engine with template := some t } }
      | none => some (s.go r (.sent .error))
    | _ => none
  | .start r =>
    match s.req r with
    | .chosen p => some (s.go r (.running p ⟨s.engine.template, s.engine.data, []⟩))
    | _ => none
  | .part r =>
    match s.req r with
    | .running p o => some (s.go r (.running p { o with parts := o.parts ++ [s.engine.tmpl] }))
    | _ => none
  | .finish r =>
    match s.req r with
    | .running _ o => some (s.go r (.sent (.page o)))
    | _ => none
  | .fail r =>
    match s.req r with
    | .running _ _ => some (s.go r (.sent .error))
    | _ => none
  | .unlock r =>
    match s.req r with
    | .sent x => some { s.go r (.done x) with lock := none }
    | _ => none
  | .panic r =>
    if (s.req r).inside then some { s.go r (.done .closed) with lock := none } else none

/-- Several steps. -/
def run : Sys → List Action → Option Sys
  | s, [] => some s
  | s, a :: as =>
    match step s a with
    | some s' => run s' as
    | none => none

end Booklit.Serve
