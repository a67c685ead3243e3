import Verif.Model.Section
import Verif.Model.Cache

/-!
Template handling of the two engines: `LoadTemplates` (`/repo/render/html.go` lines 108-153, `/repo/render/text.go`
lines 100-145, the same text), the choice of templates for pages, sections and styled content.

Simplifications: the template language is not modelled, only which texts parse and which are empty (`Lang`). A file is
taken to define only the template named after it (no `define` actions). Files do not change or disappear during a load (they do in `Verif.Model.Reload`).
When a file does not parse, html/template also leaves an unusable template under its name; here the set stays as it was
before that file.
-/

namespace Booklit.Templates

open Booklit

/-- Facts about the template language: which texts parse, and which are empty, i.e. contain only space and comments. -/
structure Lang where
  parses : Str → Bool
  blank : Str → Bool

/-- A set of templates: their texts by file name. -/
abbrev TSet := Str → Option Str

/-- A template file. -/
structure TFile where
  mtime : Nat
  text : Str
deriving DecidableEq

/-- The `*.tmpl` files in the template directory, as `filepath.Glob` lists them (html.go:110), by base name. -/
abbrev Dir := List (Str × TFile)

/-- The state of an engine as far as loading templates goes (html.go:80-83, text.go:67-68). -/
structure Eng where
  tmpl : TSet
  modTimes : Str → Option Nat

/-- `NewHTMLEngine`, `NewTextEngine` (html.go:91-99, text.go:78-88). -/
def Eng.new (builtin : TSet) : Eng := ⟨builtin, fun _ => none⟩

/-- `strings.TrimRight(s, "\n")` (html.go:144). -/
def trimNewlines (s : Str) : Str := (s.reverse.dropWhile (· == '\n')).reverse

/-- The loop over the modification times (html.go:115-129): whether to reload, and the times afterwards. -/
def checkTimes : (Str → Option Nat) → Bool → Dir → Bool × (Str → Option Nat)
  | times, reload, [] => (reload, times)
  | times, reload, f :: fs =>
    let newer :=
      match times f.1 with
      | none => true
      | some last => last < f.2.mtime
    checkTimes (Cache.set times f.1 (some f.2.mtime)) (reload || newer) fs

/-- `tmpl.New(name).Parse(text)` (html.go:146): an empty text does not replace a template that exists. `none` is a
parse error. -/
def Lang.define (L : Lang) (ts : TSet) (name text : Str) : Option TSet :=
  if L.parses text then
    if L.blank text && (ts name).isSome then some ts else some (Cache.set ts name (some text))
  else none

/-- The loop that parses the files (html.go:137-150): whether it succeeded, and the templates afterwards. -/
def Lang.parseAll (L : Lang) : TSet → Dir → Bool × TSet
  | ts, [] => (true, ts)
  | ts, f :: fs =>
    match L.define ts f.1 (trimNewlines f.2.text) with
    | some ts' => L.parseAll ts' fs
    | none => (false, ts)

/-- `LoadTemplates` (html.go:109-153): whether it succeeded, and the engine afterwards. -/
def Lang.loadTemplates (L : Lang) (builtin : TSet) (d : Dir) (e : Eng) : Bool × Eng :=
  let c := checkTimes e.modTimes false d
  if c.1 then
    let p := L.parseAll builtin d                                            -- html.go:135 resetTmpl
    (p.1, ⟨p.2, c.2⟩)
  else (true, ⟨e.tmpl, c.2⟩)

/-- `setTmpl` (html.go:302-312): the template called, without `.tmpl`; `none` is the error. -/
def TSet.find (ts : TSet) (name : Str) : Option Str := if (ts (name ++ q%".tmpl")).isSome then some name else none

/-- `RenderSection` of the HTML engine (html.go:171-194): the template a page is rendered with. -/
def TSet.htmlPage (ts : TSet) (style : Str) : Option Str :=
  if style ≠ [] then
    match ts.find (style ++ q%"-page") with
    | some t => some t
    | none => ts.find q%"page"
  else ts.find q%"page"

/-- `RenderSection` of the text engine (text.go:162-176). -/
def TSet.textPage (ts : TSet) (style : Str) : Option Str :=
  ts.find (if style ≠ [] then style ++ q%"-page" else q%"page")

/-- `VisitSection` of both engines (html.go:212-220, text.go:190-202): the template for a section inside a page. -/
def TSet.inner (ts : TSet) (style : Str) : Option Str :=
  ts.find (if style ≠ [] then style else q%"section")

end Booklit.Templates
