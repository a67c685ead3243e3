import Verif.Model.Answer
import Verif.Model.Shipped

/-!
The development server with templates of the user: `Server` and `ServeHTTP` (`/repo/booklitcmd/server.go`), `Serve`
(`/repo/booklitcmd/command.go:110-125`), one request at a time.
-/

namespace Booklit

open Templates Tmpl

/-- What the server remembers between requests (server.go:17-26): the parsed files, in the processor, and the templates with their
modification times, in the engine. -/
structure DevState where
  st : St
  eng : Eng

/-- A server that has just been started (command.go:110-120): no templates are loaded yet. -/
def DevState.new : DevState := ⟨⟨[], []⟩, .new builtinHtml⟩

/-- Answering a request (server.go:28-114). `dir` is the directory of templates as it is now (`none`: no directory was named, so
templates are not loaded, server.go:50). If they cannot be loaded, the answer is an error, but the times at which they were changed
are remembered (html.go:109-153). Left out: a malformed name of the directory. -/
def devAnswer (W : World) (S : Site) (dir : Option Dir) (n k : Nat) (input path : Str) (s : DevState) : Res Answer × DevState :=
  match requestTag htmlExt path with
  | none => (.ok .files, s)
  | some _ =>
    match loadFile W n none input [0] s.st with
    | (.ok i, t) =>
      match t.heap.requested htmlExt k i path with
      | none => (.more, ⟨t, s.eng⟩)
      | some none => (.ok .files, ⟨t, s.eng⟩)
      | some (some j) =>
        match dir with
        | none => ((pageWith htmlMode s.eng.tmpl S t.heap k j).map .page, ⟨t, s.eng⟩)
        | some d =>
          let r := (langOf htmlMode).loadTemplates builtinHtml d s.eng
          if r.1 then ((pageWith htmlMode r.2.tmpl S t.heap k j).map .page, ⟨t, r.2⟩)
          else (.err (.plain q%"template"), ⟨t, r.2⟩)
    | (.err e, t) => (.err e, ⟨t, s.eng⟩)
    | (.panic, t) => (.panic, ⟨t, s.eng⟩)
    | (.more, t) => (.more, ⟨t, s.eng⟩)

end Booklit
