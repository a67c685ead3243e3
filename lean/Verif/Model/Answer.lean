import Verif.Model.Build
import Verif.Model.Server

/-!
What the development server answers: `ServeHTTP` (`/repo/booklitcmd/server.go:28-79`) with `loadRequestedSection`
(server.go:81-114), one request at a time (see `Model/Serve.lean` for several at once).
-/

namespace Booklit

/-- An answer that is not an error: a page, or whatever the file server has for the path. -/
inductive Answer where
  | page (text : Str)
  | files

/-- Answering a request for `path` (server.go:28-114). Errors are answered with status 500 (`ErrorResponse`), so they are the
result. `n` is the fuel for loading, `k` the fuel for the rest. Templates of the user (server.go:50-58) are left out. -/
def answer (W : World) (E : Engine) (n k : Nat) (input path : Str) : M Answer := fun s =>
  match requestTag E.ext path with
  | none => (.ok .files, s)
  | some _ =>
    match loadFile W n none input [0] s with
    | (.ok i, s) =>
      match s.heap.requested E.ext k i path with
      | none => (.more, s)
      | some none => (.ok .files, s)
      | some (some j) => ((E.render s.heap k j).map .page, s)
    | (.err e, s) => (.err e, s)
    | (.panic, s) => (.panic, s)
    | (.more, s) => (.more, s)

end Booklit
