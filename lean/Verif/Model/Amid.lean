import Verif.Model.Answer

/-!
Loading while other requests are being served and files are being changed: `EvaluateFile` (`/repo/load/processor.go` lines
59-139) reads the shared cache and the files at moments that are not of its choosing. The sequential model is `evalFile`
(`Verif.Model.Eval`), what happens to the cache meanwhile is the subject of `Verif.Model.Cache`.
-/

namespace Booklit

/-- What one call of `EvaluateFile` finds: the files when it asks for the modification time (processor.go:60-65), the cache when
it looks there (processor.go:67-72), and the files when it reads the text (processor.go:85-112). -/
structure Moment where
  before : Str → Option FileInfo
  cache : List (Str × Node × Nat)
  after : Str → Option FileInfo

/-- Opening and reading a file (processor.go:85-95), which may be gone by now. -/
def readNow (files : Str → Option FileInfo) (path : Str) : Res Node :=
  match files path with
  | none => .err (.plain q%"read error")
  | some info => parseFile path info

/-- `EvaluateFile` (processor.go:59-139), as `evalFile`, amid other activities. Each call makes a section after it has read its
file, so the number of sections the load has made so far tells its calls apart: `env k` is what the call finds that makes section
`k`. What it puts into the shared cache is left in the state, but never read from there. -/
def evalAmid (W : World) (env : Nat → Moment) : Nat → Option Nat → Str → List Nat → M Nat
  | 0, _, _, _ => M.lift .more
  | n + 1, parent, path, plugins => do
    let st ← M.get
    match (env st.heap.length).before path with                              -- processor.go:60-65
    | none => M.lift (.err (.plain q%"stat error"))
    | some info =>
      let node ← match cached (env st.heap.length).cache path info.mtime with  -- processor.go:67-81
        | some node => pure node
        | none => M.lift (readNow (env st.heap.length).after path)             -- processor.go:85-112
      let i ← M.alloc { Sec.fresh parent path with plugins := plugins }
      evalBody (evalNode W n (fun p q => do
        let c ← evalAmid W env n (some p) q [0]
        M.upd p fun x => { x with children := x.children ++ [c] }) node) i
      remember path node info.mtime                                          -- processor.go:131-136
      pure i

/-- `LoadFile` (processor.go:37-44, 185-196), as `loadFile`, amid other activities. -/
def loadAmid (W : World) (env : Nat → Moment) (n : Nat) (path : Str) (plugins : List Nat) : M Nat := do
  let i ← evalAmid W env n none path plugins
  fun s =>
    match s.heap.collect n i with
    | .ok h => (.ok i, { s with heap := h })
    | .err e => (.err e, s)
    | .panic => (.panic, s)
    | .more => (.more, s)

/-- Answering a request (server.go:28-114), as `answer`, amid other activities. The sections are the request's own, so it starts
with none. -/
def answerAmid (W : World) (env : Nat → Moment) (E : Engine) (n k : Nat) (input path : Str) : Res Answer :=
  match requestTag E.ext path with
  | none => .ok .files
  | some _ =>
    match loadAmid W env n input [0] ⟨[], []⟩ with
    | (.ok i, s) =>
      match s.heap.requested E.ext k i path with
      | none => .more
      | some none => .ok .files
      | some (some j) => (E.render s.heap k j).map .page
    | (.err e, _) => .err e
    | (.panic, _) => .panic
    | (.more, _) => .more

end Booklit
