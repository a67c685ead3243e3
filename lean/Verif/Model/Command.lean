import Verif.Model.Build
import Verif.Model.Shipped
import Verif.Model.ErrorPage

/-!
The command: `Main` (`/repo/booklitcmd/main.go`), `Command.Execute`, `Command.Build` and `reexec` (`/repo/booklitcmd/command.go`).

Left out: the parsing of flags (a library), logging, profiling, and `--serve`, for which see `Model/Answer.lean` and `Model/Serve.lean`.
-/

namespace Booklit

open Templates Tmpl

/-- The flags that matter for a build (command.go:21-51). -/
structure Options extends Job where
  brokenOk : Bool := false
  plugins : List Str := []
  htmlTemplates : Str := []
  textExt : Str := []
  textTemplates : Str := []

/-- A program that is linked with plugins: the plugins registered by name, and their methods (plugin.go). -/
structure Linked where
  registry : Str → Option Nat
  foreign : Nat → Str → Option Foreign

/-- What a command runs in. -/
structure Machine where
  /-- the files, for loading -/
  fs : Str → Option FileInfo
  /-- the files, for error reports -/
  bytes : Disk8
  /-- `filepath.Glob` of `*.tmpl` in a directory; `none` is a malformed pattern -/
  glob : Str → Option Dir
  /-- what deferred contents turn out to be -/
  force : Nat → Option Content
  /-- whether `encoding/json` writes `\b` and `\f` -/
  short : Bool
  outside : Outside
  wording : Wording
  /-- what Go prints when a program crashes -/
  trace : List Byte
  /-- the program that is running -/
  self : Linked
  /-- `go install` of a program with this text (command.go:234-245): what is printed meanwhile, and the program -/
  compile : Str → List Byte × Option Linked
  /-- the error of `go install`, and of a program that cannot be run -/
  compileError : List Byte

/-- `resetTmpl` and `LoadTemplates` (html.go:101-153, text.go:100-146), as `Build` calls them (command.go:131-156). A directory that is
not there has no templates. -/
def Machine.engine (m : Machine) (M : Tmpl.Mode) (builtin : TSet) (dir : Str) (S : Site) : Res Engine :=
  if dir = [] then .ok (engineWith M builtin S)
  else
    match m.glob dir with
    | none => .err (.plain q%"glob")
    | some d =>
      let r := (langOf M).loadTemplates builtin d (.new builtin)
      if r.1 then .ok (engineWith M r.2.tmpl S) else .err (.plain q%"template")

/-- The world that a program loads books in (command.go:58 sets `AllowBrokenReferences`). -/
def Machine.world (m : Machine) (p : Linked) (F : Options) : World := ⟨m.fs, p.registry, p.foreign, F.brokenOk⟩

/-- `Build` (command.go:126-203). -/
def Options.build (F : Options) (m : Machine) (p : Linked) (n k : Nat) (d : Disk) : Built :=
  let S : Site := ⟨F.brokenOk, m.force⟩
  match if F.textExt ≠ [] then m.engine (textMode F.textExt) builtinText F.textTemplates S
    else m.engine htmlMode builtinHtml F.htmlTemplates S with
  | .ok E => F.toJob.build (m.world p F) m.outside E F.brokenOk m.short n k d
  | .err e => ⟨.err e, d, []⟩
  | .panic => ⟨.panic, d, []⟩
  | .more => ⟨.more, d, []⟩

/-- How a command ends. -/
structure Outcome where
  exit : Nat
  stdout : Str
  stderr : List Byte
  disk : Disk

/-- `Main` after flags have been parsed (main.go:32-43); a crash ends with status 2. `none`: more fuel is needed. -/
def Built.outcome (B : Built) (m : Machine) : Option Outcome :=
  match B.res with
  | .ok _ => some ⟨0, B.stdout, [], B.disk⟩
  | .err e => some ⟨1, B.stdout, e.print m.wording m.bytes, B.disk⟩
  | .panic => some ⟨2, B.stdout, m.trace, B.disk⟩
  | .more => none

/-- The text of the program that is linked with plugins (command.go:219-226). -/
def reexecSource (plugins : List Str) : Str :=
  q%"package main\nimport \"github.com/vito/booklit/booklitcmd\"\n"
    ++ plugins.flatMap (fun p => q%"import _ \"" ++ p ++ q%"\"\n")
    ++ q%"func main() {\n\tbooklitcmd.Main()\n}\n"

/-- `Main` and `Execute` (main.go:12-43, command.go:53-108): with plugins, a program that has them is compiled and run in place of
this one (command.go:62-73, 205-266), with the same arguments; its output and its status are passed on. What `go install` prints is
counted as written to the standard error. -/
def Options.main (F : Options) (m : Machine) (n k : Nat) (d : Disk) : Option Outcome :=
  if F.plugins = [] then (F.build m m.self n k d).outcome m
  else
    match m.compile (reexecSource F.plugins) with
    | (out, none) => some ⟨1, [], out ++ m.compileError ++ [10], d⟩
    | (out, some p) => ((F.build m p n k d).outcome m).map fun o => { o with stderr := out ++ o.stderr }

end Booklit
