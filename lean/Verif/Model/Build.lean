import Verif.Model.Html
import Verif.Model.Collect
import Verif.Model.Json

/-!
Building a book: `Command.Build` (`/repo/booklitcmd/command.go`) with the writer (`/repo/render/writer.go`), including
what is on the disk and what becomes of it when something fails.
-/

namespace Booklit

/-- The files, by path. Different paths (after `filepath.Join`) are taken to be different files: links and file systems
that do not tell upper and lower case apart are left out, and so are directories, for which see `Outside`. -/
abbrev Disk := Str → Option Str

/-- Replace the contents of a file, or make it. -/
def Disk.put (d : Disk) (path text : Str) : Disk := fun p => if p = path then some text else d p

/-- What the operating system decides: whether directories can be made (`os.MkdirAll`), whether a file can be opened for
writing, whether everything can be written to it, and what it holds if rendering or writing was cut short: templates write
as they go, so this can be anything from nothing to almost all of the text. -/
structure Outside where
  mkdir : Str → Bool
  opens : Str → Bool
  writes : Str → Bool
  torn : Str → Str

/-- A rendering engine (render/engine.go): the extension of its files and `RenderSection`, with fuel. -/
structure Engine where
  ext : Str
  render : Heap → Nat → Nat → Res Str

/-- The HTML engine with the built-in templates (command.go:144, render/html.go). -/
def htmlEngine (S : Site) : Engine := ⟨htmlExt, fun h n i => h.page S n i⟩

/-- Open a file, emptying it (`O_TRUNC`, `os.Create`), and write a text to it, which may itself not be had. -/
def Outside.save (O : Outside) (path : Str) (text : Res Str) (d : Disk) : Res Unit × Disk :=
  if O.opens path = false then (.err (.plain q%"open"), d)
  else match text with
    | .ok t => if O.writes path then (.ok (), d.put path t) else (.err (.plain q%"write"), d.put path (O.torn path))
    | .err e => (.err e, d.put path (O.torn path))
    | .panic => (.panic, d.put path (O.torn path))
    | .more => (.more, d.put path (O.torn path))

/-- `writeSingleSection` (render/writer.go:119-141). An error on closing the file is not looked at. `k` is the fuel for
rendering. -/
def Heap.writeSingle (h : Heap) (O : Outside) (E : Engine) (dest : Str) (k i : Nat) (d : Disk) : Res Unit × Disk :=
  O.save (h.filePathOf dest E.ext i) (E.render h k i) d

/-- Go on unless something failed. -/
def andNext (r : Res Unit × Disk) (f : Disk → Res Unit × Disk) : Res Unit × Disk :=
  match r with
  | (.ok _, d) => f d
  | (r, d) => (r, d)

mutual
/-- `WriteSection` (render/writer.go:48-64), with fuel for the depth of nesting. -/
def Heap.writeSection (h : Heap) (O : Outside) (E : Engine) (dest : Str) (k : Nat) : Nat → Nat → Disk → Res Unit × Disk
  | 0, _, d => (.more, d)
  | n + 1, i, d =>
    andNext (if h.isPage i then h.writeSingle O E dest k i d else (.ok (), d)) fun d =>
      h.writeChildren O E dest k n (h.get i).children d
/-- Its loop over the children (render/writer.go:56-61). -/
def Heap.writeChildren (h : Heap) (O : Outside) (E : Engine) (dest : Str) (k : Nat) : Nat → List Nat → Disk → Res Unit × Disk
  | _, [], d => (.ok (), d)
  | 0, _ :: _, d => (.more, d)
  | n + 1, c :: cs, d => andNext (h.writeSection O E dest k n c d) fun d => h.writeChildren O E dest k n cs d
end

/-- `WriteSearchIndex` (render/writer.go:68-94). The index is made before the file is opened. -/
def Heap.writeIndex (h : Heap) (O : Outside) (E : Engine) (brokenOk short : Bool) (dest : Str) (k i : Nat) (d : Disk) :
    Res Unit × Disk :=
  match h.searchIndex brokenOk E.ext k i with
  | .ok ix => O.save (joinPath dest q%"search_index.json") (.ok (jsonIndex short ix)) d
  | .err e => (.err e, d)
  | .panic => (.panic, d)
  | .more => (.more, d)

/-- The flags of the command that matter for a build (command.go:21-51). -/
structure Job where
  input : Str
  out : Str := []
  sectionTag : Str := []
  sectionPath : Str := []
  saveIndex : Bool := false

/-- The section to render (command.go:161-174), after the book has been loaded with root `i`. -/
def Job.choose (J : Job) (W : World) (n k i : Nat) : M Nat := fun s =>
  if J.sectionTag ≠ [] then
    match s.heap.findTag k i J.sectionTag with
    | none => (.more, s)
    | some [] => (.err (.plain q%"unknown tag"), s)
    | some (g :: _) =>
      match g.sec with
      | some j => (.ok j, s)
      | none => (.panic, s)
  else if J.sectionPath ≠ [] then loadFile W n (some i) J.sectionPath [0] s
  else (.ok i, s)

/-- How a build ends: its result, the disk, and what was written to the standard output. -/
structure Built where
  res : Res Unit
  disk : Disk
  stdout : Str

/-- `Build` (command.go:126-203) after the choice of an engine. `n` is the fuel for loading, `k` the fuel for the rest.
Standard output is an open file that can be written. -/
def Job.build (J : Job) (W : World) (O : Outside) (E : Engine) (brokenOk short : Bool) (n k : Nat) (d : Disk) : Built :=
  match loadFile W n none J.input [0] ⟨[], []⟩ with
  | (.ok i, s) =>
    match J.choose W n k i s with
    | (.ok j, s) =>
      if J.out = [] then
        match E.render s.heap k j with
        | .ok t => ⟨.ok (), d, t⟩
        | .err e => ⟨.err e, d, O.torn []⟩
        | .panic => ⟨.panic, d, O.torn []⟩
        | .more => ⟨.more, d, O.torn []⟩
      else if O.mkdir J.out = false then ⟨.err (.plain q%"mkdir"), d, []⟩
      else
        let r := andNext (s.heap.writeSection O E J.out k k j d) fun d =>
          if J.saveIndex then s.heap.writeIndex O E brokenOk short J.out k i d else (.ok (), d)
        ⟨r.1, r.2, []⟩
    | (.err e, _) => ⟨.err e, d, []⟩
    | (.panic, _) => ⟨.panic, d, []⟩
    | (.more, _) => ⟨.more, d, []⟩
  | (.err e, _) => ⟨.err e, d, []⟩
  | (.panic, _) => ⟨.panic, d, []⟩
  | (.more, _) => ⟨.more, d, []⟩

end Booklit
