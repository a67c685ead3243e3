import Verif.Spec.Manuscript
import Verif.Spec.Surface
import Verif.Lemmas.PathL

/-!
Manuscripts in several files: the sections of a manuscript are written down inside their parent, or in a file of their own, with a name
relative to the directory of the file that includes it. Taken from elsewhere: `joinPath` (a path relative to a directory) and `dirPath`
(the directory of a file), which are Go's `filepath.Join` and `filepath.Dir`.
-/

namespace Booklit.Ms

open Booklit

/-- A manuscript; each of the sections below may have a file of its own. -/
inductive Script where
  | mk (title : List Span) (tags : List Str) (split hide : Bool) (body : List Blk) (subs : List (Option Str × Script))

mutual
/-- The manuscript, no matter how it is distributed over files. -/
def Script.whole : Script → Part
  | .mk title tags split hide body subs => .mk title tags split hide body (wholes subs)
def wholes : List (Option Str × Script) → List Part
  | [] => []
  | (_, s) :: r => s.whole :: wholes r
end

mutual
/-- What is in the file of the manuscript: the sections below it, or the names of their files. -/
def Script.src (nl : Str) : Script → Str
  | .mk title tags split hide body subs =>
    q%"\\title{" ++ srcSpans title ++ q%"}" ++ (tags.map fun g => q%"{" ++ escape g ++ q%"}").flatten ++ nl ++ nl ++
    (if split then q%"\\split-sections" ++ nl ++ nl else []) ++
    (if hide then q%"\\omit-children-from-table-of-contents" ++ nl ++ nl else []) ++ srcBlks nl body ++ srcScripts nl subs
def srcScripts (nl : Str) : List (Option Str × Script) → Str
  | [] => []
  | (none, s) :: r => q%"\\section{" ++ nl ++ s.src nl ++ q%"}" ++ nl ++ nl ++ srcScripts nl r
  | (some g, _) :: r => q%"\\include-section{" ++ g ++ q%"}" ++ nl ++ nl ++ srcScripts nl r
end

/-- The name of a file, without characters that mean something in booklit. It may lead to another directory, down or up. -/
def nameFine (g : Str) : Prop := g ≠ [] ∧ ∀ c ∈ g, Src.isText c = true

/-- A file with a manuscript, with either kind of line ends. -/
def InFile (fs : Str → Option FileInfo) (path : Str) (s : Script) : Prop :=
  ∃ nl i, (nl = ['\n'] ∨ nl = ['\r', '\n']) ∧ fs path = some i ∧ i.data = some (s.src nl)

mutual
/-- The files of the sections below are where their names say, from the directory `D`; the sections below those have names from the
directory of their file. -/
def Script.Stored (fs : Str → Option FileInfo) (D : Str) : Script → Prop
  | .mk _ _ _ _ _ subs => storedAll fs D subs
def storedAll (fs : Str → Option FileInfo) (D : Str) : List (Option Str × Script) → Prop
  | [] => True
  | (none, s) :: r => s.Stored fs D ∧ storedAll fs D r
  | (some g, s) :: r => nameFine g ∧ InFile fs (joinPath D g) s ∧ s.Stored fs (dirPath (joinPath D g)) ∧ storedAll fs D r
end

end Booklit.Ms
