import Verif.Model.Cache

/-!
What it means for concurrent loads to be up to date.
-/

namespace Booklit.Cache

open Booklit

/-- The versions of a file, newest first, have increasing modification times. -/
def Increasing (versions : List FileInfo) : Prop := versions.Pairwise fun newer older => older.mtime < newer.mtime

/-- The syntax tree that a load evaluates. -/
def Loader.node? : Loader → Option Node
  | .has _ _ n => some n
  | .finished _ _ n => some n
  | _ => none

/-- A tree is what parsing this version of the file gives. -/
def IsParse (path : Str) (v : FileInfo) (n : Node) : Prop := parseFile path v = .ok n

end Booklit.Cache
