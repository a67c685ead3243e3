import Verif.Model.Str

/-!
File paths on Unix: the functions of Go's `path/filepath` used by booklit (`Join`, `Dir`, through `Clean`), as
documented there: lexical, with `/` as separator.
-/

namespace Booklit

/-- The parts of a path between slashes; `cur` is the current part. -/
def splitSlash (cur : Str) : Str → List Str
  | [] => [cur]
  | c :: s => if c = '/' then cur :: splitSlash [] s else splitSlash (cur ++ [c]) s

/-- Processing of the parts by `filepath.Clean`: drop empty parts and `.`, let `..` remove the part before it (at
the root of a rooted path it is dropped, at the start of a relative one kept). `out` holds the result in reverse. -/
def cleanParts (rooted : Bool) (out : List Str) : List Str → List Str
  | [] => out.reverse
  | p :: ps =>
    if p = [] ∨ p = q%"." then cleanParts rooted out ps
    else if p = q%".." then
      match out with
      | o :: out' => if o = q%".." then cleanParts rooted (q%".." :: out) ps else cleanParts rooted out' ps
      | [] => if rooted then cleanParts rooted [] ps else cleanParts rooted [q%".."] ps
    else cleanParts rooted (p :: out) ps

/-- Parts separated by slashes. -/
def joinSlash : List Str → Str
  | [] => []
  | [p] => p
  | p :: q :: ps => p ++ '/' :: joinSlash (q :: ps)

/-- `filepath.Clean`. -/
def cleanPath (s : Str) : Str :=
  let rooted := s.head? == some '/'
  let body := joinSlash (cleanParts rooted [] (splitSlash [] s))
  if rooted then '/' :: body else if body = [] then q%"." else body

/-- `filepath.Join(a, b)`. -/
def joinPath (a b : Str) : Str :=
  if a ≠ [] then cleanPath (a ++ '/' :: b) else if b ≠ [] then cleanPath b else []

/-- `filepath.Dir`: everything up to and including the last slash, cleaned. -/
def dirPath (s : Str) : Str := cleanPath (s.reverse.dropWhile (· != '/')).reverse

end Booklit
