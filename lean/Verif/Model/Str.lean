/-!
Texts. Go strings holding valid UTF-8 are modelled as lists of Unicode scalar values
(`Char`); `q%"..."` writes such a list literally, so that it reduces in the kernel.
-/

namespace Booklit

/-- A text: the sequence of runes of a valid UTF-8 Go string. -/
abbrev Str := List Char

open Lean in
/-- `q%"abc"` is the list literal `['a','b','c']`. -/
macro:max "q%" s:str : term => do
  let cs := s.getString.toList.toArray.map fun c => Syntax.mkCharLit c
  `(([$[$cs],*] : Str))

end Booklit
