import Verif.Model.Ast

/-!
Specification vocabulary for syntax trees and source positions, independent of the parser.
-/

namespace Booklit

mutual
/-- All nodes of a syntax tree, itself included. -/
def Node.subs : Node → List Node
  | .str s => [.str s]
  | .invoke fn args loc => .invoke fn args loc :: subsL args
  | .seq ns => .seq ns :: subsL ns
  | .para ls => .para ls :: subsLL ls
  | .pre ls => .pre ls :: subsLL ls
def subsL : List Node → List Node
  | [] => []
  | n :: ns => n.subs ++ subsL ns
def subsLL : List (List Node) → List Node
  | [] => []
  | l :: ls => subsL l ++ subsLL ls
end

/-- The 1-based line on which the text after `pre` starts. -/
def lineOf (pre : Str) : Nat := 1 + pre.count '\n'

/-- The 1-based column (in characters) at which the text after `pre` starts. -/
def colOf (pre : Str) : Nat := 1 + (pre.reverse.takeWhile (· != '\n')).length

/-- Number of bytes of a text in UTF-8. -/
def byteLen (t : Str) : Nat := (t.map Char.utf8Size).sum

/-- Characters allowed in function names. -/
def isFnChar (c : Char) : Bool := c == '-' || (decide ('a' ≤ c) && decide (c ≤ 'z'))

/-- A call of `fn` really stands in `doc` at `loc`: there is a backslash followed by the name (and by
nothing that could prolong the name), and `loc` is the line, column and byte offset of the backslash. -/
def CallAt (doc fn : Str) (loc : Location) : Prop :=
  ∃ pre post, doc = pre ++ '\\' :: (fn ++ post) ∧ (∀ c ∈ post.head?, isFnChar c = false) ∧
    loc = ⟨lineOf pre, colOf pre, byteLen pre⟩

/-- Erase source positions. -/
def Location.erase (_ : Location) : Location := Location.zero

mutual
/-- A syntax tree without its source positions. -/
def Node.erase : Node → Node
  | .str s => .str s
  | .invoke fn args _ => .invoke fn (eraseL args) Location.zero
  | .seq ns => .seq (eraseL ns)
  | .para ls => .para (eraseLL ls)
  | .pre ls => .pre (eraseLL ls)
def eraseL : List Node → List Node
  | [] => []
  | n :: ns => n.erase :: eraseL ns
def eraseLL : List (List Node) → List (List Node)
  | [] => []
  | l :: ls => eraseL l :: eraseLL ls
end

mutual
/-- The literal text in a syntax tree, in order, leaving out arguments of calls. -/
def Node.plain : Node → Str
  | .str s => s
  | .invoke _ _ _ => []
  | .seq ns => plainL ns
  | .para ls => plainLL ls
  | .pre ls => plainLL ls
def plainL : List Node → Str
  | [] => []
  | n :: ns => n.plain ++ plainL ns
def plainLL : List (List Node) → Str
  | [] => []
  | l :: ls => plainL l ++ plainLL ls
end

end Booklit
