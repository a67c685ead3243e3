import Verif.Model.Str

/-!
The syntax tree: `/repo/ast/node.go`.
-/

namespace Booklit

/-- `ast.Location` (ast/node.go:39-43): line, column and byte offset. -/
structure Location where
  line : Nat
  col : Nat
  off : Nat
deriving DecidableEq, Repr, Inhabited

/-- The zero `ast.Location`. -/
def Location.zero : Location := ⟨0, 0, 0⟩

/-- `ast.Node` (ast/node.go:12-95): `String` (line 27), `Invoke` (46-51), `Sequence` (73),
`Paragraph` (82), `Preformatted` (90). A Go `Sequence` is a slice of nodes, and a `Paragraph` or
`Preformatted` is a slice of `Sequence`s, i.e. a list of lists of nodes. -/
inductive Node where
  | str (s : Str)
  | invoke (fn : Str) (args : List Node) (loc : Location)
  | seq (ns : List Node)
  | para (lines : List (List Node))
  | pre (lines : List (List Node))
deriving Inhabited, Repr

end Booklit
