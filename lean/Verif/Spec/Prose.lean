import Verif.Spec.Surface
import Verif.Spec.Syntax
import Verif.Model.Content

/-!
How prose, verbatim text and blocks are written down. Refers neither to the parser nor to surface documents.
-/

namespace Booklit

open Booklit.Src (isBlank isText allBlank hasClose CBody)

def special (c : Char) : Bool := c == '\\' || c == '{' || c == '}'

/-- Escape the characters that are markup. -/
def escape : Str → Str
  | [] => []
  | c :: t => if special c then '\\' :: c :: escape t else c :: escape t

/-- `intercalate`, spelled out. -/
def joined (sep : Str) : List Str → Str
  | [] => []
  | [a] => a
  | a :: b :: r => a ++ sep ++ joined sep (b :: r)

/-- The source of paragraphs of lines: lines end with `nl`, paragraphs are separated by an empty line. -/
def proseSrc (nl : Str) (text : List (List Str)) : Str :=
  joined (nl ++ nl) (text.map fun p => joined nl (p.map escape))

/-- A line of prose: not empty, no line break, not beginning with a blank. -/
def lineOk (l : Str) : Prop := l ≠ [] ∧ (∀ c ∈ l, c ≠ '\r' ∧ c ≠ '\n') ∧ ∀ c ∈ l.head?, isBlank c = false

def proseOk (text : List (List Str)) : Prop := text ≠ [] ∧ ∀ p ∈ text, p ≠ [] ∧ ∀ l ∈ p, lineOk l

/-- Names of functions. -/
def nameOk (fn : Str) : Prop := fn ≠ [] ∧ ∀ c ∈ fn, c = '-' ∨ ('a' ≤ c ∧ c ≤ 'z')

/-- A line of a block: indentation and text. -/
abbrev BLine := Str × Str

/-- A block as it is written: `{{{`, lines, `}}}`, or `{{`, escaped lines, `}}`. -/
inductive Block where
  | verbatim (ls : List BLine)
  | preformatted (ls : List BLine)

def Block.lines : Block → List BLine
  | .verbatim ls => ls
  | .preformatted ls => ls

def Block.src (nl : Str) : Block → Str
  | .verbatim ls => ['{', '{', '{'] ++ nl ++ (ls.map fun l => l.1 ++ l.2 ++ nl).flatten ++ ['}', '}', '}']
  | .preformatted ls => ['{', '{'] ++ nl ++ (ls.map fun l => l.1 ++ escape l.2 ++ nl).flatten ++ ['}', '}']

/-- The lines of a block: blank indentation, then text that does not start with a blank and has no line
break; verbatim text must not contain `}}}`. -/
def Block.ok : Block → Prop
  | .verbatim ls => ∀ l ∈ ls, allBlank l.1 ∧ (∀ c ∈ l.2.head?, isBlank c = false) ∧
      (∀ c ∈ l.2, c ≠ '\r' ∧ c ≠ '\n') ∧ ¬ hasClose l.2
  | .preformatted ls => ∀ l ∈ ls, allBlank l.1 ∧ (∀ c ∈ l.2.head?, isBlank c = false) ∧ ∀ c ∈ l.2, c ≠ '\r' ∧ c ≠ '\n'

/-- What the lines should be: the indentation of the first line is removed from each line's own. -/
def Block.dedented (b : Block) : List Str :=
  b.lines.map fun l => l.1.drop (b.lines.head?.getD ([], [])).1.length ++ l.2

/-- All nodes are strings. -/
def AllStr (ns : List Node) : Prop := ∀ n ∈ ns, ∃ u, n = .str u

/-- Several blocks as one content. -/
def oneBody : List Content → Content
  | [] => .nil
  | [c] => c
  | cs => .seq cs

/-- Prose as plain text: the lines of a paragraph in one line, an empty line after each paragraph. -/
def plainProse (text : List (List Str)) : Str := (text.map fun p => joined [' '] p ++ q%"\n\n").flatten

end Booklit
