import Verif.Model.Lexer
import Verif.Spec.Surface
import Verif.Spec.Syntax

/-!
Specification for C104: what Booklit code consists of, and how it should be coloured.
-/

namespace Booklit

/-- What code consists of: running text, escaped characters, names of calls, braces, verbatim text and comments, each with what delimits
it. -/
inductive Lexeme where
  | text (s : Str)
  | esc (c : Char)
  | call (fn : Str)
  | opn
  | cls
  | verb (t : Str)
  | cmt (b : Src.CBody)

/-- How it is written. -/
def Lexeme.print : Lexeme → Str
  | .text s => s
  | .esc c => ['\\', c]
  | .call fn => '\\' :: fn
  | .opn => ['{']
  | .cls => ['}']
  | .verb t => q%"{{{" ++ t ++ q%"}}}"
  | .cmt b => q%"{-" ++ b.print ++ q%"-}"

/-- How it should be coloured. -/
def Lexeme.hue : Lexeme → Hue
  | .text _ | .esc _ => .text
  | .call _ => .keyword
  | .opn | .cls => .builtin
  | .verb _ => .string
  | .cmt _ => .comment

def printLexemes (ls : List Lexeme) : Str := ls.flatMap Lexeme.print

/-- All characters of a part have its colour. -/
def paintLexemes (ls : List Lexeme) : List Hue := ls.flatMap fun l => l.print.map fun _ => l.hue

/-- A text that begins with an escaped character or with none that could be. -/
def Clear (u : Str) : Prop :=
  (∀ c ∈ u.head?, isSpecial c = false) ∨ ∃ c v, u = '\\' :: c :: v ∧ isSpecial c = true

/-- A part of code is what it should be, if `u` follows: text has no special characters; an escaped character is followed by another one
or by text; names are not prolonged; an opening brace does not open something else; verbatim text has no two braces in a row; comments
are nested. -/
def Lexeme.Sits (u : Str) : Lexeme → Prop
  | .text s => ∀ c ∈ s, isSpecial c = false
  | .esc c => isSpecial c = true ∧ Clear u
  | .call fn => fn ≠ [] ∧ (∀ c ∈ fn, isFnChar c = true) ∧ ∀ c ∈ u.head?, isFnChar c = false
  | .opn => (∀ v, u ≠ '{' :: '{' :: v) ∧ u.head? ≠ some '-'
  | .cls => True
  | .verb t => (∀ a b, t ≠ a ++ '}' :: '}' :: b) ∧ t.getLast? ≠ some '}'
  | .cmt b => b.ok

/-- All parts of a code sit. -/
def LexemesOk : List Lexeme → Prop
  | [] => True
  | l :: ls => l.Sits (printLexemes ls) ∧ LexemesOk ls

end Booklit
