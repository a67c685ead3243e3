import Verif.Model.Str
import Verif.Model.Json

/-!
What the items of the message of a syntax error mean.
-/

namespace Booklit

/-- A text in double quotes, with line breaks, tabs and backslashes written as in Go. -/
def inQuotes (x : Str) : Str :=
  ['"'] ++ (x.flatMap fun c => if c = '\n' then q%"\\n" else if c = '\r' then q%"\\r" else if c = '\t' then q%"\\t" else
    if c = '\\' then q%"\\\\" else [c]) ++ ['"']

/-- The first character, if any, is one of those. -/
def BeginsWith (next : Str) (p : Char → Prop) : Prop := ∃ c rest, next = c :: rest ∧ p c

/-- What is named: a text in quotes, any character, or a character of a class. -/
inductive Names : Str → (Str → Prop) → Prop
  | text (x : Str) : Names (inQuotes x) (x <+: ·)
  | any : Names q%"." (· ≠ [])
  | blank : Names q%"[ \\t]" (BeginsWith · fun c => c = ' ' ∨ c = '\t')
  | name : Names q%"[a-z-]" (BeginsWith · fun c => ('a' ≤ c ∧ c ≤ 'z') ∨ c = '-')
  | special : Names q%"[\\\\{}]" (BeginsWith · fun c => c = '\\' ∨ c = '{' ∨ c = '}')
  | ordinary : Names q%"[^\\\\{}\\r\\n]" (BeginsWith · fun c => ¬ (c = '\\' ∨ c = '{' ∨ c = '}' ∨ c = '\r' ∨ c = '\n'))
  | verbatim : Names q%"[^\\r\\n}]" (BeginsWith · fun c => ¬ (c = '\r' ∨ c = '\n' ∨ c = '}'))

/-- What an item says of the text that follows: what it names is not there; with an exclamation mark, it is there; `EOF`, there is something. -/
def Lacks (item next : Str) : Prop :=
  (∃ p, Names item p ∧ ¬ p next) ∨ (∃ i p, item = '!' :: i ∧ Names i p ∧ p next) ∨ (item = q%"EOF" ∧ next ≠ [])

/-- Items in a sentence: `a`, `a or b`, `a, b or c`. -/
def orList : List Str → Str
  | [] => []
  | [a] => a
  | [a, b] => a ++ q%" or " ++ b
  | a :: rest => a ++ q%", " ++ orList rest

/-- One after the other in the order of Go's strings, without repetition. -/
def StrictlySorted (items : List Str) : Prop := items.Pairwise fun a b => strLe a b = true ∧ a ≠ b

end Booklit
