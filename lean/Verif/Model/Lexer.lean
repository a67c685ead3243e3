import Verif.Model.DocsLit

/-!
The lexer for Booklit code, by which code is coloured: `/repo/chroma/booklit_lexer.go`. The rules are those of the file. How a lexer works
through them is in the library (github.com/alecthomas/chroma, regexp.go, not in /repo) and follows its documentation: in the state on top
of the stack, the first rule that matches where the lexer stands makes a token of what it matches; where none matches, one character
becomes an error, except that a newline outside the state `root` starts over in `root`.

Simplification: every character gets the colour of its token; neighbouring tokens with the same colour are not told apart. The lexer's
option to make line ends uniform before is left out.
-/

namespace Booklit

/-- The types of tokens: `Text`, `StringDouble`, `CommentMultiline`, `NameBuiltin`, `Keyword` and `Error`. -/
inductive Hue where
  | text
  | string
  | comment
  | builtin
  | keyword
  | error
deriving DecidableEq

/-- The states (booklit_lexer.go:18, 26, 31). -/
inductive LexState where
  | root
  | verbatim
  | comment
deriving DecidableEq

/-- `Push`, `Push` without argument, `Pop(1)`. -/
inductive Mutator where
  | stay
  | push (s : LexState)
  | again
  | pop

/-- A rule: how long the match of the pattern at the beginning of a text is (0: none), the type and the mutator. -/
structure LexRule where
  len : Str → Nat
  hue : Hue
  act : Mutator

/-- A class of characters with `+`. -/
def many1 (p : Char → Bool) (s : Str) : Nat := (s.takeWhile p).length

/-- A fixed text. -/
def fixed (t s : Str) : Nat := if t.isPrefixOf s then t.length else 0

/-- A class of characters. -/
def single (p : Char → Bool) : Str → Nat
  | [] => 0
  | c :: _ => if p c then 1 else 0

/-- Characters that do not stand for themselves. -/
def isSpecial (c : Char) : Bool := c == '\\' || c == '{' || c == '}'

/-- `\\[\\{}]+` (booklit_lexer.go:24). -/
def escLen : Str → Nat
  | [] => 0
  | c :: s => if c = '\\' ∧ s.takeWhile isSpecial ≠ [] then (s.takeWhile isSpecial).length + 1 else 0

/-- `}[^\}]` (booklit_lexer.go:29). -/
def braceLen : Str → Nat
  | c :: d :: _ => if c = '}' ∧ d ≠ '}' then 2 else 0
  | _ => 0

/-- `Rules` (booklit_lexer.go:17-36). -/
def lexRules : LexState → List LexRule
  | .root => [
    ⟨many1 fun c => !isSpecial c, .text, .stay⟩,
    ⟨fixed q%"{{{", .string, .push .verbatim⟩,
    ⟨fixed q%"{-", .comment, .push .comment⟩,
    ⟨single fun c => c == '{' || c == '}', .builtin, .stay⟩,
    ⟨callLen, .keyword, .stay⟩,
    ⟨escLen, .text, .stay⟩]
  | .verbatim => [
    ⟨fixed q%"}}}", .string, .pop⟩,
    ⟨many1 fun c => c != '}', .string, .stay⟩,
    ⟨braceLen, .string, .stay⟩]
  | .comment => [
    ⟨many1 fun c => !(c == '-' || c == '{' || c == '}'), .comment, .stay⟩,
    ⟨fixed q%"{-", .comment, .again⟩,
    ⟨fixed q%"-}", .comment, .pop⟩,
    ⟨single fun c => c == '-' || c == '{' || c == '}', .comment, .stay⟩]

/-- The first rule that matches. -/
def firstRule : List LexRule → Str → Option (LexRule × Nat)
  | [], _ => none
  | r :: rs, s => if r.len s = 0 then firstRule rs s else some (r, r.len s)

/-- What a mutator does to the stack. -/
def mutate : Mutator → List LexState → List LexState
  | .stay, stk => stk
  | .push s, stk => s :: stk
  | .again, s :: stk => s :: s :: stk
  | .again, [] => []
  | .pop, stk => stk.tail

/-- One token: its type, its length and the stack after it. On an empty stack the rest is an error. -/
def lexStep (stk : List LexState) (s : Str) : Hue × Nat × List LexState :=
  match stk with
  | [] => (.error, s.length, [])
  | st :: _ =>
    match firstRule (lexRules st) s with
    | some (r, k) => (r.hue, k, mutate r.act stk)
    | none =>
      if s.head? = some '\n' ∧ st ≠ .root then
        match firstRule (lexRules .root) s with
        | some (r, k) => (r.hue, k, mutate r.act [.root])
        | none => (.error, 1, [.root])
      else (.error, 1, stk)

/-- The colours of the characters, the next `k` of which belong to a token coloured `x`. -/
def hues (x : Hue) : Nat → List LexState → Str → List Hue
  | _, _, [] => []
  | k + 1, stk, _ :: s => x :: hues x k stk s
  | 0, stk, c :: s =>
    (lexStep stk (c :: s)).1 :: hues (lexStep stk (c :: s)).1 ((lexStep stk (c :: s)).2.1 - 1) (lexStep stk (c :: s)).2.2 s

/-- The colours of a code. -/
def colours (s : Str) : List Hue := hues .error 0 [.root] s

end Booklit
