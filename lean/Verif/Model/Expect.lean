import Verif.Model.PegLog
import Verif.Model.Json

/-!
The message of a syntax error: `/repo/ast/booklit.peg.go`, functions `failAt` (1871-1888), `parse` (2045-2069) and `listJoin` (2071-2080).
-/

namespace Booklit.Peg

open Booklit

/-- How a character is written in the field `want` of a literal and `val` of a character class in the generated parser (the grammar is
`/repo/ast/booklit.peg`; only these four need an escape). -/
def wantChar : Char → Str
  | '\n' => ['\\', 'n']
  | '\r' => ['\\', 'r']
  | '\t' => ['\\', 't']
  | '\\' => ['\\', '\\']
  | c => [c]

/-- The string that `failAt` gets for a token: `lit.want` (booklit.peg.go:2381, 2387), `chr.val` (2259-2310), `"."` (2240, 2245). Classes are
written with ranges first here, as all of the grammar's are. -/
def wantText : Expr → Str
  | .lit s => ['"'] ++ s.flatMap wantChar ++ ['"']
  | .cls neg cs rs =>
    ['['] ++ (if neg then ['^'] else []) ++ (rs.flatMap fun r => wantChar r.1 ++ ['-'] ++ wantChar r.2) ++ cs.flatMap wantChar ++ [']']
  | _ => ['.']

/-- Does a token match the beginning of the text? -/
def hits : Expr → Str → Bool
  | .lit s, rest => s.isPrefixOf rest
  | .cls neg cs rs, c :: _ => clsMatches neg cs rs c
  | .any, _ :: _ => true
  | _, _ => false

/-- The log: `maxFailExpected` (booklit.peg.go:1871-1888) as tokens, `true` for those with an exclamation mark. -/
def noteWant (e : Expr) (st : PSt) (l : List (Bool × Expr)) : List (Bool × Expr) :=
  if hits e st.rest = st.invert then
    if st.pos.off < st.maxFail.off then l
    else if st.maxFail.off < st.pos.off then [(st.invert, e)]
    else l ++ [(st.invert, e)]
  else l

/-- The string that is recorded. -/
def wantOf (w : Bool × Expr) : Str := if w.1 then '!' :: wantText w.2 else wantText w.2

/-- `sort.Strings`. -/
def insertStr (s : Str) : List Str → List Str
  | [] => [s]
  | t :: ts => if strLe s t then s :: t :: ts else t :: insertStr s ts

def sortStrs : List Str → List Str
  | [] => []
  | s :: ts => insertStr s (sortStrs ts)

/-- The keys of the map `maxFailExpectedMap` (booklit.peg.go:2051-2054), in some order. -/
def onceEach : List Str → List Str
  | [] => []
  | s :: ts => if s ∈ ts then onceEach ts else s :: onceEach ts

/-- The list of `expected` (booklit.peg.go:2051-2067): without repetitions, sorted, with `EOF` for `!.` at the end. -/
def expectedOf (l : List (Bool × Expr)) : List Str :=
  let keys := onceEach (l.map wantOf)
  sortStrs (keys.filter fun k => k ≠ ['!', '.']) ++ if ['!', '.'] ∈ keys then [q%"EOF"] else []

/-- The items before the last one, separated. -/
def joinStrs (sep : Str) : List Str → Str
  | [] => []
  | [s] => s
  | s :: ts => s ++ sep ++ joinStrs sep ts

/-- `listJoin` (booklit.peg.go:2071-2080). -/
def listJoin (list : List Str) (sep lastSep : Str) : Str :=
  match list with
  | [] => []
  | [s] => s
  | list => joinStrs sep list.dropLast ++ [' '] ++ lastSep ++ [' '] ++ list.getLastD []

/-- The message of the error that `parse` returns (booklit.peg.go:2048-2068); `none` if there is none. -/
def syntaxMessage (s : Str) : Option Str :=
  match runWith noteWant booklit (fuelFor s) (.expr (.rule .booklit)) (PSt.start s) [] with
  | some (.fail _, l) => some (q%"no match found, expected: " ++ listJoin (expectedOf l) q%", " q%"or")
  | _ => none

end Booklit.Peg
