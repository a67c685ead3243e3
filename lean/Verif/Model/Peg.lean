import Verif.Model.Ast

/-!
The runtime of the generated parser: `/repo/ast/booklit.peg.go` lines 1456-2553 (the parts the booklit
grammar uses). Grammars are data (`Expr`), and `run` interprets them exactly as `parseExpr` does,
threading the parser state. `run` takes fuel; running out of fuel (`none`) stands for "has not finished
yet" and is not a Go behaviour. Termination for the booklit grammar is a theorem (C01).

Simplifications:
* the input is a list of scalars, i.e. the file is valid UTF-8 (an invalid byte makes Go record an error);
* only the position of the furthest failure is tracked, not the set of expected tokens;
* memoisation, statistics, debugging, `state` cloning (unused by the grammar) are left out;
* end of input is an empty `rest` instead of the pair (RuneError, width 0).
-/

namespace Booklit.Peg

open Booklit

/-- Rule names of the grammar (ast/booklit.peg). -/
inductive Rule where
  | booklit | paragraphs | lineBreak | commentSpacing | paragraph | line | word | comment
  | interpolated | wrappedLine | split | string | verbatimString | preformattedBlockLine
  | preformattedBlock | verbatimLine | verbatimBlockLine | verbatimBlock | invoke | verbatimArg
  | preformattedArg | emptyArg | arg | paraArg | argument | indent
deriving DecidableEq, Repr

/-- Labels used in the grammar. -/
inductive Lbl where
  | node | paragraphs | p | lines | ln | words | val | word | firstWord | str | indent | name | args | paras
deriving DecidableEq, Repr

/-- Identifiers of the grammar's actions, named after the generated functions `callon...`
(ast/booklit.peg.go:975-1360). -/
inductive Act where
  | retNode          -- Booklit, VerbatimArg, PreformattedArg: `return node, nil`
  | retP             -- Paragraphs7: `return p, nil`
  | mkParagraphs     -- Paragraphs1
  | retL             -- Paragraph4: `return l, nil`
  | mkParagraph      -- Paragraph1
  | mkLine           -- Line1, VerbatimLine1
  | retVal           -- Word1
  | interp           -- Interpolated1
  | wrapped          -- WrappedLine1
  | split            -- Split1
  | text             -- String2, VerbatimString2, VerbatimString6
  | textTail         -- String6
  | blockLine        -- PreformattedBlockLine1, VerbatimBlockLine1
  | block            -- PreformattedBlock1, VerbatimBlock1
  | invoke           -- Invoke1
  | retNil           -- EmptyArg1
  | arg              -- Arg1
  | retParas         -- ParaArg1
  | indent           -- Indent1
deriving DecidableEq, Repr

/-- Parsing expressions (ast/booklit.peg.go:1456-1580): literal, character class, any, sequence, choice,
`*`, `+`, `?`, `!`, label, rule reference, action. -/
inductive Expr where
  | lit (s : Str)
  | cls (neg : Bool) (chars : List Char) (ranges : List (Char × Char))
  | any
  | seq (es : List Expr)
  | choice (es : List Expr)
  | star (e : Expr)
  | plus (e : Expr)
  | opt (e : Expr)
  | not (e : Expr)
  | label (l : Lbl) (e : Expr)
  | rule (r : Rule)
  | act (a : Act) (e : Expr)
deriving Inhabited

/-- Values of parsing expressions (`interface{}`): nil, a `[]byte` slice of the input, a `[]interface{}`,
a syntax node, a Go string (only from `Indent`). -/
inductive Val where
  | nil
  | bytes (t : Str)
  | list (vs : List Val)
  | node (n : Node)
  | str (s : Str)
deriving Inhabited, Repr

/-- `position` (ast/booklit.peg.go, type position): same fields as `ast.Location`. -/
abbrev Pos := Location

/-- The parser state: the rest of the input from the current point (`p.data[p.pt.offset:]`), its
position, the grammar's global store (its only key is `indent-skip`), the furthest failure position,
`maxFailInvertExpected`, and the top frame of the value stack `vstack`. -/
structure PSt where
  rest : Str
  pos : Pos
  store : Option Nat
  maxFail : Pos
  invert : Bool
  env : List (Lbl × Val)
deriving Inhabited, Repr

/-- Position bookkeeping of `read` (ast/booklit.peg.go:1891-1907) when the next rune is the head of `next`
and the current rune has UTF-8 width `w`: the column grows, and a position AT a newline counts as column 0
of the following line. -/
def Pos.step (p : Pos) (w : Nat) (next : Str) : Pos :=
  match next with
  | '\n' :: _ => ⟨p.line + 1, 0, p.off + w⟩
  | _ => ⟨p.line, p.col + 1, p.off + w⟩

/-- The position after the first `p.read()` (ast/booklit.peg.go:2046; initial point is line 1, column 0). -/
def Pos.init (data : Str) : Pos := Pos.step ⟨1, 0, 0⟩ 0 data

/-- `read` (ast/booklit.peg.go:1891-1907). It is never called at the end of the input. -/
def PSt.read (st : PSt) : PSt :=
  match st.rest with
  | [] => st
  | c :: r => { st with rest := r, pos := st.pos.step c.utf8Size r }

/-- `failAt` (ast/booklit.peg.go:1871-1888), position only. -/
def PSt.failAt (st : PSt) (fail : Bool) (pos : Pos) : PSt :=
  if fail = st.invert then
    if st.maxFail.off < pos.off then { st with maxFail := pos } else st
  else st

/-- `restore` (ast/booklit.peg.go:1910-1918): only the point is restored; the global store is not. -/
def PSt.restore (st : PSt) (to : PSt) : PSt := { st with rest := to.rest, pos := to.pos }

/-- `pushV` (ast/booklit.peg.go: pushV): a fresh frame. -/
def PSt.push (st : PSt) : PSt := { st with env := [] }

/-- `popV`: back to the frame of `outer`. -/
def PSt.pop (st : PSt) (outer : PSt) : PSt := { st with env := outer.env }

/-- `sliceFrom` (ast/booklit.peg.go:1968-1970): the input consumed between `start` and `st`. -/
def PSt.sliceFrom (st start : PSt) : Str :=
  start.rest.take (start.rest.length - st.rest.length)

/-- Result of parsing an expression: a value, no match, or a Go panic inside an action (which `parse`
recovers and turns into an error, ast/booklit.peg.go:2015-2032). -/
inductive R where
  | ok (v : Val) (st : PSt)
  | fail (st : PSt)
  | panic (st : PSt)
deriving Inhabited, Repr

/-- The loop of `parseLitMatcher` (ast/booklit.peg.go:2369-2390): reads as long as the runes agree;
`none` on a mismatch. -/
def litGo : Str → PSt → Option PSt
  | [], st => some st
  | c :: cs, st =>
    match st.rest with
    | [] => none
    | d :: _ => if d = c then litGo cs st.read else none

/-- `parseLitMatcher` (ast/booklit.peg.go:2369-2390). -/
def runLit (s : Str) (st : PSt) : R :=
  match litGo s st with
  | some st' => let st'' := st'.failAt true st.pos; .ok (.bytes (st''.sliceFrom st)) st''
  | none => .fail (st.failAt false st.pos)

/-- Does a character class match a rune? (ast/booklit.peg.go:2264-2312) -/
def clsMatches (neg : Bool) (chars : List Char) (ranges : List (Char × Char)) (c : Char) : Bool :=
  (chars.contains c || ranges.any fun r => decide (r.1 ≤ c) && decide (c ≤ r.2)) != neg

/-- `parseCharClassMatcher` (ast/booklit.peg.go:2249-2313). -/
def runCls (neg : Bool) (chars : List Char) (ranges : List (Char × Char)) (st : PSt) : R :=
  match st.rest with
  | [] => .fail (st.failAt false st.pos)
  | c :: _ =>
    if clsMatches neg chars ranges c then
      let st' := st.read.failAt true st.pos; .ok (.bytes (st'.sliceFrom st)) st'
    else .fail (st.failAt false st.pos)

/-- `parseAnyMatcher` (ast/booklit.peg.go:2233-2247). -/
def runAny (st : PSt) : R :=
  match st.rest with
  | [] => .fail (st.failAt false st.pos)
  | _ :: _ => let st' := st.read.failAt true st.pos; .ok (.bytes (st'.sliceFrom st)) st'

/-- What the interpreter has to do: an expression, the remaining expressions of a sequence, the remaining
alternatives of a choice, or further iterations of a loop. -/
inductive Task where
  | expr (e : Expr)
  | seq (es : List Expr)
  | choice (es : List Expr)
  | star (e : Expr)

/-- What a grammar consists of: its rules and its actions. An action gets the start position, the matched
text, the current frame and the global store; `none` is a panic. -/
structure Grammar where
  rules : Rule → Expr
  acts : Act → Pos → Str → List (Lbl × Val) → Option Nat → Option (Val × Option Nat)

/-- Store a label in the current frame (`parseLabeledExpr`, ast/booklit.peg.go:2354-2367). -/
def PSt.bind (st : PSt) (l : Lbl) (v : Val) : PSt := { st with env := (l, v) :: st.env }

/-- `parseExpr` and the functions it dispatches to (ast/booklit.peg.go:2093-2553).

* action: 2176-2200; sequence: 2476-2495 (restores the point when an element fails); choice: 2330-2352;
* `*`: 2525-2541; `+`: 2425-2443; `?`: 2543-2553; `!`: 2407-2423; label: 2354-2367; rule: 2071-2091. -/
def run (g : Grammar) : Nat → Task → PSt → Option R
  | 0, _, _ => none
  | _ + 1, .expr (.lit s), st => some (runLit s st)
  | _ + 1, .expr (.cls neg cs rs), st => some (runCls neg cs rs st)
  | _ + 1, .expr .any, st => some (runAny st)
  | n + 1, .expr (.seq es), st =>
    match run g n (.seq es) st with
    | some (.fail st') => some (.fail (st'.restore st))
    | r => r
  | n + 1, .expr (.choice es), st => run g n (.choice es) st
  | n + 1, .expr (.star e), st => run g n (.star e) st
  | n + 1, .expr (.plus e), st =>
    match run g n (.expr e) st.push with
    | some (.ok v st') =>
      match run g n (.star e) (st'.pop st) with
      | some (.ok (.list vs) st'') => some (.ok (.list (v :: vs)) st'')
      | r => r
    | some (.fail st') => some (.fail (st'.pop st))
    | r => r
  | n + 1, .expr (.opt e), st =>
    match run g n (.expr e) st.push with
    | some (.ok v st') => some (.ok v (st'.pop st))
    | some (.fail st') => some (.ok .nil (st'.pop st))
    | r => r
  | n + 1, .expr (.not e), st =>
    match run g n (.expr e) { st.push with invert := !st.invert } with
    | some (.ok _ st') => some (.fail { (st'.pop st).restore st with invert := !st'.invert })
    | some (.fail st') => some (.ok .nil { (st'.pop st).restore st with invert := !st'.invert })
    | r => r
  | n + 1, .expr (.label l e), st =>
    match run g n (.expr e) st.push with
    | some (.ok v st') => some (.ok v ((st'.pop st).bind l v))
    | some (.fail st') => some (.fail (st'.pop st))
    | r => r
  | n + 1, .expr (.rule r), st =>
    match run g n (.expr (g.rules r)) st.push with
    | some (.ok v st') => some (.ok v (st'.pop st))
    | some (.fail st') => some (.fail (st'.pop st))
    | r => r
  | n + 1, .expr (.act a e), st =>
    match run g n (.expr e) st with
    | some (.ok _ st') =>
      match g.acts a st.pos (st'.sliceFrom st) st'.env st'.store with
      | some (v, store) => some (.ok v { st' with store := store })
      | none => some (.panic st')
    | r => r
  | _ + 1, .seq [], st => some (.ok (.list []) st)
  | n + 1, .seq (e :: es), st =>
    match run g n (.expr e) st with
    | some (.ok v st') =>
      match run g n (.seq es) st' with
      | some (.ok (.list vs) st'') => some (.ok (.list (v :: vs)) st'')
      | r => r
    | r => r
  | _ + 1, .choice [], st => some (.fail st)
  | n + 1, .choice (e :: es), st =>
    match run g n (.expr e) st.push with
    | some (.ok v st') => some (.ok v (st'.pop st))
    | some (.fail st') => run g n (.choice es) (st'.pop st)
    | r => r
  | n + 1, .star e, st =>
    match run g n (.expr e) st.push with
    | some (.ok v st') =>
      match run g n (.star e) (st'.pop st) with
      | some (.ok (.list vs) st'') => some (.ok (.list (v :: vs)) st'')
      | r => r
    | some (.fail st') => some (.ok (.list []) (st'.pop st))
    | r => r

/-- The initial state: `newParser` and the first `read` (ast/booklit.peg.go:1650-1690, 2046);
`maxFailPos` starts at line 1, column 1, offset 0. -/
def PSt.start (data : Str) : PSt :=
  { rest := data, pos := Pos.init data, store := none, maxFail := ⟨1, 1, 0⟩, invert := false, env := [] }

/-- Outcome of `Parse`: the value of the start rule, a syntax error at the furthest failure, or a
recovered panic (an error at the current point). -/
inductive Outcome where
  | ok (v : Val)
  | err (pos : Pos)
  | panic (pos : Pos)
deriving Inhabited, Repr

/-- `parse` (ast/booklit.peg.go:2005-2069) from the given start rule. -/
def parse (g : Grammar) (start : Rule) (fuel : Nat) (data : Str) : Option Outcome :=
  match run g fuel (.expr (.rule start)) (PSt.start data) with
  | some (.ok v _) => some (.ok v)
  | some (.fail st) => some (.err st.maxFail)
  | some (.panic st) => some (.panic st.pos)
  | none => none

end Booklit.Peg
