import Verif.Model.Templates
import Verif.Model.TextEngine

/-!
The template language: Go's `text/template` and the contextual escaping of `html/template` (of the Go standard library,
not part of /repo), as far as the templates of `/repo/render/html`, `/repo/render/text` and `/repo/tests/fixtures` use
them. With it the texts of those files can be executed (`Model/Engine.lean`).

Not modelled, and counted as a template that cannot be parsed: `define`, `block`, `break`, `continue`, assignments,
constants other than strings, numbers, `true` and `false`, and functions other than those below. A template with an undefined variable
fails when it is executed, not when it is parsed.
-/

namespace Booklit.Tmpl

open Booklit

/-! ### Texts and actions -/

/-- `spaceChars` (text/template/parse/lex.go). -/
def isSpace (c : Char) : Bool := c = ' ' || c = '\t' || c = '\r' || c = '\n'

/-- The first occurrence of a pattern: what stands before and after it. -/
def breakOn (pat : Str) : Str → Option (Str × Str)
  | [] => none
  | c :: cs =>
    if pat.isPrefixOf (c :: cs) then some ([], (c :: cs).drop pat.length)
    else (breakOn pat cs).map fun p => (c :: p.1, p.2)

/-- A piece of a template: text to be copied, or what stands between `{{` and `}}`. -/
inductive Chunk where
  | text (s : Str)
  | action (s : Str)
deriving DecidableEq

/-- Text without the space at its end. -/
def trimEnd (s : Str) : Str := (s.reverse.dropWhile isSpace).reverse

/-- `hasLeftTrimMarker` (text/template/parse/lex.go): `- ` after `{{`. -/
def trimLeft : Str → Bool × Str
  | '-' :: c :: cs => if isSpace c then (true, c :: cs) else (false, '-' :: c :: cs)
  | s => (false, s)

/-- `hasRightTrimMarker` (text/template/parse/lex.go): ` -` before `}}`. -/
def trimRight (s : Str) : Bool × Str :=
  match s.reverse with
  | '-' :: c :: cs => if isSpace c then (true, cs.reverse) else (false, s)
  | _ => (false, s)

/-- A text, unless there is none: the lexer emits no empty texts. -/
def textChunk (s : Str) : List Chunk := if s = [] then [] else [.text s]

/-- `lexComment` (text/template/parse/lex.go), after `{{` and, if `trim`, the `-`: the text after a comment. The outer `none` is no
comment, the inner one a comment that is not closed. -/
def skipComment (trim : Bool) (s : Str) : Option (Option Str) :=
  if q%"/*".isPrefixOf (if trim then s.drop 1 else s) then
    some ((breakOn q%"*/" ((if trim then s.drop 1 else s).drop 2)).bind fun p =>
      match p.2 with
      | '}' :: '}' :: after => some after
      | c :: '-' :: '}' :: '}' :: after => if isSpace c then some (after.dropWhile isSpace) else none
      | _ => none)
  else none

/-- `lexText`, `lexLeftDelim`, `lexRightDelim` (text/template/parse/lex.go): cut a template into pieces. `none`: an action
is not closed. Simplification: `}}` ends an action even inside a string. -/
def chunks : Nat → Str → Option (List Chunk)
  | 0, _ => none
  | n + 1, s =>
    match breakOn q%"{{" s with
    | none => some (textChunk s)
    | some (before, rest) =>
      let l := trimLeft rest
      match skipComment l.1 l.2 with
      | some none => none
      | some (some after) => (chunks n after).map fun cs => textChunk (if l.1 then trimEnd before else before) ++ cs
      | none =>
        match breakOn q%"}}" l.2 with
        | none => none
        | some (inside, after) =>
          let r := trimRight inside
          (chunks n (if r.1 then after.dropWhile isSpace else after)).map fun cs =>
            textChunk (if l.1 then trimEnd before else before) ++ .action r.2 :: cs

/-! ### Tokens -/

/-- Tokens of an action. A chain of fields is one token, and so are a closing parenthesis and the fields that follow it at once. -/
inductive Tok where
  | ident (s : Str)
  | dot
  | fields (fs : List Str)
  | var (x : Str) (fs : List Str)
  | str (s : Str)
  | num (n : Nat)
  | lparen
  | rparen (fs : List Str)
  | pipe
  | comma
  | declare
deriving DecidableEq

/-- `isAlphaNumeric` (text/template/parse/lex.go), for ASCII. -/
def isName (c : Char) : Bool :=
  c = '_' || ('a' ≤ c && c ≤ 'z') || ('A' ≤ c && c ≤ 'Z') || ('0' ≤ c && c ≤ '9')

/-- The fields of a chain: `.A.B`. -/
def readFields : Nat → Str → List Str × Str
  | n + 1, '.' :: cs =>
    if cs.takeWhile isName = [] then ([], '.' :: cs)
    else ((cs.takeWhile isName) :: (readFields n (cs.dropWhile isName)).1, (readFields n (cs.dropWhile isName)).2)
  | _, cs => ([], cs)

/-- `lexQuote` and `strconv.Unquote`: the rest of a string constant, with three of the escapes. -/
def readString : Str → Option (Str × Str)
  | [] => none
  | '"' :: cs => some ([], cs)
  | '\\' :: 'n' :: cs => (readString cs).map fun p => ('\n' :: p.1, p.2)
  | '\\' :: '"' :: cs => (readString cs).map fun p => ('"' :: p.1, p.2)
  | '\\' :: '\\' :: cs => (readString cs).map fun p => ('\\' :: p.1, p.2)
  | '\\' :: _ => none
  | c :: cs => (readString cs).map fun p => (c :: p.1, p.2)

/-- Decimal digits. -/
def readNum (s : Str) : Nat := s.foldl (fun n c => 10 * n + (c.toNat - 48)) 0

/-- `lexInsideAction` (text/template/parse/lex.go). -/
def tokens : Nat → Str → Option (List Tok)
  | _, [] => some []
  | 0, _ => none
  | n + 1, c :: cs =>
    if isSpace c then tokens n cs
    else if c = '(' then (tokens n cs).map (.lparen :: ·)
    else if c = ')' then (tokens n (readFields n cs).2).map (.rparen (readFields n cs).1 :: ·)
    else if c = '|' then (tokens n cs).map (.pipe :: ·)
    else if c = ',' then (tokens n cs).map (.comma :: ·)
    else if c = ':' then
      match cs with
      | '=' :: ds => (tokens n ds).map (.declare :: ·)
      | _ => none
    else if c = '`' then (breakOn ['`'] cs).bind fun p => (tokens n p.2).map (.str p.1 :: ·)
    else if c = '"' then (readString cs).bind fun p => (tokens n p.2).map (.str p.1 :: ·)
    else if c = '.' then
      if (readFields (n + 1) (c :: cs)).1 = [] then (tokens n cs).map (.dot :: ·)
      else (tokens n (readFields (n + 1) (c :: cs)).2).map (.fields (readFields (n + 1) (c :: cs)).1 :: ·)
    else if c = '$' then
      (tokens n (readFields n (cs.dropWhile isName)).2).map
        (.var (cs.takeWhile isName) (readFields n (cs.dropWhile isName)).1 :: ·)
    else if '0' ≤ c && c ≤ '9' then
      (tokens n ((c :: cs).dropWhile isName)).map (.num (readNum ((c :: cs).takeWhile isName)) :: ·)
    else if isName c then (tokens n ((c :: cs).dropWhile isName)).map (.ident ((c :: cs).takeWhile isName) :: ·)
    else none

/-! ### Expressions -/

/-- The fields and methods of the content types, sections and tags that templates can use. `other`: one that is not
modelled or that there is not; using it is an error. -/
inductive Field where
  | content | title | body | primaryTag | tags | parent | children | style | number | splitSections | omitToc | path
  | name | section_ | anchor | tagName | optional | tag | display | target | items | ordered | rows | subject
  | definition | description | contents | string | isFlow | block | partial_ | top | contains | isOrHasChild
  | hasAnchors | anchorTags | pageDepth | prev | next | current
  | other (s : Str)
deriving DecidableEq

/-- Their names. -/
def Field.names : List (Str × Field) :=
  [(q%"Content", .content), (q%"Title", .title), (q%"Body", .body), (q%"PrimaryTag", .primaryTag), (q%"Tags", .tags),
   (q%"Parent", .parent), (q%"Children", .children), (q%"Style", .style), (q%"Number", .number),
   (q%"SplitSections", .splitSections), (q%"OmitChildrenFromTableOfContents", .omitToc), (q%"Path", .path),
   (q%"Name", .name), (q%"Section", .section_), (q%"Anchor", .anchor), (q%"TagName", .tagName),
   (q%"Optional", .optional), (q%"Tag", .tag), (q%"Display", .display), (q%"Target", .target), (q%"Items", .items),
   (q%"Ordered", .ordered), (q%"Rows", .rows), (q%"Subject", .subject), (q%"Definition", .definition),
   (q%"Description", .description), (q%"Contents", .contents), (q%"String", .string), (q%"IsFlow", .isFlow),
   (q%"Block", .block), (q%"Partial", .partial_), (q%"Top", .top), (q%"Contains", .contains),
   (q%"IsOrHasChild", .isOrHasChild), (q%"HasAnchors", .hasAnchors), (q%"AnchorTags", .anchorTags),
   (q%"PageDepth", .pageDepth), (q%"Prev", .prev), (q%"Next", .next), (q%"Current", .current)]

def Field.ofName (s : Str) : Field :=
  match Field.names.find? (·.1 == s) with
  | some p => p.2
  | none => .other s

/-- The functions: those of html.go:25-58 and text.go:22-41 and four of
text/template/funcs.go. -/
inductive Fn where
  | render | url | htmlURL | stripAux | rawHTML | rawURL | walkContext | headerDepth | joinLines | and | or | not | eq
deriving DecidableEq

/-- `HTMLFuncs` (html.go:25-58) and the functions that all templates have. -/
def htmlFns : List (Str × Fn) :=
  [(q%"render", .render), (q%"url", .url), (q%"stripAux", .stripAux), (q%"rawHTML", .rawHTML), (q%"rawURL", .rawURL),
   (q%"walkContext", .walkContext), (q%"headerDepth", .headerDepth), (q%"and", .and), (q%"or", .or), (q%"not", .not), (q%"eq", .eq)]

/-- `TextFuncs` (text.go:22-41) and the functions that all templates have. -/
def textFns : List (Str × Fn) :=
  [(q%"render", .render), (q%"url", .url), (q%"htmlURL", .htmlURL), (q%"stripAux", .stripAux),
   (q%"joinLines", .joinLines), (q%"and", .and), (q%"or", .or), (q%"not", .not), (q%"eq", .eq)]

/-- Expressions. `root` is `$`. A pipeline `a | f b` is the call `f b a`. -/
inductive Expr where
  | dot
  | root
  | var (x : Str)
  | str (s : Str)
  | num (n : Nat)
  | field (e : Expr) (f : Field) (args : List Expr)
  | call (f : Fn) (args : List Expr)

/-- A chain of fields. -/
def Expr.chain (e : Expr) (fs : List Str) : Expr := fs.foldl (fun e f => .field e (.ofName f) []) e

/-- A variable; `$` is the data the template was called with. -/
def Expr.ofVar (x : Str) : Expr := if x = [] then .root else .var x

/-- An operand of a command. -/
inductive Operand where
  | fn (f : Fn)
  | expr (e : Expr)
  | paren (e : Expr)

/-- An operand as argument: a function without arguments is called. -/
def Operand.arg : Operand → Expr
  | .fn f => .call f []
  | .expr e => e
  | .paren e => e

/-- `true` and `false`, as what `not` says of an empty string and of another. -/
def Expr.ofBool (b : Bool) : Expr := .call .not [.str (if b then [] else ['x'])]

/-- `evalCommand` (text/template/exec.go) decides by the first operand; the value of the pipeline so far is the last
argument. -/
def command (ops : List Operand) (piped : List Expr) : Option Expr :=
  match ops with
  | [] => none
  | .fn f :: args => some (.call f (args.map Operand.arg ++ piped))
  | .expr (.field e f []) :: args => some (.field e f (args.map Operand.arg ++ piped))
  | .expr e :: args => if args.isEmpty && piped.isEmpty then some e else none
  | .paren e :: args => if args.isEmpty && piped.isEmpty then some e else none

mutual
/-- `pipeline` (text/template/parse/parse.go), after the part `piped` of it. -/
def parsePipe (fns : List (Str × Fn)) : Nat → List Expr → List Tok → Option (Expr × List Tok)
  | 0, _, _ => none
  | n + 1, piped, ts =>
    (parseOperands fns n ts).bind fun p => (command p.1 piped).bind fun e =>
      match p.2 with
      | .pipe :: rest => parsePipe fns n [e] rest
      | rest => some (e, rest)
/-- `command` (text/template/parse/parse.go): operands, up to something else. -/
def parseOperands (fns : List (Str × Fn)) : Nat → List Tok → Option (List Operand × List Tok)
  | 0, _ => none
  | n + 1, ts =>
    match ts with
    | .dot :: rest => (parseOperands fns n rest).map fun p => (.expr .dot :: p.1, p.2)
    | .fields fs :: rest => (parseOperands fns n rest).map fun p => (.expr (Expr.chain .dot fs) :: p.1, p.2)
    | .var x fs :: rest => (parseOperands fns n rest).map fun p => (.expr (Expr.chain (.ofVar x) fs) :: p.1, p.2)
    | .str s :: rest => (parseOperands fns n rest).map fun p => (.expr (.str s) :: p.1, p.2)
    | .num k :: rest => (parseOperands fns n rest).map fun p => (.expr (.num k) :: p.1, p.2)
    | .ident s :: rest =>
      if s = q%"true" ∨ s = q%"false" then (parseOperands fns n rest).map fun p => (.paren (.ofBool (s = q%"true")) :: p.1, p.2)
      else (fns.find? (·.1 == s)).bind fun f => (parseOperands fns n rest).map fun p => (.fn f.2 :: p.1, p.2)
    | .lparen :: rest =>
      (parsePipe fns n [] rest).bind fun q =>
        match q.2 with
        | .rparen [] :: rest' => (parseOperands fns n rest').map fun p => (.paren q.1 :: p.1, p.2)
        | .rparen fs :: rest' => (parseOperands fns n rest').map fun p => (.expr (Expr.chain q.1 fs) :: p.1, p.2)
        | _ => none
    | rest => some ([], rest)
end

/-- A whole pipeline. -/
def parseExpr (fns : List (Str × Fn)) (ts : List Tok) : Option Expr :=
  match parsePipe fns (2 * ts.length + 2) [] ts with
  | some (e, []) => some e
  | _ => none

/-! ### Where in an HTML text -/

/-- Elements whose content is not read as markup (`elementNameMap` in html/template/transition.go). -/
inductive Elem where
  | title | textarea | script | style
deriving DecidableEq

def Elem.names : List (Str × Elem) :=
  [(q%"title", .title), (q%"textarea", .textarea), (q%"script", .script), (q%"style", .style)]

/-- Kinds of attributes (html/template/attr.go): their values are texts, addresses, style sheets, or scripts and others that
values cannot be put into here. -/
inductive Kind where
  | plain | url | css | script
deriving DecidableEq

/-- `urlPart` (html/template/context.go). -/
inductive Part where
  | start | path | query | unknown
deriving DecidableEq

/-- `context` (html/template/context.go), and states inside of what its transition functions read at once. `plain` is the
only one in `text/template`, where nothing is escaped. -/
inductive Ctx where
  | plain
  | text
  /-- after `<`, `</`, `<!`, `<!-`, in a declaration -/
  | lt | ltSlash | bang | bangDash | decl
  /-- in the name of a tag: as long as it can become one of `Elem.names`, the name so far -/
  | tagName (p : Option Str)
  | tag (e : Option Elem)
  /-- in a tag, either after its name or after an attribute: a space or the end of the tag must follow -/
  | tagSep
  /-- after `/` in a tag -/
  | slash (e : Option Elem)
  | attrName (e : Option Elem) (name : Str)
  | afterName (e : Option Elem) (k : Kind)
  | beforeValue (e : Option Elem) (k : Kind)
  | value (e : Option Elem) (k : Kind) (quote : Char) (part : Part)
  /-- the content of such an element, after `<` in it, after `</` and some letters -/
  | raw (e : Elem)
  | rawLt (e : Elem)
  | rawEnd (e : Elem) (name : Str)
  /-- an error, or not modelled: comments, attributes without quotes -/
  | bad
deriving DecidableEq

/-- `unicode.ToLower`, as far as ASCII letters come out of it. -/
def lowChar (c : Char) : Char :=
  if 'A' ≤ c ∧ c ≤ 'Z' then Char.ofNat (c.toNat + 32) else if c = '\u212a' then 'k' else if c = '\u0130' then 'i' else c

/-- White space in HTML. -/
def htmlSpace (c : Char) : Bool := c = ' ' || c = '\t' || c = '\n' || c = '\x0c' || c = '\r'

def isLetter (c : Char) : Bool := ('a' ≤ c && c ≤ 'z') || ('A' ≤ c && c ≤ 'Z')

def isDigit (c : Char) : Bool := '0' ≤ c && c ≤ '9'

/-- `eatTagName` (html/template/transition.go). Simplification: a colon or a dash at the end of a name belongs to it. -/
def tagChar (c : Char) : Bool := isLetter c || isDigit c || c = '-' || c = ':'

/-- The name so far, if it can become one of `Elem.names`. -/
def narrow (name : Str) : Option Str := if Elem.names.any (fun p => name.isPrefixOf p.1) then some name else none

/-- The element, when its name is complete. -/
def elemOf (p : Option Str) : Option Elem := p.bind fun name => (Elem.names.find? (·.1 == name)).map (·.2)

/-- Attributes whose values are addresses (`attrTypeMap` in html/template/attr.go). -/
def urlAttrs : List Str :=
  [q%"action", q%"archive", q%"background", q%"cite", q%"classid", q%"codebase", q%"data", q%"formaction", q%"href",
   q%"icon", q%"longdesc", q%"manifest", q%"poster", q%"profile", q%"src", q%"usemap", q%"xmlns"]

/-- Whether a text occurs in another. -/
def within (pat : Str) (s : Str) : Bool := (breakOn pat s).isSome

/-- `attrType` (html/template/attr.go): of an attribute name in lower case. -/
def kindOf (name : Str) : Kind :=
  if q%"xmlns:".isPrefixOf name then .url else
  let name := if q%"data-".isPrefixOf name then name.drop 5 else if name.contains ':' then (name.dropWhile (· != ':')).drop 1 else name
  if urlAttrs.contains name then .url
  else if name = q%"style" then .css
  else if name = q%"srclang" then .plain
  else if name = q%"srcset" ∨ name = q%"srcdoc" ∨ q%"on".isPrefixOf name then .script
  else if within q%"src" name || within q%"uri" name || within q%"url" name then .url
  else .plain

/-- After `>`. -/
def afterTag : Option Elem → Ctx
  | none => .text
  | some e => .raw e

/-- `tURL` (html/template/transition.go), by characters: from `?` or `#` on it is the query. Simplification: the text of the template
is not unescaped first. -/
def Part.next (p : Part) (c : Char) : Part :=
  match p with
  | .unknown => .unknown
  | .query => .query
  | .start => if c = '?' ∨ c = '#' then .query else if htmlSpace c then .start else .path
  | .path => if c = '?' ∨ c = '#' then .query else .path

/-- Inside a tag, outside of its attributes (`tTag` in html/template/transition.go). -/
def inTag (e : Option Elem) (c : Char) : Ctx :=
  if htmlSpace c then .tag e
  else if c = '>' then afterTag e
  else if c = '/' then .slash e
  else if c = '=' ∨ c = '"' ∨ c = '\'' ∨ c = '<' then .bad
  else .attrName e [lowChar c]

/-- One character further (html/template/transition.go: `tText`, `tTag`, `tAttrName`, `tAfterName`, `tBeforeValue`,
`tAttr`, `tURL`, `tSpecialTagEnd`). For html/template a declaration is text; what would be a tag there is an error here. A script
whose type is not that of a script, which html/template takes for text, is a script here. -/
def Ctx.step : Ctx → Char → Ctx
  | .plain, _ => .plain
  | .text, c => if c = '<' then .lt else .text
  | .lt, c =>
    if c = '/' then .ltSlash else if isLetter c then .tagName (narrow [lowChar c]) else if c = '!' then .bang
    else if c = '<' then .lt else .text
  | .ltSlash, c => if isLetter c then .tagName none else .bad
  | .bang, c => if c = '-' then .bangDash else if c = '>' then .text else if c = '<' then .bad else .decl
  | .bangDash, c => if c = '-' ∨ c = '<' then .bad else if c = '>' then .text else .decl
  | .decl, c => if c = '>' then .text else if c = '<' then .bad else .decl
  | .tagName p, c =>
    if tagChar c then .tagName (p.bind fun name => narrow (name ++ [lowChar c]))
    else if htmlSpace c then .tag (elemOf p)
    else if c = '>' then afterTag (elemOf p)
    else if c = '/' then .slash (elemOf p)
    else .bad
  | .tag e, c => inTag e c
  | .tagSep, c => if htmlSpace c then .tag none else if c = '>' then .text else if c = '/' then .slash none else .bad
  | .slash e, c => if c = '>' then afterTag e else .bad
  | .attrName e name, c =>
    if htmlSpace c then .afterName e (kindOf name)
    else if c = '=' then .beforeValue e (kindOf name)
    else if c = '>' then afterTag e
    else if c = '/' then .slash e
    else if c = '"' ∨ c = '\'' ∨ c = '<' then .bad
    else .attrName e (name ++ [lowChar c])
  | .afterName e k, c =>
    if htmlSpace c then .afterName e k else if c = '=' then .beforeValue e k else inTag e c
  | .beforeValue e k, c =>
    if htmlSpace c then .beforeValue e k else if c = '"' ∨ c = '\'' then .value e k c .start else .bad
  | .value e k q p, c => if c = q then .tag e else .value e k q (p.next c)
  | .raw e, c => if c = '<' then .rawLt e else .raw e
  | .rawLt e, c => if c = '/' then .rawEnd e [] else if c = '<' then .rawLt e else .raw e
  | .rawEnd e name, c =>
    if isLetter c then .rawEnd e (name ++ [lowChar c])
    else if Elem.names.contains (name, e) && (htmlSpace c || c = '>' || c = '/') then inTag none c
    else if c = '<' then .rawLt e
    else .raw e
  | .bad, _ => .bad

/-- The state after a text. -/
def Ctx.run (c : Ctx) (s : Str) : Ctx := s.foldl Ctx.step c

/-! ### Templates -/

/-- Templates. Every action that prints a value has the state of the text at its place, which decides how the value is
escaped. -/
inductive TNode where
  | text (s : Str)
  | act (c : Ctx) (e : Expr)
  | decl (x : Str) (e : Expr)
  | ite (e : Expr) (a b : List TNode)
  | loop (i x : Option Str) (e : Expr) (a b : List TNode)
  | with_ (e : Expr) (a b : List TNode)
  | call (name : Str) (e : Option Expr)

/-- What ends a list of nodes. -/
inductive Stop where
  | eof
  | fin
  | other (ts : List Tok)

/-- A variable declared in `if` or `with` (`pipeline` in text/template/parse/parse.go), and the rest. -/
def bound : List Tok → Option Str × List Tok
  | .var x [] :: .declare :: ts => (some x, ts)
  | ts => (none, ts)

/-- Nodes with a variable declared before them. -/
def declared (x : Option Str) (e : Expr) (ns : List TNode) : List TNode :=
  match x with
  | none => ns
  | some x => .decl x e :: ns

mutual
/-- `itemList` (text/template/parse/parse.go): nodes up to `end`, `else` or the end of the template. A variable that `if` or `with` declares
is known in both lists of nodes; evaluating its expression again gives the same value. -/
def parseNodes (fns : List (Str × Fn)) : Nat → List Chunk → Option (List TNode × Stop × List Chunk)
  | 0, _ => none
  | _ + 1, [] => some ([], .eof, [])
  | n + 1, .text s :: cs => (parseNodes fns n cs).map fun p => (.text s :: p.1, p.2)
  | n + 1, .action s :: cs =>
    (tokens (s.length + 1) s).bind fun ts =>
      match ts with
      | .ident w :: rest =>
        if w = q%"end" then (if rest = [] then some ([], .fin, cs) else none)
        else if w = q%"else" then some ([], .other rest, cs)
        else if w = q%"if" then
          (parseExpr fns (bound rest).2).bind fun e => (parseNodes fns n cs).bind fun a =>
            (parseElse fns n a.2.1 a.2.2).bind fun b =>
              (parseNodes fns n b.2).map fun p =>
                (.ite e (declared (bound rest).1 e a.1) (declared (bound rest).1 e b.1) :: p.1, p.2)
        else if w = q%"with" then
          (parseExpr fns (bound rest).2).bind fun e => (parseNodes fns n cs).bind fun a =>
            (parseElse fns n a.2.1 a.2.2).bind fun b =>
              (parseNodes fns n b.2).map fun p =>
                (.with_ e (declared (bound rest).1 .dot a.1) (declared (bound rest).1 e b.1) :: p.1, p.2)
        else if w = q%"range" then
          let r : Option Str × Option Str × List Tok :=
            match rest with
            | .var i [] :: .comma :: .var x [] :: .declare :: ts => (some i, some x, ts)
            | .var x [] :: .declare :: ts => (none, some x, ts)
            | ts => (none, none, ts)
          (parseExpr fns r.2.2).bind fun e => (parseNodes fns n cs).bind fun a =>
            (parseElse fns n a.2.1 a.2.2).bind fun b =>
              (parseNodes fns n b.2).map fun p => (.loop r.1 r.2.1 e a.1 b.1 :: p.1, p.2)
        else if w = q%"template" then
          match rest with
          | [.str name] => (parseNodes fns n cs).map fun p => (.call name none :: p.1, p.2)
          | .str name :: ts =>
            (parseExpr fns ts).bind fun e => (parseNodes fns n cs).map fun p => (.call name (some e) :: p.1, p.2)
          | _ => none
        else (parseExpr fns ts).bind fun e => (parseNodes fns n cs).map fun p => (.act .plain e :: p.1, p.2)
      | .var x [] :: .declare :: rest =>
        (parseExpr fns rest).bind fun e => (parseNodes fns n cs).map fun p => (.decl x e :: p.1, p.2)
      | ts => (parseExpr fns ts).bind fun e => (parseNodes fns n cs).map fun p => (.act .plain e :: p.1, p.2)
/-- `parseControl` (text/template/parse/parse.go), after the first list of nodes. -/
def parseElse (fns : List (Str × Fn)) : Nat → Stop → List Chunk → Option (List TNode × List Chunk)
  | 0, _, _ => none
  | n + 1, stop, cs =>
    match stop with
    | .eof => none
    | .fin => some ([], cs)
    | .other [] => (parseNodes fns n cs).bind fun p =>
      match p.2.1 with
      | .fin => some (p.1, p.2.2)
      | _ => none
    | .other (.ident w :: rest) =>
      if w = q%"if" then
        (parseExpr fns (bound rest).2).bind fun e => (parseNodes fns n cs).bind fun a =>
          (parseElse fns n a.2.1 a.2.2).map fun b =>
            ([.ite e (declared (bound rest).1 e a.1) (declared (bound rest).1 e b.1)], b.2)
      else none
    | .other _ => none
end

/-- `Parse` (text/template/template.go): a template. -/
def parse (fns : List (Str × Fn)) (s : Str) : Option (List TNode) :=
  (chunks (s.length + 1) s).bind fun cs =>
    match parseNodes fns (2 * cs.length + 2) cs with
    | some (ns, .eof, []) => some ns
    | _ => none

/-! ### Escaping -/

/-- Whether a value can be put here (`escapeAction` in html/template/escape.go). -/
def Ctx.open_ : Ctx → Bool
  | .text | .tagName none => true
  | .value _ .plain _ _ => true
  | .value _ .url _ p => p != .unknown
  | .raw .title | .raw .textarea => true
  | _ => false

/-- Where a text of the template may end: html/template reads every text for itself, and does not notice what is begun in
one and continued in the next. Templates that do so are not modelled, except that an attribute without value may end with
the text. -/
def Ctx.settle : Ctx → Option Ctx
  | .lt | .ltSlash | .bang | .bangDash | .rawLt _ | .rawEnd _ _ | .slash _ | .bad | .beforeValue _ _ => none
  | .tagName (some _) | .attrName (some _) _ | .afterName (some _) _ => none
  | .attrName none _ => some .tagSep
  | .afterName none _ => some (.tag none)
  | c => some c

/-- Whether a space or the end of the tag can follow. -/
def Ctx.sep : Ctx → Bool
  | .tagSep | .tag none | .tagName none => true
  | _ => false

/-- `join` (html/template/escape.go): after two branches. -/
def Ctx.join (a b : Ctx) : Option Ctx :=
  if a = b then some a
  else if a.sep && b.sep then some .tagSep
  else match a, b with
    | .value e k q _, .value e' k' q' _ => if e = e' ∧ k = k' ∧ q = q' then some (.value e k q .unknown) else none
    | _, _ => none

mutual
/-- `escapeList` (html/template/escape.go): the template with the states of the text at its actions, and the state at its
end. `none`: an error, or not modelled. -/
def annotateL : Ctx → List TNode → Option (List TNode × Ctx)
  | c, [] => some ([], c)
  | c, n :: ns =>
    (annotate c n).bind fun p => (annotateL p.2 ns).map fun q => (p.1 :: q.1, q.2)
/-- `escape` (html/template/escape.go). The body of a loop must end in the state in which it begins (`escapeBranch`).
Another template is only called where it could stand by itself (`escapeTemplate`). -/
def annotate : Ctx → TNode → Option (TNode × Ctx)
  | c, .text s => ((c.run s).settle).map fun d => (.text s, d)
  | c, .act _ e => if c.open_ then some (.act c e, c) else none
  | c, .decl x e => some (.decl x e, c)
  | c, .ite e a b =>
    (annotateL c a).bind fun p => (annotateL c b).bind fun q => (p.2.join q.2).map fun d => (.ite e p.1 q.1, d)
  | c, .with_ e a b =>
    (annotateL c a).bind fun p => (annotateL c b).bind fun q => (p.2.join q.2).map fun d => (.with_ e p.1 q.1, d)
  | c, .loop i x e a b =>
    (annotateL c a).bind fun p => (annotateL c b).bind fun q =>
      if p.2 = c ∧ q.2 = c then some (.loop i x e p.1 q.1, c) else none
  | c, .call name e => if c = .text then some (.call name e, c) else none
end

/-- A template of the HTML engine: it must end in ordinary text (`escapeTemplate`, `ErrEndContext`). -/
def compileHtml (s : Str) : Option (List TNode) :=
  (parse htmlFns s).bind fun ns =>
    match annotateL .text ns with
    | some (ns', .text) => some ns'
    | _ => none

/-- A template of the text engine. -/
def compileText (s : Str) : Option (List TNode) := parse textFns s

end Booklit.Tmpl
