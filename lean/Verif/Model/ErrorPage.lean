import Verif.Model.Escape
import Verif.Model.Text

/-!
How errors are shown: the error pages of the server (`ErrorResponse`, the `PrettyHTML` methods and the templates of
`/repo/errhtml`) and the reports on the terminal (the `PrettyPrint` methods and `Main`, `/repo/booklitcmd/main.go:32-43`).

Marked parts of lines are cut by byte offsets, so pages and reports are made of bytes. A page is written as a list of
characters below 256, one for each byte (`latin`).

Not modelled: the style sheet, the messages of errors of the operating system, of the parser and of `fmt.Errorf`, and the
similarity of tag names; they are parameters. Colours are modelled.
-/

namespace Booklit

/-- Bytes, one character for each. -/
def latin (bs : List Byte) : Str := bs.map Char.ofNat

/-- A byte in the text of a page: `htmlReplacementTable` of html/template, which is applied to characters, but only ASCII
characters are replaced. The replacement of character zero is U+FFFD. -/
def escByte (b : Byte) : Str := if Char.ofNat b = '\x00' then latin (utf8 ['�']) else escChar (Char.ofNat b)

/-- `{{...}}` in the text of a page. -/
def escBytes (bs : List Byte) : Str := bs.flatMap escByte

/-- `template.HTMLEscapeString` (text/template/funcs.go), used in errors.go:38: as `escByte`, but `+` is kept. -/
def escRawByte (b : Byte) : Str := if b = 43 then ['+'] else escByte b

/-- `template.HTMLEscapeString`. -/
def escRaw (bs : List Byte) : Str := bs.flatMap escRawByte

/-- `ErrorLocation` (errors.go:319-323). -/
structure Spot where
  path : Str
  loc : Location
  len : Nat
deriving DecidableEq

/-- What is not told by the model: messages, and which tag names are similar (`levenshtein.Match(a, b, nil) > 0.5`,
section.go:373-377; `similarTags` in `Model/Similar`). -/
structure Wording where
  /-- the message of an error that is not a `PrettyError` -/
  plain : Str → List Byte
  /-- the message of the parser for an error in this file at this place (`ParseError.Err`) -/
  parse : Str → Location → List Byte
  /-- why the line of an error cannot be shown: the message of `lineInQuestion` on the terminal -/
  unreadable : Spot → List Byte
  /-- the message of the template error when the line of an error cannot be shown on a page -/
  broken : Spot → List Byte
  similar : Str → Str → Bool

/-- The bytes of files when an error is shown, `none` when a file cannot be read. -/
abbrev Disk8 := Str → Option (List Byte)

/-- errhtml/annotated-line.tmpl. -/
def annotatedLine (path : Str) (line : Nat) (eof : Bool) (pre marked suf : List Byte) : Str :=
  q%"<div class=\"file-snippet\">\n  <pre class=\"file-path\">" ++ escBytes (utf8 path) ++ q%":</pre>\n\n  <div class=\"annotated-line\">\n    <pre class=\"lineno\">"
    ++ escBytes (lineno line) ++ q%"</pre>\n    "
    ++ (if eof then q%"\n    <pre class=\"line\"><span class=\"eof\">(end of file)</span></pre>\n    "
      else q%"\n    <pre class=\"line\">" ++ escBytes pre ++ q%"<span class=\"annotated\">" ++ escBytes marked ++ q%"</span>"
        ++ escBytes suf ++ q%"</pre>\n    ")
    ++ q%"\n  </div>\n</div>"

/-- The template function `annotate` (errors.go:43-51, 365-393). An error, or a panic, which `text/template` recovers, makes
the template fail: the result tells the place that could not be shown. -/
def Spot.html (fs : Disk8) (sp : Spot) : Except Spot Str :=
  match annotatedHTML (fs sp.path) sp.loc sp.len with
  | .unavailable => .ok []
  | .error => .error sp
  | .panic => .error sp
  | .shown eof p m q => .ok (annotatedLine sp.path sp.loc.line eof p m q)

/-- A `code-location` of the templates. -/
def codeLocation (a : Str) : Str := q%"<div class=\"code-location\">\n    " ++ a ++ q%"\n  </div>\n"

/-- The `{{range .DefinedLocations}}` of ambiguous-reference.tmpl:10-14. The length of these places is zero. -/
def definedHtml (fs : Disk8) : List (Str × Location) → Except Spot Str
  | [] => .ok []
  | d :: ds =>
    match (Spot.mk d.1 d.2 0).html fs with
    | .error sp => .error sp
    | .ok a =>
      match definedHtml fs ds with
      | .error sp => .error sp
      | .ok t => .ok (q%"\n  " ++ codeLocation a ++ q%"  " ++ t)

/-- The `{{if .SimilarTags}}` of unknown-tag.tmpl:8-20. -/
def similarHtml (similar : List Str) : Str :=
  if similar = [] then q%"\n  <p>I couldn't find any similar tags. :(</p>\n  "
  else q%"\n  <p>These tags seem similar:</p>\n\n  <ul>\n  "
    ++ (similar.flatMap fun t => q%"\n    <li><p><code>" ++ escBytes (utf8 t) ++ q%"</code></p></li>\n  ")
    ++ q%"\n  </ul>\n\n  <p>Did you mean one of these?</p>\n  "

/-- The place of an error, with the length that is marked: processor.go:98-104, evaluate.go:151-156, plugin.go:44-56,
reference.go:134-138 and 153-157. A plain error has no place. -/
def Err.spot : Err → Spot
  | .plain _ => ⟨[], Location.zero, 0⟩
  | .parse p l => ⟨p, l, 1⟩
  | .undefined fn p l => ⟨p, l, (utf8 fn).length + 1⟩
  | .failed fn _ p l => ⟨p, l, (utf8 fn).length + 1⟩
  | .titleTwice p _ l => ⟨p, l, 6⟩
  | .unknownTag _ _ p l => ⟨p, l, 10⟩
  | .ambiguous _ _ p l => ⟨p, l, 10⟩

/-- The similar tags (reference.go:132, section.go:373-377). -/
def Wording.like (M : Wording) (tag : Str) (known : List Str) : List Str := known.filter (M.similar tag)

/-- The template function `error` (errors.go:24-41) with the `PrettyHTML` methods: parse-error.tmpl,
undefined-function.tmpl, function-error.tmpl, title-twice-error.tmpl, unknown-tag.tmpl, ambiguous-reference.tmpl. -/
def Err.html (M : Wording) (fs : Disk8) : Err → Except Spot Str
  | .plain w => .ok (q%"<pre class=\"raw-error\">" ++ escRaw (M.plain w) ++ q%"</pre>")
  | .parse p l =>
    match (Err.parse p l).spot.html fs with
    | .error sp => .error sp
    | .ok a => .ok (q%"<div class=\"error\">\n  <div class=\"error-message\">parse error</div>\n\n  <p>" ++ escBytes (M.parse p l)
        ++ q%"</p>\n\n  " ++ codeLocation a ++ q%"</div>")
  | .undefined fn p l =>
    match (Err.undefined fn p l).spot.html fs with
    | .error sp => .error sp
    | .ok a => .ok (q%"<div class=\"error\">\n  <div class=\"error-message\">undefined function: <code>\\" ++ escBytes (utf8 fn)
        ++ q%"</code></div>\n\n  " ++ codeLocation a ++ q%"</div>")
  | .failed fn e p l =>
    match (Err.failed fn e p l).spot.html fs with
    | .error sp => .error sp
    | .ok a =>
      match e.html M fs with
      | .error sp => .error sp
      | .ok t => .ok (q%"<div class=\"error\">\n  <div class=\"error-message\">function <code>\\" ++ escBytes (utf8 fn)
          ++ q%"</code> returned an error</div>\n\n  " ++ codeLocation a ++ q%"\n  " ++ t ++ q%"\n</div>")
  | .titleTwice p first l =>
    match (Err.titleTwice p first l).spot.html fs with
    | .error sp => .error sp
    | .ok a =>
      match (Spot.mk p first 6).html fs with
      | .error sp => .error sp
      | .ok b => .ok (q%"<div class=\"error\">\n  <div class=\"error-message\">cannot set title twice</div>\n\n  " ++ codeLocation a
          ++ q%"\n  <p>The section's title was first set here:</p>\n\n  " ++ codeLocation b
          ++ q%"\n  <p>Maybe the second <code>\\title</code> should be in a <code>\\section{...}</code>?</p>\n</div>")
  | .unknownTag t known p l =>
    match (Err.unknownTag t known p l).spot.html fs with
    | .error sp => .error sp
    | .ok a => .ok (q%"<div class=\"error\">\n  <div class=\"error-message\">reference to unknown tag: <code>" ++ escBytes (utf8 t)
        ++ q%"</code></div>\n\n  " ++ codeLocation a ++ q%"\n  " ++ similarHtml (M.like t known) ++ q%"\n</div>")
  | .ambiguous t defined p l =>
    match (Err.ambiguous t defined p l).spot.html fs with
    | .error sp => .error sp
    | .ok a =>
      match definedHtml fs defined with
      | .error sp => .error sp
      | .ok ds => .ok (q%"<div class=\"error\">\n  <div class=\"error-message\">ambiguous reference tag: <code>" ++ escBytes (utf8 t)
          ++ q%"</code></div>\n\n  " ++ codeLocation a
          ++ q%"\n  <p>The same tag was defined in the following locations:</p>\n\n  " ++ ds
          ++ q%"\n\n  <p>One of these tags must be changed.</p>\n</div>")

/-- errhtml/page.tmpl up to the error; `css` is the style sheet. -/
def errorPageStart (css : Str) : Str :=
  q%"<!DOCTYPE html>\n<html>\n  <head>\n    <meta http-equiv=\"content-type\" content=\"text/html; charset=utf-8\" />\n    <meta name=\"viewport\" content=\"width=device-width\" />\n    <title>Booklit Error</title>\n    <style type=\"text/css\">"
    ++ css ++ q%"</style>\n  </head>\n  <body>\n    <div class=\"error-panel\">\n      <h1 class=\"title-header\">your book is lit! ...on fire.</h1>\n\n      "

/-- errhtml/page.tmpl after the error. -/
def errorPageEnd : Str := q%"\n    </div>\n\t</body>\n</html>"

/-- `ErrorResponse` (errors.go:73-78): the body of the answer. The template writes as it goes; if it fails the message is
added to what has been written, as it is. -/
def errorResponse (M : Wording) (fs : Disk8) (css : Str) (e : Err) : Str :=
  match e.html M fs with
  | .ok t => errorPageStart css ++ t ++ errorPageEnd
  | .error sp => errorPageStart css ++ q%"failed to render error page: " ++ latin (M.broken sp)

/-! Reports on the terminal. -/

/-- The complete lines of a text, without their line feeds, and what follows the last line feed; `cur` is the current
line. -/
def brokenUp (cur : List Byte) : List Byte → List (List Byte) × List Byte
  | [] => ([], cur)
  | b :: bs =>
    if b = 10 then
      let r := brokenUp [] bs
      (cur :: r.1, r.2)
    else brokenUp (cur ++ [b]) bs

/-- What `textio.NewPrefixWriter(out, "  ")` makes of what is written to it (github.com/segmentio/textio, not part of
/repo): two blanks before each line; a line that is not ended is held back. -/
def indented (bs : List Byte) : List Byte := (brokenUp [] bs).1.flatMap fun l => [32, 32] ++ l ++ [10]

/-- `Annotate` (errors.go:326-332) and the two line feeds that always follow, with the message. -/
def Spot.head (sp : Spot) (msg : List Byte) : List Byte :=
  utf8 sp.path ++ (if sp.loc.line = 0 then [] else [58] ++ digitsOf (sp.loc.line + 1) sp.loc.line) ++ [58, 32] ++ msg ++ [10, 10]

/-- `AnnotateLocation` (errors.go:336-354), with colours. -/
def Spot.print (M : Wording) (fs : Disk8) (sp : Spot) : List Byte :=
  match annotateLocation (fs sp.path) sp.loc sp.len with
  | .unavailable => []
  | .error => M.unreadable sp ++ [10]
  | .shown line pad carets =>
    line ++ [10] ++ List.replicate pad 32 ++ utf8 q%"\x1b[31m" ++ List.replicate carets 94 ++ utf8 q%"\x1b[0m\n"

/-- The messages of errors (the `Error` methods of errors.go). -/
def Err.message (M : Wording) : Err → List Byte
  | .plain w => M.plain w
  | .parse p l => utf8 q%"parse error: " ++ M.parse p l
  | .undefined fn _ _ => utf8 (q%"undefined function \\" ++ fn)
  | .failed fn e _ _ => utf8 (q%"function \\" ++ fn ++ q%" returned an error: ") ++ e.message M
  | .titleTwice _ _ _ => utf8 q%"cannot set title twice"
  | .unknownTag t _ _ _ => utf8 (q%"unknown tag '" ++ t ++ q%"'")
  | .ambiguous t _ _ _ => utf8 (q%"ambiguous target for tag '" ++ t ++ q%"'")

/-- The `PrettyPrint` methods (errors.go:107-306); a plain error is printed as `Main` does (main.go:38). -/
def Err.print (M : Wording) (fs : Disk8) : Err → List Byte
  | .plain w => M.plain w ++ [10]
  | .parse p l => (Err.parse p l).spot.head ((Err.parse p l).message M) ++ (Err.parse p l).spot.print M fs
  | .undefined fn p l =>
    (Err.undefined fn p l).spot.head ((Err.undefined fn p l).message M) ++ (Err.undefined fn p l).spot.print M fs
  | .failed fn e p l =>
    (Err.failed fn e p l).spot.head (utf8 (q%"function \\" ++ fn ++ q%" returned an error"))
      ++ (Err.failed fn e p l).spot.print M fs
      ++ (match e with
        | .plain w => utf8 q%"\x1b[33m" ++ M.plain w ++ utf8 q%"\x1b[0m\n"
        | e => indented (e.print M fs))
  | .titleTwice p first l =>
    (Err.titleTwice p first l).spot.head ((Err.titleTwice p first l).message M) ++ (Err.titleTwice p first l).spot.print M fs
      ++ utf8 q%"The section's title was first set here:\n\n" ++ (Spot.mk p first 6).print M fs
      ++ utf8 q%"Maybe the second \\title should be in a \\section{...}?\n"
  | .unknownTag t known p l =>
    (Err.unknownTag t known p l).spot.head ((Err.unknownTag t known p l).message M)
      ++ (Err.unknownTag t known p l).spot.print M fs
      ++ (if M.like t known = [] then utf8 q%"I couldn't find any similar tags. :(\n"
        else utf8 q%"These tags seem similar:\n\n" ++ ((M.like t known).flatMap fun g => utf8 (q%"- " ++ g ++ q%"\n"))
          ++ utf8 q%"\nDid you mean one of these?\n")
  | .ambiguous t defined p l =>
    (Err.ambiguous t defined p l).spot.head ((Err.ambiguous t defined p l).message M)
      ++ (Err.ambiguous t defined p l).spot.print M fs
      ++ utf8 q%"The same tag was defined in the following locations:\n\n"
      ++ (defined.flatMap fun d => utf8 (q%"- " ++ d.1 ++ q%":\n") ++ indented ((Spot.mk d.1 d.2 0).print M fs))
      ++ utf8 q%"Tags must be unique so I know where to link to!\n"

end Booklit
