import Verif.Model.Annotate

/-!
What Go's `html/template` does to values put into templates (html/template/html.go and url.go of the Go standard
library, which is not part of /repo): the escapers that it chooses for the places where the templates of
`/repo/render/html/*.tmpl` insert values.
-/

namespace Booklit

/-- `htmlReplacementTable` (html/template/html.go). -/
def escChar (c : Char) : Str :=
  if c = '\x00' then ['�']
  else if c = '"' then q%"&#34;"
  else if c = '&' then q%"&amp;"
  else if c = '\'' then q%"&#39;"
  else if c = '+' then q%"&#43;"
  else if c = '<' then q%"&lt;"
  else if c = '>' then q%"&gt;"
  else [c]

/-- `htmlEscaper` and `rcdataEscaper` (html/template/html.go) on a text: what becomes of `{{.String}}` in
render/html/string.tmpl:1, of `{{.Number}}` in section.tmpl:3 and toc.tmpl:6 and of `{{.Title.String}}` in page.tmpl:5. -/
def escText (s : Str) : Str := s.flatMap escChar

/-- A hexadecimal digit, in lower case. -/
def hexDigit (n : Nat) : Char := if n < 10 then Char.ofNat (48 + n) else Char.ofNat (87 + n)

/-- The characters that `attrEscaper` writes as numeric references: they end the attribute in some browsers
(html/template/html.go, `htmlReplacer` with `badRunes` false). -/
def badRune (c : Char) : Bool := (0xfdd0 ≤ c.toNat && c.toNat ≤ 0xfdef) || (0xfff0 ≤ c.toNat && c.toNat ≤ 0xffff)

/-- One character of an attribute. `fmt.Fprintf("&#x%x;")` of a number of four hexadecimal digits. -/
def escAttrChar (c : Char) : Str :=
  if badRune c then
    q%"&#x" ++ [hexDigit (c.toNat / 4096 % 16), hexDigit (c.toNat / 256 % 16), hexDigit (c.toNat / 16 % 16),
      hexDigit (c.toNat % 16)] ++ q%";"
  else escChar c

/-- `attrEscaper` (html/template/html.go) on a text: what becomes of `{{.TagName}}` in target.tmpl:1, of
`{{.PrimaryTag.Name}}` in section.tmpl:1 and of `{{.Description}}` in image.tmpl:1. -/
def escAttr (s : Str) : Str := s.flatMap escAttrChar

/-- ASCII lower case, enough for `strings.EqualFold` with the schemes below: no other character folds to their
letters except `ſ` and `K`, of which only the first matters (`httpſ`). -/
def foldChar (c : Char) : Char :=
  if 'A' ≤ c ∧ c ≤ 'Z' then Char.ofNat (c.toNat + 32) else if c = 'ſ' then 's' else c

/-- `isSafeURL` (html/template/url.go): no scheme, or one of three. -/
def safeURL (s : Str) : Bool :=
  let scheme := s.takeWhile (· != ':')
  if s.any (· == ':') && !scheme.any (· == '/') then
    let f := scheme.map foldChar
    f == q%"http" || f == q%"https" || f == q%"mailto"
  else true

/-- `urlFilter` (html/template/url.go). -/
def filterURL (s : Str) : Str := if safeURL s then s else q%"#ZgotmplZ"

/-- `isHex` (html/template/css.go). -/
def isHex (b : Byte) : Bool := (48 ≤ b && b ≤ 57) || (97 ≤ b && b ≤ 102) || (65 ≤ b && b ≤ 70)

/-- The bytes that `processURLOnto` leaves alone when normalizing (html/template/url.go): `!#$&*+,/:;=?@[]`, `-._~`,
letters and digits. -/
def urlByte (b : Byte) : Bool :=
  [33, 35, 36, 38, 42, 43, 44, 47, 58, 59, 61, 63, 64, 91, 93, 45, 46, 95, 126].contains b
    || (97 ≤ b && b ≤ 122) || (65 ≤ b && b ≤ 90) || (48 ≤ b && b ≤ 57)

/-- Whether `%` and two hexadecimal digits stand here (html/template/url.go). -/
def isEscape : List Byte → Bool
  | b :: x :: y :: _ => b = 37 && isHex x && isHex y
  | _ => false

/-- `processURLOnto` with `norm` (html/template/url.go) on bytes. -/
def normBytes : List Byte → Str
  | [] => []
  | b :: bs =>
    if urlByte b || isEscape (b :: bs) then Char.ofNat b :: normBytes bs
    else '%' :: hexDigit (b / 16 % 16) :: hexDigit (b % 16) :: normBytes bs

/-- What stands in the attribute for a URL: `urlfilter` and `urlnormalizer` (html/template/url.go). -/
def linkTo (s : Str) : Str := normBytes (utf8 (filterURL s))

/-- `urlfilter | urlnormalizer | attrescaper`: what becomes of `{{.Target}}` in link.tmpl:1, of `{{.Path}}` in
image.tmpl:1 and of `{{... | url}}` in reference.tmpl:2 and toc.tmpl:6. -/
def escURL (s : Str) : Str := escAttr (linkTo s)

end Booklit
