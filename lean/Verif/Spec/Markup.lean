import Verif.Spec.Dom
import Verif.Spec.Harmless
import Verif.Model.Engine

/-!
Specification vocabulary for C87: where in a text of HTML one is (a part of the tokenization of the HTML standard, 13.2.5), what
may be put there, and how a page is composed of the texts of templates and of what is put between them.

What the reader does not follow: comments, attribute values without quotes, and elements other than `title`, `textarea`, `script`
and `style` whose content is not read as markup.
-/

namespace Booklit.Markup

open Booklit

/-- Where in a text of HTML one is. The name `n` of a tag begins with `/` if it is an end tag. -/
inductive Where where
  | text
  /-- after `<`, `</`, `<!`, `<!-`, in a declaration -/
  | lt | ltSlash | bang | bangDash | decl
  | name (n : Str)
  /-- in a tag, not in an attribute -/
  | tag (n : Str)
  /-- after `/` in a tag -/
  | slash (n : Str)
  /-- in the name `a` of an attribute, after it, after `=` -/
  | attr (n a : Str)
  | after (n a : Str)
  | equals (n a : Str)
  /-- in the value of an attribute, between quotes `q`; `fresh` as long as there was only space; `query` after a `?` or `#` -/
  | quoted (n a : Str) (q : Char) (fresh query : Bool)
  /-- in the text of an element whose content is not read as markup, after `<` in it, after `</` and some letters -/
  | raw (n : Str)
  | rawLt (n : Str)
  | rawEnd (n m : Str)
  /-- not followed -/
  | lost
deriving DecidableEq

/-- White space. -/
def space (c : Char) : Bool := [' ', '\t', '\n', '\x0c', '\r'].contains c

def letter (c : Char) : Bool := ('a' ≤ c && c ≤ 'z') || ('A' ≤ c && c ≤ 'Z')

def digit (c : Char) : Bool := '0' ≤ c && c ≤ '9'

/-- Elements whose content is not read as markup. -/
def rawNames : List Str := [q%"title", q%"textarea", q%"script", q%"style"]

/-- After the end of a tag. -/
def closed (n : Str) : Where := if n ∈ rawNames then .raw n else .text

/-- In a tag, not in an attribute. -/
def inside (n : Str) (c : Char) : Where :=
  if space c then .tag n
  else if c = '>' then closed n
  else if c = '/' then .slash n
  else if c ∈ q%"=\"'<" then .lost
  else .attr n [c.toLower]

/-- One character further. -/
def Where.step : Where → Char → Where
  | .text, c => if c = '<' then .lt else .text
  | .lt, c =>
    if c = '/' then .ltSlash else if letter c then .name [c.toLower] else if c = '!' then .bang else if c = '<' then .lt else .text
  | .ltSlash, c => if letter c then .name ['/', c.toLower] else .lost
  | .bang, c => if c = '-' then .bangDash else if c = '>' then .text else .decl
  | .bangDash, c => if c = '-' then .lost else if c = '>' then .text else .decl
  | .decl, c => if c = '>' then .text else .decl
  | .name n, c =>
    if letter c || digit c || c = '-' || c = ':' then .name (n ++ [c.toLower])
    else if space c then .tag n
    else if c = '>' then closed n
    else if c = '/' then .slash n
    else .lost
  | .tag n, c => inside n c
  | .slash n, c => if c = '>' then closed n else .lost
  | .attr n a, c =>
    if space c then .after n a
    else if c = '=' then .equals n a
    else if c = '>' then closed n
    else if c = '/' then .slash n
    else if c ∈ q%"\"'<" then .lost
    else .attr n (a ++ [c.toLower])
  | .after n a, c => if space c then .after n a else if c = '=' then .equals n a else inside n c
  | .equals n a, c => if space c then .equals n a else if c = '"' ∨ c = '\'' then .quoted n a c true false else .lost
  | .quoted n a q f g, c => if c = q then .tag n else .quoted n a q (f && space c) (g || c = '?' || c = '#')
  | .raw n, c => if c = '<' then .rawLt n else .raw n
  | .rawLt n, c => if c = '/' then .rawEnd n [] else if c = '<' then .rawLt n else .raw n
  | .rawEnd n m, c =>
    if letter c then .rawEnd n (m ++ [c.toLower])
    else if m = n ∧ (space c ∨ c = '>' ∨ c = '/') then inside ('/' :: n) c
    else if c = '<' then .rawLt n
    else .raw n
  | .lost, _ => .lost

/-- After a text. -/
def Where.run (w : Where) (s : Str) : Where := s.foldl Where.step w

/-- After a text that was put there: a `?` in it does not begin a query. -/
def Where.past : Where → Str → Where
  | .quoted n a q f g, s => match (Where.quoted n a q f g).run s with
    | .quoted n a q f _ => .quoted n a q f g
    | w => w
  | w, s => w.run s

/-- Attributes that hold a program, a style sheet or a page. -/
def active (a : Str) : Prop := (∃ r, a = q%"on" ++ r ∧ ∀ c ∈ r, 'a' ≤ c ∧ c ≤ 'z') ∨ a = q%"style" ∨ a = q%"srcdoc"

/-- Attributes that hold an address. -/
def addresses : List Str :=
  [q%"href", q%"src", q%"action", q%"formaction", q%"data", q%"poster", q%"background", q%"xlink:href", q%"cite", q%"longdesc",
   q%"codebase", q%"classid", q%"archive", q%"icon", q%"manifest", q%"profile", q%"usemap", q%"xmlns", q%"data-href", q%"data-src"]

/-- What an attribute holds when `s` stands between its quotes. -/
def Holds (s v : Str) : Prop := readHtml (q%"<a b=\"" ++ s ++ q%"\"></a>") = some [.elem q%"a" [(q%"b", v)] []]

/-- What may be put where: between tags and in titles, text; in the name of a tag, letters and digits; in an attribute, a value, but
not in attributes that hold programs; addresses have to be safe ones; and what is put in the query of an address cannot be taken for
more than one word of it. -/
def Where.takes : Where → Str → Prop
  | .text, s => ∃ t, readHtml s = some (chars t)
  | .raw n, s => (n = q%"title" ∨ n = q%"textarea") ∧ ∃ t, readHtml s = some (chars t)
  | .name _, s => ∀ c ∈ s, letter c ∨ digit c
  | .quoted _ a q fresh query, s => q ∉ s ∧ ¬ active a ∧ ∃ v, Holds s v ∧ (fresh = true → a ∈ addresses → safeLink v = true) ∧
      (query = true → a ∈ addresses → ∀ c ∈ v, letter c ∨ digit c ∨ c ∈ q%"-._~%")
  | _, _ => False

/-- A part of a page: from the text of a template, or put there by it. -/
inductive Piece where
  | own (s : Str)
  | put (s : Str)

def Piece.text : Piece → Str
  | .own s => s
  | .put s => s

/-- The pieces, written one after the other from `w` on, lead to `w'`; those that are not from the text of a template are put where
they may. -/
inductive Composed (own : Str → Prop) : Where → List Piece → Where → Prop
  | done {w : Where} : Composed own w [] w
  | own {w w' : Where} {s : Str} {ps : List Piece} : own s → Composed own (w.run s) ps w' → Composed own w (.own s :: ps) w'
  | put {w w' : Where} {s : Str} {ps : List Piece} : w.takes s → Composed own (w.past s) ps w' → Composed own w (.put s :: ps) w'

/-- A text stands in one of the templates of a set. -/
def OfTemplates (ts : Templates.TSet) (s : Str) : Prop := ∃ file src, ts file = some src ∧ s <:+: src

mutual
/-- The functions that an expression uses. -/
def fnsIn : Tmpl.Expr → List Tmpl.Fn
  | .field e _ args => fnsIn e ++ fnsInL args
  | .call f args => f :: fnsInL args
  | _ => []
def fnsInL : List Tmpl.Expr → List Tmpl.Fn
  | [] => []
  | e :: es => fnsIn e ++ fnsInL es
end

mutual
/-- The functions that a template uses. -/
def usedBy : Tmpl.TNode → List Tmpl.Fn
  | .text _ => []
  | .act _ e => fnsIn e
  | .decl _ e => fnsIn e
  | .ite e a b => fnsIn e ++ usedByL a ++ usedByL b
  | .loop _ _ e a b => fnsIn e ++ usedByL a ++ usedByL b
  | .with_ e a b => fnsIn e ++ usedByL a ++ usedByL b
  | .call _ none => []
  | .call _ (some e) => fnsIn e
def usedByL : List Tmpl.TNode → List Tmpl.Fn
  | [] => []
  | n :: ns => usedBy n ++ usedByL ns
end

/-- A template that puts nothing on the page unescaped. -/
def Escapes (src : Str) : Prop :=
  ∀ ns, Tmpl.parse Tmpl.htmlFns src = some ns → Tmpl.Fn.rawHTML ∉ usedByL ns ∧ Tmpl.Fn.rawURL ∉ usedByL ns

end Booklit.Markup
