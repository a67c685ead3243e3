import Verif.Spec.Dom

/-!
Specification of markup that does nothing but show a document: only elements for structure and style, no scripts and
event handlers, and links only to where a reader expects.
-/

namespace Booklit

/-- The node occurs in a list of nodes, at any depth. -/
inductive Within (d : Dom) : List Dom → Prop
  | here {ds : List Dom} : d ∈ ds → Within d ds
  | deeper {ds : List Dom} {n : Str} {as : List (Str × Str)} {ks : List Dom} :
      .elem n as ks ∈ ds → Within d ks → Within d ds

/-- The scheme of a URL (RFC 3986, 3.1), in lower case: what stands before the first colon, if it is a letter followed
by letters, digits, `+`, `-` and `.`. -/
def schemeOf (v : Str) : Option Str :=
  let pre := v.takeWhile (· != ':')
  let letter := fun c : Char => ('a' ≤ c && c ≤ 'z') || ('A' ≤ c && c ≤ 'Z')
  let rest := fun c : Char => letter c || ('0' ≤ c && c ≤ '9') || c == '+' || c == '-' || c == '.'
  if v.contains ':' && pre.head?.any letter && pre.all rest then
    some (pre.map fun c => if 'A' ≤ c && c ≤ 'Z' then Char.ofNat (c.toNat + 32) else c)
  else none

/-- A link that runs no script: printable ASCII characters only (browsers drop blanks and control characters before they
look for the scheme), and if there is a scheme, it is for pages or mail. -/
def safeLink (v : Str) : Bool :=
  v.all (fun c => '!' ≤ c && c ≤ '~') &&
    match schemeOf v with
    | none => true
    | some s => [q%"http", q%"https", q%"mailto"].contains s

/-- Elements that only give structure and style. -/
def plainElements : List Str :=
  [q%"html", q%"head", q%"meta", q%"title", q%"body", q%"h1", q%"h2", q%"h3", q%"h4", q%"h5", q%"h6", q%"nav", q%"a", q%"p",
    q%"div", q%"span", q%"blockquote", q%"strong", q%"em", q%"sub", q%"sup", q%"code", q%"pre", q%"img", q%"ol", q%"ul",
    q%"li", q%"table", q%"tr", q%"td", q%"dl", q%"dt", q%"dd"]

/-- Attributes that run nothing: links are safe, names and descriptions are free, the others are those of the
built-in templates. -/
def plainAttr (a : Str × Str) : Bool :=
  if a.1 = q%"href" ∨ a.1 = q%"src" then safeLink a.2
  else if a.1 = q%"id" ∨ a.1 = q%"alt" then true
  else if a.1 = q%"class" then [q%"section-header", q%"section-number", q%"aside", q%"inset"].contains a.2
  else if a.1 = q%"style" then
    [q%"margin: 0 2em 1em", q%"font-size: 120%", q%"font-size: 80%", q%"text-decoration: line-through"].contains a.2
  else a = (q%"http-equiv", q%"content-type") ∨ a = (q%"content", q%"text/html; charset=utf-8")

/-- Nothing in these nodes does more than show a document. -/
def Harmless (ds : List Dom) : Prop :=
  ∀ n as ks, Within (.elem n as ks) ds → n ∈ plainElements ∧ ∀ a ∈ as, plainAttr a = true

mutual
/-- The text of a node. -/
def Dom.text : Dom → Str
  | .char c => [c]
  | .elem _ _ ks => domText ks
/-- The text of several nodes. -/
def domText : List Dom → Str
  | [] => []
  | d :: ds => d.text ++ domText ds
end

end Booklit
