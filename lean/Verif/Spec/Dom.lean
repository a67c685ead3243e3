import Verif.Model.Str

/-!
Specification vocabulary for rendered pages: trees of elements, and a strict reader of HTML. It knows nothing of
templates or escaping. It accepts less than a browser does: every element must be closed by its own end tag (except
the void elements), attribute values must be quoted, an ampersand must start a character reference that it knows, and
`<` may not stand in an attribute value. What it does not do: the repairs of a browser, such as ending a paragraph
before a list.
-/

namespace Booklit

/-- A node of a page: a character of text, or an element. -/
inductive Dom where
  | char (c : Char)
  | elem (name : Str) (attrs : List (Str × Str)) (kids : List Dom)
deriving Inhabited

/-- A character as it arrives on a page: HTML has no character zero, a replacement character stands for it. -/
def arriving (c : Char) : Char := if c = '\x00' then '�' else c

/-- A text, as nodes. -/
def chars (s : Str) : List Dom := s.map Dom.char

/-- The value of a digit below 16. -/
def digitValue (c : Char) : Option Nat :=
  if '0' ≤ c ∧ c ≤ '9' then some (c.toNat - 48)
  else if 'a' ≤ c ∧ c ≤ 'f' then some (c.toNat - 87)
  else if 'A' ≤ c ∧ c ≤ 'F' then some (c.toNat - 55)
  else none

/-- The number written in some base. -/
def numberIn (base : Nat) : Nat → Str → Option Nat
  | acc, [] => some acc
  | acc, c :: cs =>
    match digitValue c with
    | none => none
    | some d => if d < base then numberIn base (acc * base + d) cs else none

/-- A character reference, without `&` and `;`. -/
def charRef (s : Str) : Option Char :=
  match s with
  | ['a', 'm', 'p'] => some '&'
  | ['l', 't'] => some '<'
  | ['g', 't'] => some '>'
  | ['q', 'u', 'o', 't'] => some '"'
  | ['a', 'p', 'o', 's'] => some '\''
  | '#' :: 'x' :: d :: ds => (numberIn 16 0 (d :: ds)).map Char.ofNat
  | '#' :: d :: ds => (numberIn 10 0 (d :: ds)).map Char.ofNat
  | _ => none

/-- Elements without content and end tag. -/
def isVoid (name : Str) : Bool :=
  [q%"area", q%"base", q%"br", q%"col", q%"embed", q%"hr", q%"img", q%"input", q%"link", q%"meta", q%"source",
    q%"track", q%"wbr"].contains name

/-- Characters of tag names and attribute names. -/
def nameChar (c : Char) : Bool := ('a' ≤ c ∧ c ≤ 'z') ∨ ('0' ≤ c ∧ c ≤ '9') ∨ c = '-'

/-- Where the reader is. -/
inductive Mode where
  | text
  /-- after `&` in text -/
  | ref (acc : Str)
  /-- after `<` -/
  | lt
  /-- after `<!` -/
  | decl
  /-- after `</` -/
  | close (name : Str)
  /-- in the name of a start tag -/
  | name (name : Str)
  /-- between attributes -/
  | attrs (name : Str) (as : List (Str × Str))
  /-- after `/` in a start tag -/
  | slash (name : Str) (as : List (Str × Str))
  | attrName (name : Str) (as : List (Str × Str)) (a : Str)
  /-- after `=` -/
  | equals (name : Str) (as : List (Str × Str)) (a : Str)
  | value (name : Str) (as : List (Str × Str)) (a v : Str)
  /-- after `&` in the value of an attribute -/
  | valueRef (name : Str) (as : List (Str × Str)) (a v acc : Str)

/-- An element that has been started: its name and attributes, and what stood before it in the element around it. -/
structure Open where
  name : Str
  attrs : List (Str × Str)
  before : List Dom

/-- The reader: where it is, the content of the innermost element so far, and the elements around it. -/
structure Reader where
  mode : Mode
  cur : List Dom
  opens : List Open

/-- The end of a start tag. -/
def Reader.start (cur : List Dom) (opens : List Open) (name : Str) (as : List (Str × Str)) : Reader :=
  if isVoid name then ⟨.text, cur ++ [.elem name as []], opens⟩ else ⟨.text, [], ⟨name, as, cur⟩ :: opens⟩

/-- Reading one character; `none` if it may not stand there. -/
def Reader.next (r : Reader) (c : Char) : Option Reader :=
  match r.mode with
  | .text =>
    if c = '<' then some { r with mode := .lt }
    else if c = '&' then some { r with mode := .ref [] }
    else some { r with cur := r.cur ++ [.char c] }
  | .ref acc =>
    if c = ';' then (charRef acc).map fun d => ⟨.text, r.cur ++ [.char d], r.opens⟩
    else some { r with mode := .ref (acc ++ [c]) }
  | .lt =>
    if c = '/' then some { r with mode := .close [] }
    else if c = '!' then some { r with mode := .decl }
    else if nameChar c then some { r with mode := .name [c] }
    else none
  | .decl => if c = '>' then some { r with mode := .text } else some r
  | .close n =>
    if c = '>' then
      match r.opens with
      | [] => none
      | o :: os => if o.name = n then some ⟨.text, o.before ++ [.elem o.name o.attrs r.cur], os⟩ else none
    else if nameChar c then some { r with mode := .close (n ++ [c]) }
    else none
  | .name n =>
    if c = '>' then some (Reader.start r.cur r.opens n [])
    else if c = ' ' then some { r with mode := .attrs n [] }
    else if nameChar c then some { r with mode := .name (n ++ [c]) }
    else none
  | .attrs n as =>
    if c = '>' then some (Reader.start r.cur r.opens n as)
    else if c = '/' then some { r with mode := .slash n as }
    else if c = ' ' then some r
    else if nameChar c then some { r with mode := .attrName n as [c] }
    else none
  | .slash n as => if c = '>' then some (Reader.start r.cur r.opens n as) else none
  | .attrName n as a =>
    if c = '=' then some { r with mode := .equals n as a }
    else if nameChar c then some { r with mode := .attrName n as (a ++ [c]) }
    else none
  | .equals n as a => if c = '"' then some { r with mode := .value n as a [] } else none
  | .value n as a v =>
    if c = '"' then some { r with mode := .attrs n (as ++ [(a, v)]) }
    else if c = '&' then some { r with mode := .valueRef n as a v [] }
    else if c = '<' then none
    else some { r with mode := .value n as a (v ++ [c]) }
  | .valueRef n as a v acc =>
    if c = ';' then (charRef acc).map fun d => { r with mode := .value n as a (v ++ [d]) }
    else some { r with mode := .valueRef n as a v (acc ++ [c]) }

/-- Reading a text. -/
def Reader.run : Reader → Str → Option Reader
  | r, [] => some r
  | r, c :: s =>
    match r.next c with
    | none => none
    | some r' => r'.run s

/-- The nodes that a text of HTML stands for, if it is well formed: all elements closed. -/
def readHtml (s : Str) : Option (List Dom) :=
  match Reader.run ⟨.text, [], []⟩ s with
  | some ⟨.text, ds, []⟩ => some ds
  | _ => none

end Booklit
