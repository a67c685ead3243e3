import Verif.Spec.AuxText
import Verif.Model.Html
import Verif.Model.Engine
import Verif.Spec.Visible

/-!
Specification vocabulary for C79 and C80: which names of templates a book uses.
-/

namespace Booklit

/-- This is not styled content with one of the styles `xs`. -/
def Content.notStyle (xs : List Str) : Content → Bool
  | .styled st _ _ _ => decide (st ∉ xs)
  | _ => true

/-- Nothing in the content has one of the styles `xs`. -/
def Content.unstyled (xs : List Str) (c : Content) : Bool := c.all (Content.notStyle xs)

/-- Nothing that the shipped templates show has one of the styles `xs`. -/
structure ShownUnstyled (xs : List Str) (S : Site) (h : Heap) : Prop where
  shown : ∀ i, ∀ c ∈ (h.get i).shown, c.unstyled xs = true
  force : ∀ i c, S.force i = some c → c.unstyled xs = true

/-- Neither the title nor the content of the tag has one of the styles `xs`. -/
def Tag.unstyled (xs : List Str) (g : Tag) : Prop := g.title.unstyled xs = true ∧ g.content.unstyled xs = true

/-- Nothing in the book has one of the styles `xs`: no section, and no content that a template can get at. -/
structure Unstyled (xs : List Str) (S : Site) (h : Heap) : Prop where
  style : ∀ i, (h.get i).style ∉ xs
  title : ∀ i, (h.get i).title.unstyled xs = true
  body : ∀ i, (h.get i).body.unstyled xs = true
  tags : ∀ i, ∀ g ∈ (h.get i).tags, g.unstyled xs
  primary : ∀ i, (h.get i).primaryTag.unstyled xs
  partials : ∀ i, ∀ p ∈ (h.get i).partials, p.2.unstyled xs = true
  force : ∀ i c, S.force i = some c → c.unstyled xs = true

/-- The names of the templates that contents are rendered with whatever their style. -/
def kindNames : List Str :=
  [q%"string", q%"sequence", q%"paragraph", q%"preformatted", q%"reference", q%"section", q%"toc", q%"target", q%"image", q%"list",
   q%"link", q%"table", q%"definitions"]

namespace Tmpl

mutual
/-- The templates that a template calls with `{{template}}`. -/
def TNode.calls : TNode → List Str
  | .ite _ a b => callsL a ++ callsL b
  | .loop _ _ _ a b => callsL a ++ callsL b
  | .with_ _ a b => callsL a ++ callsL b
  | .call name _ => [name]
  | _ => []
def callsL : List TNode → List Str
  | [] => []
  | n :: ns => n.calls ++ callsL ns
end

/-- The file of a template. -/
def fileOf (x : Str) : Str := x ++ q%".tmpl"

end Tmpl

end Booklit
