import Verif.Spec.Looks
import Verif.Spec.Parts
import Verif.Spec.AuxText

/-!
Specification of the books that can be rendered: what a writer has to get right.
-/

namespace Booklit

/-- The name stands for exactly one tag of the book, or it does not have to. -/
def Findable (S : Site) (h : Heap) (t : Tree) (name : Str) (c : Content) (optional : Bool) : Prop :=
  (∃ g, t.tagsNamed h name = [g]) ∨ (optional = true ∧ t.tagsNamed h name = [] ∧ c.isNil = false) ∨
    (S.brokenOk = true ∧ ¬ (optional = true ∧ t.tagsNamed h name = []))

/-- Styles that have a template, and HTML given as it is. -/
def KnownStyle (s : Str) (c : Content) : Prop :=
  s = q%"verbatim" ∨ (styling s).isSome = true ∨ (s = q%"raw-html" ∧ ∃ x, c = .str x)

/-- Parts of a title: known styles, and references with a text of their own to a tag that can be found. -/
def Content.inTitle (S : Site) (h : Heap) (t : Tree) : Content → Prop
  | .nil => False
  | .styled s _ c _ => KnownStyle s c
  | .ref s name c o _ => s ∈ t.ids ∧ Findable S h t name c o
  | .sect _ => False
  | .toc _ => False
  | .lazy _ _ => False
  | _ => True

/-- A title that can be shown anywhere. -/
def TitleOk (S : Site) (h : Heap) (t : Tree) (c : Content) : Prop := ∀ d ∈ c.parts true, d.inTitle S h t

/-- Parts of a body: in addition, references without text to tags whose titles can be shown anywhere, and tables of
contents if all sections below the top have titles. What is inside references is as in titles. -/
def Content.inBody (S : Site) (h : Heap) (t : Tree) : Content → Prop
  | .nil => False
  | .ref s name c o _ => s ∈ t.ids ∧ Findable S h t name c o ∧
      (c = .nil ∧ (∀ g ∈ t.tagsNamed h name, TitleOk S h t g.title) ∨ TitleOk S h t c)
  | .toc i => i ∈ t.ids ∧ ∀ j ∈ t.ids, j ≠ t.root → (h.get j).primaryTag.sec = some j
  | .styled s _ c _ => KnownStyle s c
  | .sect _ => False
  | .lazy _ _ => False
  | _ => True

/-- A book in which everything can be shown. -/
structure Sane (S : Site) (h : Heap) (t : Tree) : Prop where
  style : ∀ i ∈ t.ids, (h.get i).style = [] ∨ (h.get i).style = q%"section"
  owned : ∀ i ∈ t.ids, ∀ g ∈ (h.get i).tags, g.sec = some i
  title : ∀ i ∈ t.ids, TitleOk S h t (h.get i).title
  body : ∀ i ∈ t.ids, ∀ d ∈ (h.get i).body.parts false, d.inBody S h t

/-- What a plugin may make in documents that are to be rendered: no references, sections or tables of contents of its
own, nothing deferred, and only styles that have a template. -/
def Content.simple : Content → Bool
  | .styled s _ c ps => ps.isEmpty &&
      (s == q%"verbatim" || (styling s).isSome || (s == q%"raw-html" && match c with | .str _ => true | _ => false))
  | .ref .. => false
  | .sect _ => false
  | .toc _ => false
  | .lazy .. => false
  | _ => true

/-- A text that can be shown anywhere: no tables of contents in it, and nothing that is left out, as are the texts of
`\reference{tag}` and `\target{tag}`. -/
def Content.plainTitle (c : Content) : Bool :=
  c.all fun
    | .nil => false
    | .toc _ => false
    | _ => true

/-- What the writer of a document has to see to so that it can be rendered. -/
structure InOrder (h : Heap) (t : Tree) : Prop where
  /-- Sections have no style of their own, for which a template would be needed. -/
  style : ∀ i ∈ t.ids, (h.get i).style = [] ∨ (h.get i).style = q%"section"
  /-- Every reference is to a name that exactly one tag has, and its text, if it has one, can be shown anywhere. -/
  refs : ∀ i ∈ t.ids, ∀ c ∈ (h.get i).shown, ∀ s name x o l, .ref s name x o l ∈ c.parts true →
    (∃ g, t.tagsNamed h name = [g]) ∧ (x = .nil ∨ x.plainTitle = true)
  /-- Titles of sections and targets can be shown anywhere. -/
  titles : ∀ i ∈ t.ids, (h.get i).title.plainTitle = true ∧ ∀ g ∈ (h.get i).tags, g.title.plainTitle = true
  /-- If there is a table of contents, all sections but the topmost have a title. -/
  tocs : (∃ i ∈ t.ids, ∃ j, .toc j ∈ (h.get i).body.parts true) → ∀ j ∈ t.ids, j ≠ t.root → (h.get j).title ≠ .str []

end Booklit
