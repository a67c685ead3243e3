import Verif.Spec.Looks
import Verif.Spec.Lines
import Verif.Spec.Parts
import Verif.Model.TextEngine

/-!
Specification of what a document looks like as plain text. It knows nothing of templates; how far things are apart is left
open.
-/

namespace Booklit

/-- The end of a line, and any white space. -/
def LineBreak (w : Str) : Prop := '\n' ∈ w ∧ ∀ c ∈ w, c = ' ' ∨ c = '\n'

/-- The texts, one after the other, with a new line before each and at the end. -/
inductive OwnLines : List Str → Str → Prop
  | done {w : Str} : LineBreak w → OwnLines [] w
  | text {w p s : Str} {ps : List Str} : LineBreak w → OwnLines ps s → OwnLines (p :: ps) (w ++ p ++ s)

/-- Every line of `s` is indented, all by the same number of spaces. -/
def Indented (s x : Str) : Prop :=
  ∃ k, 0 < k ∧ x = ['\n'].intercalate ((srcLines s).map (List.replicate k ' ' ++ ·))

/-- The texts that `String()` gives. -/
def Content.saysText (S : Site) (h : Heap) (c : Content) (s : Str) : Prop := ∃ n, h.text S.brokenOk n c = .ok s

mutual
/-- How content is shown in a book `t`. References, targets, images, lists, links, tables, definitions and other styles are
not shown. -/
inductive TextLooks (S : Site) (h : Heap) (t : Tree) : Content → Str → Prop
  | str {s : Str} : TextLooks S h t (.str s) s
  | seq {cs : List Content} {ts : List Str} : All2 (TextLooks S h t) cs ts → TextLooks S h t (.seq cs) ts.flatten
  /-- the lines of a paragraph, with spaces between them, and an empty line -/
  | para {cs : List Content} {ts : List Str} : All2 (TextLooks S h t) cs ts →
      TextLooks S h t (.para cs) ([' '].intercalate ts ++ ['\n', '\n'])
  | pre {cs : List Content} {ts : List Str} : All2 (TextLooks S h t) cs ts →
      TextLooks S h t (.pre cs) (['\n'].intercalate ts)
  | inset {b : Bool} {c : Content} {ps : List (Str × Content)} {s x : Str} : TextLooks S h t c s → Indented s x →
      TextLooks S h t (.styled q%"inset" b c ps) x
  | said {b : Bool} {c : Content} {ps : List (Str × Content)} {s : Str} : c.saysText S h s →
      TextLooks S h t (.styled q%"string" b c ps) s
  | lazy {b : Bool} {i : Nat} {c : Content} {s : Str} : S.force i = some c → TextLooks S h t c s →
      TextLooks S h t (.lazy b i) s
  | aux {c : Content} {s : Str} : TextLooks S h t c s → TextLooks S h t (.aux c) s
  /-- a section: its number (except at the top of the book), its title, directly followed by its body, and the sections
  below, on lines of their own, unless they have pages of their own -/
  | sect {s : Tree} {ks : List Nat} {num title body rest : Str} {kids : List Str} : t.At ks s →
      (h.get s.root).style = [] ∨ (h.get s.root).style = q%"section" →
      num = (if ks = [] then [] else dotted (ks.map (· + 1)) ++ [' ']) →
      TextLooks S h t (h.get s.root).title title → TextLooks S h t (h.get s.root).body body →
      All2 (TextLooks S h t) (if (h.get s.root).split then [] else s.kids.map fun k => .sect k.root) kids →
      OwnLines kids rest → TextLooks S h t (.sect s.root) (num ++ title ++ body ++ rest)
  | sectToc {i : Nat} {s : Str} : (h.get i).style = q%"toc" → TextLooks S h t (.toc i) s → TextLooks S h t (.sect i) s
  | sectSaid {i : Nat} {s : Str} : (h.get i).style = q%"string" → (Content.sect i).saysText S h s →
      TextLooks S h t (.sect i) s
  | noToc {s : Tree} : t.Sub s → s.kids = [] ∨ (h.get s.root).omitToc = true → TextLooks S h t (.toc s.root) []
  /-- a table of contents: an entry for each section below, on lines of its own -/
  | toc {s : Tree} {x : Str} {es : List Str} : t.Sub s → s.kids ≠ [] → (h.get s.root).omitToc = false →
      All2 (TextEntry S h t) (s.kids.map Tree.root) es → OwnLines es x → TextLooks S h t (.toc s.root) x
/-- An entry of a table of contents: the number and the title of the section, and the table of contents of what is below
it. -/
inductive TextEntry (S : Site) (h : Heap) (t : Tree) : Nat → Str → Prop
  | entry {s : Tree} {ks : List Nat} {d : Content} {title below x : Str} : t.At ks s →
      stripAux (h.get s.root).title = some d → TextLooks S h t d title → TextLooks S h t (.toc s.root) below →
      OwnLines [below] x → TextEntry S h t s.root (dotted (ks.map (· + 1)) ++ [' '] ++ title ++ x)
end

/-- A whole page: the title of the section, and the section. -/
def TextPage (S : Site) (h : Heap) (t : Tree) (i : Nat) (page : Str) : Prop :=
  ∃ title w shown, (h.get i).title.saysText S h title ∧ LineBreak w ∧ TextLooks S h t (.sect i) shown ∧
    page = title ++ w ++ shown

/-- Parts of a book as far as sections and tables of contents go. -/
def Content.placed (t : Tree) : Content → Bool
  | .sect i => t.ids.contains i
  | .toc i => t.ids.contains i
  | _ => true

/-! ### What can be shown as plain text -/

/-- Kinds of content that plain text can be made of. -/
def Content.typable : Content → Bool
  | .str _ => true
  | .seq _ => true
  | .para _ => true
  | .pre _ => true
  | .styled s _ _ _ => s == q%"inset"
  | .toc _ => true
  | .aux _ => true
  | _ => false

/-- The sections shown on the page of `i`. -/
inductive ShownWith (h : Heap) (i : Nat) : Nat → Prop
  | self : ShownWith h i i
  | deeper {j k : Nat} : ShownWith h i j → (h.get j).split = false → k ∈ (h.get j).children → ShownWith h i k

/-- The sections listed in the table of contents of `i`. -/
inductive ListedIn (h : Heap) (i : Nat) : Nat → Prop
  | child {k : Nat} : (h.get i).omitToc = false → k ∈ (h.get i).children → ListedIn h i k
  | deeper {j k : Nat} : ListedIn h i j → (h.get j).omitToc = false → k ∈ (h.get j).children → ListedIn h i k

/-- A section that can be shown as plain text: nothing in its title and body needs a template that does not exist, and
neither does anything in the titles listed in its table of contents, if there is one. -/
structure Typable (h : Heap) (i : Nat) : Prop where
  style : (h.get i).style = [] ∨ (h.get i).style = q%"section"
  title : ∀ d ∈ (h.get i).title.parts true, d.typable = true
  body : ∀ d ∈ (h.get i).body.parts true, d.typable = true
  toc : ∀ j, .toc j ∈ (h.get i).title.parts true ++ (h.get i).body.parts true → ∀ k, ListedIn h j k →
    ∃ d, stripAux (h.get k).title = some d ∧ ∀ e ∈ d.parts true, e.typable = true

end Booklit
