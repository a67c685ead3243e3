import Verif.Spec.Visible
import Verif.Model.Html

/-!
Specification of what a document looks like on a page: a relation between contents and elements. It knows nothing of
templates, of escaping, or of how references are looked up; white space between elements is left open.
-/

namespace Booklit

/-- Lists related element by element. -/
inductive All2 {α β : Type} (R : α → β → Prop) : List α → List β → Prop
  | nil : All2 R [] []
  | cons {a b as bs} : R a b → All2 R as bs → All2 R (a :: as) (b :: bs)

/-- White space. -/
def Blank (ds : List Dom) : Prop := ∀ d ∈ ds, d = .char ' ' ∨ d = .char '\n'

/-- The pieces, one after the other, with any white space around and between them. -/
inductive Spaced : List (List Dom) → List Dom → Prop
  | done {w : List Dom} : Blank w → Spaced [] w
  | piece {w p ds : List Dom} {ps : List (List Dom)} : Blank w → Spaced ps ds → Spaced (p :: ps) (w ++ p ++ ds)

/-- A text on a page. -/
def lettering (s : Str) : List Dom := chars (s.map arriving)

/-- The element that a style stands for. -/
def styling (style : Str) : Option (Str × List (Str × Str)) :=
  [(q%"aside", q%"blockquote", [(q%"class", q%"aside")]),
   (q%"bold", q%"strong", []),
   (q%"inset", q%"div", [(q%"style", q%"margin: 0 2em 1em"), (q%"class", q%"inset")]),
   (q%"italic", q%"em", []),
   (q%"larger", q%"span", [(q%"style", q%"font-size: 120%")]),
   (q%"smaller", q%"span", [(q%"style", q%"font-size: 80%")]),
   (q%"strike", q%"span", [(q%"style", q%"text-decoration: line-through")]),
   (q%"subscript", q%"sub", []),
   (q%"superscript", q%"sup", [])].lookup style

/-- URLs that may stand in a link: no scheme, or one for pages and mail. -/
def allowedUrl (u : Str) : Prop :=
  ':' ∉ u.takeWhile (· ≠ '/') ∨ ∃ s ∈ [q%"http:", q%"https:", q%"mailto:"], s <+: u

/-- Characters that need no encoding in a URL (RFC 3986, 2.2 and 2.3, without quotes, parentheses). -/
def urlChar (c : Char) : Prop :=
  ('a' ≤ c ∧ c ≤ 'z') ∨ ('A' ≤ c ∧ c ≤ 'Z') ∨ ('0' ≤ c ∧ c ≤ '9') ∨ c ∈ q%"!#$&*+,/:;=?@[]-._~"

/-- A URL that needs no encoding: all characters are fit for URLs, or begin a percent sign and two hexadecimal digits. -/
inductive Encoded : Str → Prop
  | nil : Encoded []
  | char {c : Char} {u : Str} : urlChar c → Encoded u → Encoded (c :: u)
  | escape {x y : Char} {a b : Nat} {u : Str} : digitValue x = some a → digitValue y = some b → Encoded u →
      Encoded ('%' :: x :: y :: u)

/-- The bytes that a URL stands for: what is percent-encoded is decoded, the rest is taken as UTF-8. -/
def urlBytes (u : Str) : List Byte := unpercent ((utf8 u).map Char.ofNat)

/-- The link `v` leads where `u` says: it is never unsafe, it is `u` when that needs no encoding, and in any case needs
none itself and stands for the same bytes as `u`. Left open: URLs that are not allowed. -/
structure LeadsTo (u v : Str) : Prop where
  safe : safeLink v = true
  same : allowedUrl u → Encoded u → v = u
  encoded : Encoded v
  decoded : allowedUrl u → unpercent v = urlBytes u

/-- Section `o` is the one that starts the page section `i` is on: going up to the first section without a parent or
with a split one. -/
inductive OnPage (h : Heap) : Nat → Nat → Prop
  | top {i : Nat} : (h.get i).parent = none → OnPage h i i
  | split {i p : Nat} : (h.get i).parent = some p → (h.get p).split = true → OnPage h i i
  | up {i p o : Nat} : (h.get i).parent = some p → (h.get p).split = false → OnPage h p o → OnPage h i o

/-- The URL of a tag: the file of the page that its section is on, and the place on the page, which is left out if it is
the top of the page. -/
def Address (h : Heap) (g : Tag) (u : Str) : Prop :=
  ∃ i o, g.sec = some i ∧ OnPage h i o ∧ u = (h.get o).primaryTag.name ++ q%".html" ++
    (if g.anchor ≠ [] then '#' :: g.anchor
     else if o ≠ i ∧ (h.get i).primaryTag.name ≠ [] then '#' :: (h.get i).primaryTag.name
     else [])

/-- What a reference shows: its own text, or the title of what it refers to, in both cases without the auxiliary
parts. -/
def Displays (c title d : Content) : Prop := stripAux (if c.isNil then title else c) = some d

mutual
/-- How content is shown in a book `t`. -/
inductive Looks (S : Site) (h : Heap) (t : Tree) : Content → List Dom → Prop
  | str {s : Str} : Looks S h t (.str s) (lettering s)
  | seq {cs : List Content} {dss : List (List Dom)} : All2 (Looks S h t) cs dss → Looks S h t (.seq cs) dss.flatten
  | para {cs : List Content} {dss : List (List Dom)} : All2 (Looks S h t) cs dss →
      Looks S h t (.para cs) [.elem q%"p" [] ([.char ' '].intercalate dss)]
  | pre {cs : List Content} {dss : List (List Dom)} : All2 (Looks S h t) cs dss →
      Looks S h t (.pre cs) ([.char '\n'].intercalate dss)
  | code {c : Content} {ps : List (Str × Content)} {ds : List Dom} : isFlow c = some true → Looks S h t c ds →
      Looks S h t (.styled q%"verbatim" false c ps) [.elem q%"code" [] ds]
  | codeBlock {b : Bool} {c : Content} {ps : List (Str × Content)} {ds : List Dom} : b = true ∨ isFlow c = some false →
      Looks S h t c ds → Looks S h t (.styled q%"verbatim" b c ps) [.elem q%"pre" [] ds]
  | styled {s e : Str} {as : List (Str × Str)} {b : Bool} {c : Content} {ps : List (Str × Content)} {ds : List Dom} :
      styling s = some (e, as) → Looks S h t c ds → Looks S h t (.styled s b c ps) [.elem e as ds]
  | target {s : Str} {l : Location} {a b : Content} :
      Looks S h t (.target s l a b) [.elem q%"a" [(q%"id", s.map arriving)] []]
  | image {p d v : Str} : LeadsTo p v →
      Looks S h t (.image p d) [.elem q%"img" [(q%"src", v), (q%"alt", d.map arriving)] []]
  | list {cs : List Content} {o : Bool} {dss : List (List Dom)} {ds : List Dom} : All2 (Looks S h t) cs dss →
      Spaced (dss.map fun x => [.elem q%"li" [] x]) ds →
      Looks S h t (.list cs o) [.elem (if o then q%"ol" else q%"ul") [] ds]
  | link {c : Content} {u v : Str} {ds : List Dom} : LeadsTo u v → Looks S h t c ds →
      Looks S h t (.link c u) [.elem q%"a" [(q%"href", v)] ds]
  | table {rs : List (List Content)} {rows : List (List (List Dom))} {trs : List (List Dom)} {ds : List Dom} :
      All2 (All2 (Looks S h t)) rs rows →
      All2 (fun row tr => Spaced (row.map fun x => [.elem q%"td" [] x]) tr) rows trs →
      Spaced (trs.map fun x => [.elem q%"tr" [] x]) ds → Looks S h t (.table rs) [.elem q%"table" [] ds]
  | defs {prs : List (Content × Content)} {dts dds : List (List Dom)} {ds : List Dom} :
      All2 (Looks S h t) (prs.map (·.1)) dts → All2 (Looks S h t) (prs.map (·.2)) dds →
      Spaced ((dts.zip dds).flatMap fun p => [[.elem q%"dt" [] p.1], [.elem q%"dd" [] p.2]]) ds →
      Looks S h t (.defs prs) [.elem q%"dl" [] ds]
  | lazy {b : Bool} {i : Nat} {c : Content} {ds : List Dom} : S.force i = some c → Looks S h t c ds →
      Looks S h t (.lazy b i) ds
  | aux {c : Content} {ds : List Dom} : Looks S h t c ds → Looks S h t (.aux c) ds
  /-- a reference to the only tag of the name -/
  | ref {i : Nat} {s u v : Str} {c d : Content} {o : Bool} {l : Location} {g : Tag} {ds : List Dom} :
      t.tagsNamed h s = [g] → Address h g u → LeadsTo u v → Displays c g.title d → Looks S h t d ds →
      Looks S h t (.ref i s c o l) [.elem q%"a" [(q%"href", v)] ds]
  /-- an optional reference to a tag that does not exist -/
  | noRef {i : Nat} {s : Str} {c d : Content} {l : Location} {ds : List Dom} :
      t.tagsNamed h s = [] → Displays c c d → Looks S h t d ds → Looks S h t (.ref i s c true l) ds
  /-- a reference to no tag or to several, with broken references allowed -/
  | badRef {i : Nat} {s v : Str} {c d : Content} {o : Bool} {l : Location} {ds : List Dom} :
      S.brokenOk = true → (t.tagsNamed h s).length ≠ 1 → ¬ (o = true ∧ t.tagsNamed h s = []) → safeLink v = true →
      Displays c (.str (q%"{broken reference: " ++ s ++ q%"}")) d → Looks S h t d ds →
      Looks S h t (.ref i s c o l) [.elem q%"a" [(q%"href", v)] ds]
  /-- a section: a header of the right level with anchor, number (except at the top of the book) and title, then the
  body, then the sections below unless they have pages of their own -/
  | sect {s : Tree} {ks : List Nat} {num title body ds : List Dom} {kids : List (List Dom)} : t.At ks s →
      num = (if ks = [] then [] else
        [.elem q%"span" [(q%"class", q%"section-number")] (chars (dotted (ks.map (· + 1)) ++ [' ']))]) →
      Looks S h t (h.get s.root).title title → Looks S h t (h.get s.root).body body →
      All2 (Looks S h t) (if (h.get s.root).split then [] else s.kids.map fun k => .sect k.root) kids →
      Spaced ([.elem ('h' :: Nat.toDigits 10
            (min 6 (1 + ((t.ancestors ks).takeWhile fun a => !(h.get a).resetDepth).length)))
          [(q%"class", q%"section-header")]
          (.elem q%"a" [(q%"id", (h.get s.root).primaryTag.name.map arriving)] [] :: num ++ title)] :: body :: kids) ds →
      Looks S h t (.sect s.root) ds
  | noToc {s : Tree} : t.Sub s → s.kids = [] ∨ (h.get s.root).omitToc = true → Looks S h t (.toc s.root) []
  /-- a table of contents: an entry for each section below -/
  | toc {s : Tree} {ds nav ul : List Dom} {lis : List (List Dom)} : t.Sub s → s.kids ≠ [] →
      (h.get s.root).omitToc = false → All2 (Entry S h t) (s.kids.map Tree.root) lis →
      Spaced (lis.map fun x => [.elem q%"li" [] x]) ul → Spaced [[.elem q%"ul" [] ul]] nav →
      Spaced [[.elem q%"nav" [] nav]] ds → Looks S h t (.toc s.root) ds
/-- An entry of a table of contents: a link with the number and the title of the section, and the table of contents of
what is below it. -/
inductive Entry (S : Site) (h : Heap) (t : Tree) : Nat → List Dom → Prop
  | entry {s : Tree} {ks : List Nat} {d : Content} {u v : Str} {title below ds : List Dom} : t.At ks s →
      Address h (h.get s.root).primaryTag u → LeadsTo u v → stripAux (h.get s.root).title = some d →
      Looks S h t d title → Looks S h t (.toc s.root) below →
      Spaced [[.elem q%"a" [(q%"href", v)] (chars (dotted (ks.map (· + 1)) ++ [' ']) ++ title)], below] ds →
      Entry S h t s.root ds
end

/-- A whole page, for section `i` with the title `title` as plain text. -/
def PageLooks (S : Site) (h : Heap) (t : Tree) (title : Str) (i : Nat) (page : List Dom) : Prop :=
  ∃ html head body shown, Spaced [[.elem q%"html" [] html]] page ∧
    Spaced [[.elem q%"head" [] head], [.elem q%"body" [] body]] html ∧
    Spaced [[.elem q%"meta" [(q%"http-equiv", q%"content-type"), (q%"content", q%"text/html; charset=utf-8")] []],
      [.elem q%"title" [] (lettering title)]] head ∧
    Spaced [shown] body ∧ Looks S h t (.sect i) shown

/-- A part of the book: no raw HTML, and references, sections and tables of contents of the book. -/
def Content.inBook (t : Tree) : Content → Bool
  | .styled s _ _ _ => s ≠ q%"raw-html"
  | .ref s _ _ _ _ => t.ids.contains s
  | .sect i => t.ids.contains i
  | .toc i => t.ids.contains i
  | _ => true

/-- Contents that stand for nothing elsewhere and are not raw HTML. -/
def Content.settled : Content → Bool
  | .styled s _ _ _ => s ≠ q%"raw-html"
  | .ref _ _ _ _ _ => false
  | .sect _ => false
  | .toc _ => false
  | _ => true

end Booklit
