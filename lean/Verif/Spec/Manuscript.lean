import Verif.Spec.Prose
import Verif.Spec.Looks
import Verif.Model.Eval

/-!
Manuscripts: books as a writer thinks of them (titles, paragraphs, styles, code, images, lists, tables, definitions,
boxes, targets, references, sections),
how they are written down in booklit (`src`), and what the pages made from them show (`PageDom`). Nothing here refers
to the parser, the evaluator, sections in memory, or templates.

Taken from elsewhere: `escape` and `Block` (how text and blocks are written), `lettering`, `Spaced` and `LeadsTo` (text
on a page, white space, and links), `dotted` (numbers of sections), and `slug` (the tag made from a title, see C17).
-/

namespace Booklit.Ms

open Booklit

/-- Styles of running text. -/
inductive Face where
  | bold | italic | larger | smaller | strike | superscript | subscript
deriving DecidableEq

/-- The function that sets the style. -/
def Face.fn : Face → Str
  | .bold => q%"bold"
  | .italic => q%"italic"
  | .larger => q%"larger"
  | .smaller => q%"smaller"
  | .strike => q%"strike"
  | .superscript => q%"superscript"
  | .subscript => q%"subscript"

/-- The element that shows the style. -/
def Face.elem : Face → List Dom → Dom
  | .bold, ds => .elem q%"strong" [] ds
  | .italic, ds => .elem q%"em" [] ds
  | .larger, ds => .elem q%"span" [(q%"style", q%"font-size: 120%")] ds
  | .smaller, ds => .elem q%"span" [(q%"style", q%"font-size: 80%")] ds
  | .strike, ds => .elem q%"span" [(q%"style", q%"text-decoration: line-through")] ds
  | .superscript, ds => .elem q%"sup" [] ds
  | .subscript, ds => .elem q%"sub" [] ds

/-- Running text: any characters; code; styles; links; references to sections and targets by name, shown by their title or
by a text of their own; images with a description; targets with a name and maybe a title; auxiliary text, which is left out
where a title is repeated. -/
inductive Span where
  | text (s : Str)
  | code (s : Str)
  | styled (f : Face) (ss : List Span)
  | link (ss : List Span) (url : Str)
  | ref (name : Str)
  | see (name : Str) (ss : List Span)
  | image (path alt : Str)
  | target (name : Str) (title : Option Str)
  | aux (ss : List Span)

/-- Blocks: paragraphs of lines, blocks of code, lists, tables of rows of cells, definitions of terms, asides and insets,
tables of contents. -/
inductive Blk where
  | para (ls : List (List Span))
  | code (b : Block)
  | list (ordered : Bool) (items : List (List Span))
  | table (rows : List (List (List Span)))
  | defs (ds : List (List Span × List Span))
  | box (aside : Bool) (bs : List Blk)
  | toc

/-- A section: its title, maybe names to refer to it, whether the sections below it have pages of their own and whether
they are left out of tables of contents, its text, and the sections below it. -/
inductive Part where
  | mk (title : List Span) (tags : List Str) (split hide : Bool) (body : List Blk) (subs : List Part)

def Part.title : Part → List Span
  | .mk t _ _ _ _ _ => t

mutual
/-- The text of a title: without styles. An image stands for where it is. -/
def Span.plain : Span → Str
  | .text s => s
  | .code s => s
  | .styled _ ss => plainSpans ss
  | .image path _ => q%"{image: " ++ path ++ q%"}"
  | .aux ss => plainSpans ss
  | .link _ _ => []
  | .ref _ => []
  | .see _ _ => []
  | .target _ _ => []
def plainSpans : List Span → Str
  | [] => []
  | s :: ss => s.plain ++ plainSpans ss
end

mutual
/-- A title without what is auxiliary. -/
def Span.essence : Span → List Span
  | .aux _ => []
  | .styled f ss => [.styled f (essence ss)]
  | s => [s]
def essence : List Span → List Span
  | [] => []
  | s :: ss => s.essence ++ essence ss
end

/-- The names of a section: the ones given, or the one made from the title. -/
def tagsOr (title : List Span) : List Str → List Str
  | [] => [slug (plainSpans (essence title))]
  | g :: gs => g :: gs

def Part.tags : Part → List Str
  | .mk t gs _ _ _ _ => tagsOr t gs

/-- The name a section is known by: the first of its names. -/
def Part.name : Part → Str
  | .mk t gs _ _ _ _ => gs.headD (slug (plainSpans (essence t)))

def Part.split : Part → Bool
  | .mk _ _ s _ _ _ => s

def Part.hide : Part → Bool
  | .mk _ _ _ h _ _ => h

def Part.body : Part → List Blk
  | .mk _ _ _ _ b _ => b

def Part.subs : Part → List Part
  | .mk _ _ _ _ _ ss => ss

/-! ### How it is written -/

mutual
def Span.src : Span → Str
  | .text s => escape s
  | .code s => q%"\\code{{{" ++ s ++ q%"}}}"
  | .styled f ss => '\\' :: f.fn ++ q%"{" ++ srcSpans ss ++ q%"}"
  | .link ss url => q%"\\link{" ++ srcSpans ss ++ q%"}{" ++ escape url ++ q%"}"
  | .ref name => q%"\\reference{" ++ escape name ++ q%"}"
  | .see name ss => q%"\\reference{" ++ escape name ++ q%"}{" ++ srcSpans ss ++ q%"}"
  | .image path alt => q%"\\image{" ++ escape path ++ q%"}{" ++ escape alt ++ q%"}"
  | .target name title => q%"\\target{" ++ escape name ++ q%"}" ++ (match title with | none => [] | some t => q%"{" ++ escape t ++ q%"}")
  | .aux ss => q%"\\aux{" ++ srcSpans ss ++ q%"}"
def srcSpans : List Span → Str
  | [] => []
  | s :: ss => s.src ++ srcSpans ss
end

mutual
/-- Every block is followed by an empty line. -/
def Blk.src (nl : Str) : Blk → Str
  | .para ls => (ls.map fun l => srcSpans l ++ nl).flatten ++ nl
  | .code b => q%"\\code" ++ b.src nl ++ nl ++ nl
  | .list o items => (if o then q%"\\ordered-list" else q%"\\list") ++ (items.map fun l => q%"{" ++ srcSpans l ++ q%"}").flatten ++ nl ++ nl
  | .table rows => q%"\\table" ++ (rows.map fun r => q%"{\\table-row" ++ (r.map fun l => q%"{" ++ srcSpans l ++ q%"}").flatten ++ q%"}").flatten ++
    nl ++ nl
  | .defs ds => q%"\\definitions" ++ (ds.map fun d => q%"{\\definition{" ++ srcSpans d.1 ++ q%"}{" ++ srcSpans d.2 ++ q%"}}").flatten ++ nl ++ nl
  | .box a bs => (if a then q%"\\aside" else q%"\\inset") ++ q%"{" ++ nl ++ srcBlks nl bs ++ q%"}" ++ nl ++ nl
  | .toc => q%"\\table-of-contents" ++ nl ++ nl
def srcBlks (nl : Str) : List Blk → Str
  | [] => []
  | b :: bs => b.src nl ++ srcBlks nl bs
end

mutual
def Part.src (nl : Str) : Part → Str
  | .mk title tags split hide body subs =>
    q%"\\title{" ++ srcSpans title ++ q%"}" ++ (tags.map fun g => q%"{" ++ escape g ++ q%"}").flatten ++ nl ++ nl ++
    (if split then q%"\\split-sections" ++ nl ++ nl else []) ++
    (if hide then q%"\\omit-children-from-table-of-contents" ++ nl ++ nl else []) ++ srcBlks nl body ++ srcParts nl subs
def srcParts (nl : Str) : List Part → Str
  | [] => []
  | p :: ps => q%"\\section{" ++ nl ++ p.src nl ++ q%"}" ++ nl ++ nl ++ srcParts nl ps
end

/-! ### What a writer has to see to -/

/-- Text in one line. -/
def oneLine (s : Str) : Prop := s ≠ [] ∧ ∀ c ∈ s, c ≠ '\r' ∧ c ≠ '\n'

def Span.isText : Span → Bool
  | .text _ => true
  | _ => false

/-- No two texts in a row (they are one text). -/
def apart : List Span → Prop
  | a :: b :: r => ¬ (a.isText = true ∧ b.isText = true) ∧ apart (b :: r)
  | _ => True

mutual
/-- Text in which all references have a text of their own, without targets and without auxiliary parts. -/
def Span.full : Span → Prop
  | .text _ => True
  | .code _ => True
  | .styled _ ss => fullSpans ss
  | .link ss _ => fullSpans ss
  | .ref _ => False
  | .see _ ss => fullSpans ss
  | .image _ _ => True
  | .target _ _ => False
  | .aux _ => False
def fullSpans : List Span → Prop
  | [] => True
  | s :: ss => s.full ∧ fullSpans ss
end

mutual
def Span.ok : Span → Prop
  | .text s => oneLine s
  | .code s => oneLine s ∧ ¬ Src.hasClose s ∧ s.getLast? ≠ some '}'
  | .styled _ ss => ss ≠ [] ∧ apart ss ∧ okSpans ss
  | .link ss url => ss ≠ [] ∧ apart ss ∧ okSpans ss ∧ oneLine url
  | .ref name => oneLine name
  | .see name ss => oneLine name ∧ ss ≠ [] ∧ apart ss ∧ okSpans ss ∧ fullSpans ss
  | .image path alt => oneLine path ∧ oneLine alt
  | .target name title => oneLine name ∧ ∀ t ∈ title, oneLine t
  | .aux ss => ss ≠ [] ∧ apart ss ∧ okSpans ss
def okSpans : List Span → Prop
  | [] => True
  | s :: ss => s.ok ∧ okSpans ss
end

/-- Running text: something, and in one line. -/
def runOk (l : List Span) : Prop := l ≠ [] ∧ apart l ∧ okSpans l

/-- Not only auxiliary: what is auxiliary would not be left out then. -/
def notOnlyAux : List Span → Prop
  | [.aux _] => False
  | _ => True

mutual
/-- Text as it may be in a title: without links, references and targets, and with something besides what is auxiliary. -/
def Span.bare : Span → Prop
  | .text _ => True
  | .code _ => True
  | .styled _ ss => notOnlyAux ss ∧ bareSpans ss
  | .image _ _ => True
  | .aux ss => bareSpans ss
  | .link _ _ => False
  | .ref _ => False
  | .see _ _ => False
  | .target _ _ => False
def bareSpans : List Span → Prop
  | [] => True
  | s :: ss => s.bare ∧ bareSpans ss
end

/-- A title. -/
def titleOk (l : List Span) : Prop := runOk l ∧ notOnlyAux l ∧ bareSpans l

/-- A line of a paragraph: blanks at its beginning would be taken for indentation. -/
def lineOk (l : List Span) : Prop :=
  runOk l ∧ ∀ s r, l = .text s :: r → ∀ c ∈ s.head?, Src.isBlank c = false

mutual
def Blk.ok : Blk → Prop
  | .para ls => ls ≠ [] ∧ ∀ l ∈ ls, lineOk l
  | .code b => b.ok
  | .list _ items => items ≠ [] ∧ ∀ l ∈ items, runOk l
  | .table rows => rows ≠ [] ∧ ∀ r ∈ rows, r ≠ [] ∧ ∀ l ∈ r, runOk l
  | .defs ds => ds ≠ [] ∧ ∀ d ∈ ds, runOk d.1 ∧ runOk d.2
  | .box _ bs => bs ≠ [] ∧ okBlks bs
  | .toc => True
def okBlks : List Blk → Prop
  | [] => True
  | b :: bs => b.ok ∧ okBlks bs
end

mutual
def Part.ok : Part → Prop
  | .mk title tags _ _ body subs => titleOk title ∧ (∀ g ∈ tags, oneLine g) ∧ okBlks body ∧ okParts subs
def okParts : List Part → Prop
  | [] => True
  | p :: ps => p.ok ∧ okParts ps
end

/-! ### Where things are -/

/-- `Place b ks n os o p`: descending in the book `b` to the sections number `ks` (counting from 0) leads to `p`; its
header is of level `n`; it is on the page that starts with `o`, which is found at `os`. Sections below a split one start
a page, and count their levels from the beginning. -/
inductive Place (b : Part) : List Nat → Nat → List Nat → Part → Part → Prop
  | top : Place b [] 1 [] b b
  | page {ks : List Nat} {n : Nat} {os : List Nat} {o p q : Part} {k : Nat} : Place b ks n os o p → p.split = true →
      p.subs[k]? = some q → Place b (ks ++ [k]) 1 (ks ++ [k]) q q
  | same {ks : List Nat} {n : Nat} {os : List Nat} {o p q : Part} {k : Nat} : Place b ks n os o p → p.split = false →
      p.subs[k]? = some q → Place b (ks ++ [k]) (n + 1) os o q

/-- The URL of a section: the file of its page, and the place on the page unless it is the top of the page. -/
def url (ks os : List Nat) (o p : Part) : Str :=
  o.name ++ q%".html" ++ if os = ks ∨ p.name = [] then [] else '#' :: p.name

mutual
/-- The names that running text refers to. -/
def Span.refs : Span → List Str
  | .text _ => []
  | .code _ => []
  | .styled _ ss => refsSpans ss
  | .link ss _ => refsSpans ss
  | .ref name => [name]
  | .see name ss => name :: refsSpans ss
  | .image _ _ => []
  | .target _ _ => []
  | .aux ss => refsSpans ss
def refsSpans : List Span → List Str
  | [] => []
  | s :: ss => s.refs ++ refsSpans ss
end

mutual
def Blk.refs : Blk → List Str
  | .para ls => ls.flatMap refsSpans
  | .code _ => []
  | .list _ items => items.flatMap refsSpans
  | .table rows => rows.flatMap (·.flatMap refsSpans)
  | .defs ds => ds.flatMap fun d => refsSpans d.1 ++ refsSpans d.2
  | .box _ bs => refsBlks bs
  | .toc => []
def refsBlks : List Blk → List Str
  | [] => []
  | b :: bs => b.refs ++ refsBlks bs
end

mutual
/-- The targets in running text: their names and titles. Without a title, the name is the title. -/
def Span.marks : Span → List (Str × Str)
  | .text _ => []
  | .code _ => []
  | .styled _ ss => marksSpans ss
  | .link ss _ => marksSpans ss
  | .ref _ => []
  | .see _ _ => []
  | .image _ _ => []
  | .target name title => [(name, title.getD name)]
  | .aux ss => marksSpans ss
def marksSpans : List Span → List (Str × Str)
  | [] => []
  | s :: ss => s.marks ++ marksSpans ss
end

mutual
def Blk.marks : Blk → List (Str × Str)
  | .para ls => ls.flatMap marksSpans
  | .code _ => []
  | .list _ items => items.flatMap marksSpans
  | .table rows => rows.flatMap (·.flatMap marksSpans)
  | .defs ds => ds.flatMap fun d => marksSpans d.1 ++ marksSpans d.2
  | .box _ bs => marksBlks bs
  | .toc => []
def marksBlks : List Blk → List (Str × Str)
  | [] => []
  | b :: bs => b.marks ++ marksBlks bs
end

mutual
/-- All names: those of the section, of the targets in its text, and the ones below. -/
def Part.names : Part → List Str
  | .mk title tags _ _ body subs => tagsOr title tags ++ (marksBlks body).map (·.1) ++ namesParts subs
def namesParts : List Part → List Str
  | [] => []
  | p :: ps => p.names ++ namesParts ps
end

/-- Every reference is to a name that is given once. -/
def RefsOk (b : Part) : Prop :=
  ∀ ks n os o p, Place b ks n os o p → ∀ name ∈ refsBlks p.body, b.names.count name = 1

/-- `Aim b name ks p u title`: what a name stands for. It is one of the names of section `p`, at `ks`, or of a target in its text.
The URL of a target is that of the page it is on, with its own name. -/
inductive Aim (b : Part) : Str → List Nat → Part → Str → List Span → Prop
  | sect {ks os : List Nat} {n : Nat} {o p : Part} {name : Str} : Place b ks n os o p → name ∈ p.tags →
      Aim b name ks p (url ks os o p) p.title
  | target {ks os : List Nat} {n : Nat} {o p : Part} {name title : Str} : Place b ks n os o p → (name, title) ∈ marksBlks p.body →
      Aim b name ks p (o.name ++ q%".html#" ++ name) [.text title]

/-- Pages can have files of their own: the names of the sections that start them are different and have no slashes. -/
def PagesApart (b : Part) : Prop :=
  ∀ ks p, Place b ks 1 ks p p → '/' ∉ p.name ∧ ∀ ks' p', Place b ks' 1 ks' p' p' → p'.name = p.name → ks' = ks

/-! ### What is on the pages -/

mutual
/-- What running text looks like in the book `b`. -/
inductive SpanDom (b : Part) : Span → List Dom → Prop
  | text {s : Str} : SpanDom b (.text s) (lettering s)
  | code {s : Str} : SpanDom b (.code s) [.elem q%"code" [] (lettering s)]
  | styled {f : Face} {ss : List Span} {ds : List Dom} : SpansDom b ss ds → SpanDom b (.styled f ss) [f.elem ds]
  | link {ss : List Span} {u v : Str} {ds : List Dom} : SpansDom b ss ds → LeadsTo u v →
      SpanDom b (.link ss u) [.elem q%"a" [(q%"href", v)] ds]
  | ref {name : Str} {ks : List Nat} {p : Part} {u v : Str} {title : List Span} {ds : List Dom} : Aim b name ks p u title →
      LeadsTo u v → SpansDom b (essence title) ds → SpanDom b (.ref name) [.elem q%"a" [(q%"href", v)] ds]
  | see {name : Str} {ks : List Nat} {p : Part} {u v : Str} {title ss : List Span} {ds : List Dom} : Aim b name ks p u title →
      LeadsTo u v → SpansDom b ss ds → SpanDom b (.see name ss) [.elem q%"a" [(q%"href", v)] ds]
  | image {path alt v : Str} : LeadsTo path v →
      SpanDom b (.image path alt) [.elem q%"img" [(q%"src", v), (q%"alt", alt.map arriving)] []]
  | target {name : Str} {title : Option Str} : SpanDom b (.target name title) [.elem q%"a" [(q%"id", name.map arriving)] []]
  | aux {ss : List Span} {ds : List Dom} : SpansDom b ss ds → SpanDom b (.aux ss) ds
inductive SpansDom (b : Part) : List Span → List Dom → Prop
  | nil : SpansDom b [] []
  | cons {s : Span} {ss : List Span} {d ds : List Dom} : SpanDom b s d → SpansDom b ss ds → SpansDom b (s :: ss) (d ++ ds)
end

/-- The number of a section, with a blank after it. -/
def numbering (ks : List Nat) : List Dom := chars (dotted (ks.map (· + 1)) ++ [' '])

mutual
/-- The table of contents of section `p`, at `ks`: nothing if there are no sections below it or they are left out. -/
inductive TocDom (b : Part) : List Nat → Part → List Dom → Prop
  | none {ks : List Nat} {p : Part} : p.subs = [] ∨ p.hide = true → TocDom b ks p []
  | some {ks : List Nat} {p : Part} {lis : List (List Dom)} {ul nav ds : List Dom} : p.subs ≠ [] → p.hide = false →
      EntriesDom b ks 0 p.subs lis →
      Spaced (lis.map fun x => [.elem q%"li" [] x]) ul → Spaced [[.elem q%"ul" [] ul]] nav →
      Spaced [[.elem q%"nav" [] nav]] ds → TocDom b ks p ds
/-- The entries for the sections below, from the one number `k` on: a link with number and title (without what is
auxiliary), and the table of contents of what is below. -/
inductive EntriesDom (b : Part) : List Nat → Nat → List Part → List (List Dom) → Prop
  | nil {ks : List Nat} {k : Nat} : EntriesDom b ks k [] []
  | cons {ks os : List Nat} {k n : Nat} {o p : Part} {ps : List Part} {v : Str} {title below li : List Dom} {lis : List (List Dom)} :
      Place b (ks ++ [k]) n os o p → LeadsTo (url (ks ++ [k]) os o p) v → TocDom b (ks ++ [k]) p below →
      SpansDom b (essence p.title) title →
      Spaced [[.elem q%"a" [(q%"href", v)] (numbering (ks ++ [k]) ++ title)], below] li →
      EntriesDom b ks (k + 1) ps lis → EntriesDom b ks k (p :: ps) (li :: lis)
end

mutual
/-- What a block of section `p`, at `ks`, looks like. -/
inductive BlkDom (b : Part) (ks : List Nat) (p : Part) : Blk → List Dom → Prop
  | para {ls : List (List Span)} {dss : List (List Dom)} : All2 (SpansDom b) ls dss →
      BlkDom b ks p (.para ls) [.elem q%"p" [] ([.char ' '].intercalate dss)]
  | code {c : Block} : BlkDom b ks p (.code c) [.elem q%"pre" [] ([.char '\n'].intercalate (c.dedented.map lettering))]
  | list {o : Bool} {items : List (List Span)} {dss : List (List Dom)} {ds : List Dom} : All2 (SpansDom b) items dss →
      Spaced (dss.map fun x => [.elem q%"li" [] x]) ds →
      BlkDom b ks p (.list o items) [.elem (if o then q%"ol" else q%"ul") [] ds]
  | table {rows : List (List (List Span))} {cells : List (List (List Dom))} {trs : List (List Dom)} {ds : List Dom} :
      All2 (All2 (SpansDom b)) rows cells → All2 (fun row tr => Spaced (row.map fun x => [.elem q%"td" [] x]) tr) cells trs →
      Spaced (trs.map fun x => [.elem q%"tr" [] x]) ds → BlkDom b ks p (.table rows) [.elem q%"table" [] ds]
  | defs {xs : List (List Span × List Span)} {dts dds : List (List Dom)} {ds : List Dom} :
      All2 (SpansDom b) (xs.map (·.1)) dts → All2 (SpansDom b) (xs.map (·.2)) dds →
      Spaced ((dts.zip dds).flatMap fun d => [[.elem q%"dt" [] d.1], [.elem q%"dd" [] d.2]]) ds →
      BlkDom b ks p (.defs xs) [.elem q%"dl" [] ds]
  | aside {bs : List Blk} {ds : List Dom} : BlksDom b ks p bs ds →
      BlkDom b ks p (.box true bs) [.elem q%"blockquote" [(q%"class", q%"aside")] ds]
  | inset {bs : List Blk} {ds : List Dom} : BlksDom b ks p bs ds →
      BlkDom b ks p (.box false bs) [.elem q%"div" [(q%"style", q%"margin: 0 2em 1em"), (q%"class", q%"inset")] ds]
  | toc {ds : List Dom} : TocDom b ks p ds → BlkDom b ks p .toc ds
inductive BlksDom (b : Part) (ks : List Nat) (p : Part) : List Blk → List Dom → Prop
  | nil : BlksDom b ks p [] []
  | cons {x : Blk} {xs : List Blk} {d ds : List Dom} : BlkDom b ks p x d → BlksDom b ks p xs ds → BlksDom b ks p (x :: xs) (d ++ ds)
end

mutual
/-- What section `p`, at `ks` and of level `n`, looks like: a header with an anchor, its number (unless it is the whole
book) and its title; its text; and the sections below, unless they have pages of their own. -/
inductive PartDom (b : Part) : List Nat → Nat → Part → List Dom → Prop
  | mk {ks : List Nat} {n : Nat} {p : Part} {num title body ds : List Dom} {subs : List (List Dom)} :
      num = (if ks = [] then [] else [.elem q%"span" [(q%"class", q%"section-number")] (numbering ks)]) →
      SpansDom b p.title title → BlksDom b ks p p.body body → PartsDom b ks (n + 1) 0 (if p.split then [] else p.subs) subs →
      Spaced ([.elem ('h' :: Nat.toDigits 10 (min 6 n)) [(q%"class", q%"section-header")]
        (.elem q%"a" [(q%"id", p.name.map arriving)] [] :: num ++ title)] :: body :: subs) ds →
      PartDom b ks n p ds
inductive PartsDom (b : Part) : List Nat → Nat → Nat → List Part → List (List Dom) → Prop
  | nil {ks : List Nat} {n k : Nat} : PartsDom b ks n k [] []
  | cons {ks : List Nat} {n k : Nat} {p : Part} {ps : List Part} {d : List Dom} {ds : List (List Dom)} : PartDom b (ks ++ [k]) n p d →
      PartsDom b ks n (k + 1) ps ds → PartsDom b ks n k (p :: ps) (d :: ds)
end

/-- The page of section `p`. -/
def PageDom (b : Part) (ks : List Nat) (n : Nat) (p : Part) (page : List Dom) : Prop :=
  ∃ html head body shown, Spaced [[.elem q%"html" [] html]] page ∧
    Spaced [[.elem q%"head" [] head], [.elem q%"body" [] body]] html ∧
    Spaced [[.elem q%"meta" [(q%"http-equiv", q%"content-type"), (q%"content", q%"text/html; charset=utf-8")] []],
      [.elem q%"title" [] (lettering (plainSpans p.title))]] head ∧
    Spaced [shown] body ∧ PartDom b ks n p shown

end Booklit.Ms
