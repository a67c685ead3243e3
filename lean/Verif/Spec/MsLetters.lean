import Verif.Spec.Manuscript
import Verif.Spec.MsTyped
import Verif.Model.Escape

/-!
What manuscripts become, to the letter: the bytes of the pages (`webPage`). Nothing here refers to the parser, the evaluator,
sections in memory, or templates.

Taken from elsewhere: `escText`, `escAttr` and `escURL` (text, values of attributes and links as they are written in HTML: what they
do is the subject of C52 and C55), and `numeral`, `dotted` (numbers of sections).
-/

namespace Booklit.Ms

open Booklit

/-- What stands before and after text in a style. -/
def Face.around : Face → Str × Str
  | .bold => (q%"<strong>", q%"</strong>")
  | .italic => (q%"<em>", q%"</em>")
  | .larger => (q%"<span style=\"font-size: 120%\">", q%"</span>")
  | .smaller => (q%"<span style=\"font-size: 80%\">", q%"</span>")
  | .strike => (q%"<span style=\"text-decoration: line-through\">", q%"</span>")
  | .superscript => (q%"<sup>", q%"</sup>")
  | .subscript => (q%"<sub>", q%"</sub>")

/-- A link. -/
def hyper (u x : Str) : Str := q%"<a href=\"" ++ escURL u ++ q%"\">" ++ x ++ q%"</a>"

mutual
/-- Running text; `r` is where a name leads to and how it is shown. -/
def Span.web (r : Str → Str × Str) : Span → Str
  | .text s => escText s
  | .code s => q%"<code>" ++ escText s ++ q%"</code>"
  | .styled f ss => f.around.1 ++ webSpans r ss ++ f.around.2
  | .link ss u => hyper u (webSpans r ss)
  | .ref name => hyper (r name).1 (r name).2
  | .see name ss => hyper (r name).1 (webSpans r ss)
  | .image path alt => q%"<img src=\"" ++ escURL path ++ q%"\" alt=\"" ++ escAttr alt ++ q%"\" />"
  | .target name _ => q%"<a id=\"" ++ escAttr name ++ q%"\"></a>"
  | .aux ss => webSpans r ss
def webSpans (r : Str → Str × Str) : List Span → Str
  | [] => []
  | s :: ss => s.web r ++ webSpans r ss
end

/-- A title, where there are no references. -/
def webTitle (title : List Span) : Str := webSpans (fun _ => ([], [])) title

mutual
/-- Blocks; `toc` is the table of contents. -/
def Blk.web (r : Str → Str × Str) (toc : Str) : Blk → Str
  | .para ls => q%"<p>" ++ [' '].intercalate (ls.map (webSpans r)) ++ q%"</p>"
  | .code c => q%"<pre>" ++ ['\n'].intercalate (c.dedented.map escText) ++ q%"</pre>"
  | .list o items => (if o then q%"<ol>" else q%"<ul>") ++ q%"\n" ++ (items.flatMap fun l => q%"\n  <li>" ++ webSpans r l ++ q%"</li>\n") ++ q%"\n" ++
    (if o then q%"</ol>" else q%"</ul>")
  | .table rows => q%"<table>\n  " ++ (rows.flatMap fun row =>
      q%"\n  <tr>\n    " ++ (row.flatMap fun l => q%"\n    <td>" ++ webSpans r l ++ q%"</td>\n    ") ++ q%"\n  </tr>\n  ") ++ q%"\n</table>"
  | .defs ds => q%"<dl>\n  " ++ (ds.flatMap fun d => q%"\n  <dt>" ++ webSpans r d.1 ++ q%"</dt>\n    <dd>" ++ webSpans r d.2 ++ q%"</dd>\n  ") ++
    q%"\n</dl>"
  | .box a bs => (if a then q%"<blockquote class=\"aside\">" else q%"<div style=\"margin: 0 2em 1em\" class=\"inset\">") ++ webBlks r toc bs ++
    (if a then q%"</blockquote>" else q%"</div>")
  | .toc => toc
def webBlks (r : Str → Str × Str) (toc : Str) : List Blk → Str
  | [] => []
  | x :: xs => x.web r toc ++ webBlks r toc xs
end

/-- The URL of the section named `name` on the page named `page`; `top` if the page starts with it. -/
def urlOn (top : Bool) (page name : Str) : Str := page ++ q%".html" ++ if top || name.isEmpty then [] else '#' :: name

mutual
/-- The table of contents of the section at `ks` that is on the page named `page`. -/
def Part.webToc (ks : List Nat) (page : Str) : Part → Str
  | .mk _ _ split hide _ subs =>
    if subs.isEmpty || hide then []
    else q%"\n<nav>\n  <ul>\n  " ++ webEntries ks 0 split page subs ++ q%"\n  </ul>\n</nav>\n"
def webEntries (ks : List Nat) (k : Nat) (split : Bool) (page : Str) : List Part → Str
  | [] => []
  | p :: ps =>
    let page' := if split then p.name else page
    q%"\n    <li>\n      " ++ hyper (urlOn split page' p.name) (numeral (ks ++ [k]) ++ q%" " ++ webTitle (essence p.title)) ++ q%"\n\n      " ++
      p.webToc (ks ++ [k]) page' ++ q%"\n    </li>\n  " ++ webEntries ks (k + 1) split page ps
end

mutual
/-- All that has a name in a section that is on the page named `page`: the name, the URL, and the title. -/
def Part.aims (top : Bool) (page : Str) : Part → List (Str × Str × List Span)
  | .mk title tags split _ body subs =>
    (tagsOr title tags).map (fun g => (g, urlOn top page (tags.headD (slug (plainSpans (essence title)))), title)) ++
    (marksBlks body).map (fun m => (m.1, page ++ q%".html#" ++ m.1, [.text m.2])) ++ aimsParts split page subs
def aimsParts (split : Bool) (page : Str) : List Part → List (Str × Str × List Span)
  | [] => []
  | p :: ps => p.aims split (if split then p.name else page) ++ aimsParts split page ps
end

/-- Where a name leads to in the book `b`, seen from the page named `page`, and how it is shown: if there is not exactly one thing of that
name the reference is broken. -/
def refTo (b : Part) (page name : Str) : Str × Str :=
  match (b.aims true b.name).filter fun a => a.1 = name with
  | [a] => (a.2.1, webTitle (essence a.2.2))
  | _ => (page ++ q%".html#broken", escText (q%"{broken reference: " ++ name ++ q%"}"))

mutual
/-- The section at `ks`, with a header of level `n`, on the page named `page`, and the sections below it that are on the same page. -/
def Part.web (r : Str → Str × Str) (ks : List Nat) (n : Nat) (page : Str) : Part → Str
  | .mk title tags split hide body subs =>
    q%"<h" ++ Nat.toDigits 10 (min 6 n) ++ q%" class=\"section-header\"><a id=\"" ++
      escAttr (tags.headD (slug (plainSpans (essence title)))) ++ q%"\"></a>" ++
    (if ks.isEmpty then [] else q%"<span class=\"section-number\">" ++ numeral ks ++ q%" </span>") ++ webTitle title ++
    q%"</h" ++ Nat.toDigits 10 (min 6 n) ++ q%">\n\n" ++
    webBlks r (Part.webToc ks page (.mk title tags split hide body subs)) body ++ q%"\n\n" ++
    (if split then [] else q%"\n  " ++ webParts r ks 0 n page subs ++ q%"\n")
def webParts (r : Str → Str × Str) (ks : List Nat) (k n : Nat) (page : Str) : List Part → Str
  | [] => []
  | p :: ps => q%"\n    " ++ p.web r (ks ++ [k]) (n + 1) page ++ q%"\n  " ++ webParts r ks (k + 1) n page ps
end

/-- The section `p` of the book `b`, at `ks`, shown by itself: with a header of level `n`, and as it is on the page named `page`. -/
def webShown (b : Part) (page : Str) (ks : List Nat) (n : Nat) (p : Part) : Str :=
  q%"<!DOCTYPE html>\n<html>\n  <head>\n    <meta http-equiv=\"content-type\" content=\"text/html; charset=utf-8\" />\n    <title>" ++
  escText (plainSpans p.title) ++ q%"</title>\n  </head>\n  <body>\n    " ++ p.web (refTo b page) ks n page ++ q%"\n  </body>\n</html>"

/-- The page of the book `b` that starts with the section `p`, at `ks`. -/
def webPage (b : Part) (ks : List Nat) (p : Part) : Str := webShown b p.name ks 1 p

/-! ### Editing -/

/-- The book with another text in the section at `ks`. -/
def Part.put (body : List Blk) : List Nat → Part → Part
  | [], .mk title tags split hide _ subs => .mk title tags split hide body subs
  | k :: ks, .mk title tags split hide body' subs => .mk title tags split hide body' (subs.modify k (Part.put body ks))

end Booklit.Ms
