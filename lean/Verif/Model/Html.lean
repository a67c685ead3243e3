import Verif.Model.Escape
import Verif.Model.Text

/-!
Rendering to HTML: `/repo/render/html.go` with the templates of `/repo/render/html/*.tmpl`.

Not modelled: templates of the user (`LoadTemplates`, see `Model/Templates.lean` for which of them are used), what is
written before an error occurs, and the cached tag of a reference (reference.go:87-89). An error inside a template is
`Err.plain`, whatever its cause. A panic inside a function or method called by a template is recovered by
`text/template` and becomes an error (text/template/funcs.go, `safeCall`).
-/

namespace Booklit

/-- Run over a list, stopping at the first one that fails. -/
def resMap {α β : Type} (f : α → Res β) : List α → Res (List β)
  | [] => .ok []
  | a :: as => (f a).bind fun b => (resMap f as).map (b :: ·)

/-- `safeCall` (text/template/funcs.go): panics become errors. -/
def Res.recover {α : Type} : Res α → Res α
  | .panic => .err (.plain q%"template")
  | r => r

/-- The error of a template. -/
def tmplErr {α : Type} : Res α := .err (.plain q%"template")

/-- What stands around the content in the templates named by the styles: aside.tmpl, bold.tmpl, inset.tmpl,
italic.tmpl, larger.tmpl, smaller.tmpl, strike.tmpl, subscript.tmpl, superscript.tmpl. -/
def styleTags (style : Str) : Option (Str × Str) :=
  if style = q%"aside" then some (q%"<blockquote class=\"aside\">", q%"</blockquote>")
  else if style = q%"bold" then some (q%"<strong>", q%"</strong>")
  else if style = q%"inset" then some (q%"<div style=\"margin: 0 2em 1em\" class=\"inset\">", q%"</div>")
  else if style = q%"italic" then some (q%"<em>", q%"</em>")
  else if style = q%"larger" then some (q%"<span style=\"font-size: 120%\">", q%"</span>")
  else if style = q%"smaller" then some (q%"<span style=\"font-size: 80%\">", q%"</span>")
  else if style = q%"strike" then some (q%"<span style=\"text-decoration: line-through\">", q%"</span>")
  else if style = q%"subscript" then some (q%"<sub>", q%"</sub>")
  else if style = q%"superscript" then some (q%"<sup>", q%"</sup>")
  else none

/-- Texts with a separator between them. -/
def joinWith (sep : Str) : List Str → Str
  | [] => []
  | [t] => t
  | t :: ts => t ++ sep ++ joinWith sep ts

/-- How the parts are rendered that need the sections: references, sections, tables of contents, deferred content,
and `String()` for rawHTML (html.go:36-38). -/
structure Inner where
  ref : Nat → Str → Content → Bool → Location → Res Str
  sect : Nat → Res Str
  toc : Nat → Res Str
  force : Nat → Res Str
  raw : Content → Res Str

mutual
/-- `subRender` (html.go:325-344) of content: the `Visit...` methods (html.go:196-305) choose the template.
Rendering nil content panics in `content.Visit` and is recovered.
Simplification: styled content whose style names a template meant for other data (page.tmpl, list.tmpl, ...; only
plugins can make it) is an error, as a style without template is (html.go:307-315). -/
def Content.html (I : Inner) : Content → Res Str
  | .nil => tmplErr
  | .str s => .ok (escText s)                                                        -- string.tmpl
  | .seq cs => (htmlL I cs).map List.flatten                                         -- sequence.tmpl
  | .para cs => (htmlL I cs).map fun ts => q%"<p>" ++ joinWith [' '] ts ++ q%"</p>"  -- paragraph.tmpl
  | .pre cs => (htmlL I cs).map (joinWith ['\n'])                                    -- preformatted.tmpl
  | .ref s t c o l => I.ref s t c o l
  | .sect i => I.sect i
  | .toc i => I.toc i
  | .styled st b c _ =>
    if st = q%"verbatim" then                                                        -- verbatim.tmpl
      match if b then some false else isFlow c with
      | none => tmplErr
      | some true => (c.html I).map fun t => q%"<code>" ++ t ++ q%"</code>"
      | some false => (c.html I).map fun t => q%"<pre>" ++ t ++ q%"</pre>"
    else if st = q%"raw-html" then (I.raw c).recover                                 -- raw-html.tmpl
    else match styleTags st with
      | none => tmplErr
      | some (a, z) => (c.html I).map fun t => a ++ t ++ z
  | .target t _ _ _ => .ok (q%"<a id=\"" ++ escAttr t ++ q%"\"></a>")                -- target.tmpl
  | .image p d =>                                                                    -- image.tmpl
    .ok (q%"<img src=\"" ++ escURL p ++ q%"\" alt=\"" ++ escAttr d ++ q%"\" />")
  | .list cs o => (htmlL I cs).map fun ts =>                                         -- list.tmpl
    (if o then q%"<ol>" else q%"<ul>") ++ q%"\n" ++ (ts.flatMap fun t => q%"\n  <li>" ++ t ++ q%"</li>\n") ++ q%"\n"
      ++ (if o then q%"</ol>" else q%"</ul>")
  | .link c u => (c.html I).map fun t => q%"<a href=\"" ++ escURL u ++ q%"\">" ++ t ++ q%"</a>"    -- link.tmpl
  | .table rs => (htmlR I rs).map fun rows =>                                        -- table.tmpl
    q%"<table>\n  " ++ (rows.flatMap fun r =>
      q%"\n  <tr>\n    " ++ (r.flatMap fun t => q%"\n    <td>" ++ t ++ q%"</td>\n    ") ++ q%"\n  </tr>\n  ")
      ++ q%"\n</table>"
  | .defs ds => (htmlD I ds).map fun prs =>                                          -- definitions.tmpl
    q%"<dl>\n  " ++ (prs.flatMap fun p => q%"\n  <dt>" ++ p.1 ++ q%"</dt>\n    <dd>" ++ p.2 ++ q%"</dd>\n  ")
      ++ q%"\n</dl>"
  | .lazy _ i => I.force i                                                           -- html.go:298-305
  | .aux c => c.html I                                                               -- `Visit` is promoted
/-- Several contents, in order. -/
def htmlL (I : Inner) : List Content → Res (List Str)
  | [] => .ok []
  | c :: cs => (c.html I).bind fun t => (htmlL I cs).map (t :: ·)
/-- The rows of a table. -/
def htmlR (I : Inner) : List (List Content) → Res (List (List Str))
  | [] => .ok []
  | r :: rs => (htmlL I r).bind fun t => (htmlR I rs).map (t :: ·)
/-- Definitions. -/
def htmlD (I : Inner) : List (Content × Content) → Res (List (Str × Str))
  | [] => .ok []
  | (a, b) :: ds => (a.html I).bind fun ta => (b.html I).bind fun tb => (htmlD I ds).map ((ta, tb) :: ·)
end

/-- What a renderer runs with: `AllowBrokenReferences` and the results of deferred contents (`none`: an error). -/
structure Site where
  brokenOk : Bool
  force : Nat → Option Content

/-- The extension of the pages (html.go:155-157). -/
def htmlExt : Str := q%"html"

/-- The error for a reference to a tag that there is not (reference.go:128-142). It is an error of the template, but of
those `errors.As` finds the cause. -/
def Heap.unknownTag {α : Type} (h : Heap) (n s : Nat) (t : Str) (l : Location) : Res α :=
  (Res.ofFuel (h.filePath n s)).bind fun p => (Res.ofFuel (h.tagsUp (fun _ => true) n none s)).bind fun gs =>
  .err (.unknownTag t (gs.map Tag.name) p l)

/-- The error for a reference to a tag that there is more than once (reference.go:144-159). A tag without section would be a
nil dereference. -/
def Heap.ambiguousTag {α : Type} (h : Heap) (n s : Nat) (t : Str) (l : Location) (ls : List (Option Nat × Location)) : Res α :=
  (resMap (fun x => match x.1 with
    | none => tmplErr
    | some i => (Res.ofFuel (h.filePath n i)).map fun p => (p, x.2)) ls).bind fun ds =>
  (Res.ofFuel (h.filePath n s)).bind fun p => .err (.ambiguous t ds p l)

/-- reference.tmpl: `render` renders content. `.Tag` is reference.go:86-112, `.Display` reference.go:66-77, `url`
html.go:30-32. -/
def Heap.refHtml (S : Site) (h : Heap) (n : Nat) (render : Content → Res Str) (s : Nat) (t : Str) (c : Content)
    (o : Bool) (l : Location) : Res Str :=
  match h.refTag n S.brokenOk s t o l with
  | none => .more
  | some (.tag g) =>
    match g.sec with
    | none => tmplErr
    | some i =>
      (Res.ofFuel (h.sectionURL htmlExt n i g.anchor)).bind fun u =>
        match stripAux (if c.isNil then g.title else c) with
        | none => tmplErr
        | some d => (render d).map fun x => q%"<a href=\"" ++ escURL u ++ q%"\">" ++ x ++ q%"</a>"
  | some .nothing =>
    match stripAux c with
    | none => tmplErr
    | some d => render d
  | some .unknown => h.unknownTag n s t l
  | some (.ambiguous ls) => h.ambiguousTag n s t l ls

/-- section.tmpl. `{{headerDepth .}}` stands in a tag name, where `htmlNameFilter` leaves a digit as it is.
Simplification: a section with another style has no template of its own here, as long as the user provides none
(html.go:211-219); the names of other built-in templates count as missing. -/
def Heap.sectHtml (h : Heap) (n : Nat) (render : Content → Res Str) (i : Nat) : Res Str :=
  let x := h.get i
  if x.style ≠ [] ∧ x.style ≠ q%"section" then tmplErr
  else
    (Res.ofFuel (h.headerDepth n i)).bind fun d =>
    (if x.parent.isSome then
      (Res.ofFuel (h.number n i)).map fun k => q%"<span class=\"section-number\">" ++ escText k ++ q%" </span>"
     else .ok []).bind fun num =>
    (render x.title).bind fun title =>
    (render x.body).bind fun body =>
    (if x.split then .ok []
     else (resMap (fun c => render (.sect c)) x.children).map fun ts =>
      q%"\n  " ++ (ts.flatMap fun t => q%"\n    " ++ t ++ q%"\n  ") ++ q%"\n").map fun kids =>
    q%"<h" ++ decimal d ++ q%" class=\"section-header\"><a id=\"" ++ escAttr x.primaryTag.name ++ q%"\"></a>"
      ++ num ++ title ++ q%"</h" ++ decimal d ++ q%">\n\n" ++ body ++ q%"\n\n" ++ kids

/-- One entry of toc.tmpl (lines 5-9). -/
def Heap.tocEntry (h : Heap) (n : Nat) (render : Content → Res Str) (toc : Nat → Res Str) (c : Nat) : Res Str :=
  match (h.get c).primaryTag.sec with
  | none => tmplErr
  | some i =>
    (Res.ofFuel (h.sectionURL htmlExt n i (h.get c).primaryTag.anchor)).bind fun u =>
    (Res.ofFuel (h.number n c)).bind fun k =>
    match stripAux (h.get c).title with
    | none => tmplErr
    | some d =>
      (render d).bind fun title =>
      (toc c).map fun below =>
        q%"\n    <li>\n      <a href=\"" ++ escURL u ++ q%"\">" ++ escText k ++ q%" " ++ title ++ q%"</a>\n\n      "
          ++ below ++ q%"\n    </li>\n  "

/-- toc.tmpl. -/
def Heap.tocHtml (h : Heap) (render : Content → Res Str) : Nat → Nat → Res Str
  | 0, _ => .more
  | n + 1, i =>
    if (h.get i).children = [] ∨ (h.get i).omitToc then .ok []
    else (resMap (h.tocEntry n render (h.tocHtml render n)) (h.get i).children).map fun ts =>
      q%"\n<nav>\n  <ul>\n  " ++ ts.flatten ++ q%"\n  </ul>\n</nav>\n"

/-- Rendering of content in a heap of sections, with fuel: references show titles, which may hold references. -/
def Heap.html (S : Site) (h : Heap) : Nat → Content → Res Str
  | 0, c => c.html ⟨fun _ _ _ _ _ => .more, fun _ => .more, fun _ => .more, fun _ => .more, fun _ => .more⟩
  | n + 1, c => c.html
    ⟨h.refHtml S n (h.html S n), h.sectHtml n (h.html S n), h.tocHtml (h.html S n) n,
      fun i => match S.force i with
        | none => tmplErr
        | some d => h.html S n d,
      h.text S.brokenOk n⟩

/-- `RenderSection` (html.go:171-194) with page.tmpl. No built-in template has a name ending in `-page`, so a
section's style makes no difference here. -/
def Heap.page (S : Site) (h : Heap) (n : Nat) (i : Nat) : Res Str :=
  (h.text S.brokenOk n (h.get i).title).recover.bind fun title =>
  (h.html S n (.sect i)).map fun t =>
  q%"<!DOCTYPE html>\n<html>\n  <head>\n    <meta http-equiv=\"content-type\" content=\"text/html; charset=utf-8\" />\n    <title>"
    ++ escText title ++ q%"</title>\n  </head>\n  <body>\n    " ++ t ++ q%"\n  </body>\n</html>"

end Booklit
