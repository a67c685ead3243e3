import Verif.Model.Build

/-!
Rendering to plain text: `/repo/render/text.go` with the templates of `/repo/render/text/*.tmpl`.

Not modelled: templates of the user (`LoadTemplates`, text.go:101-145), and what is written before an error occurs. An
error inside a template is `Err.plain`, whatever its cause, and a panic inside a function or method called by a template
is recovered, as in `Model/Html.lean`.
-/

namespace Booklit

/-- `joinLines` (text.go:37-39): `strings.Join(strings.Split(str, "\n"), "\n"+prefix)`. -/
def joinLines (indent : Str) (s : Str) : Str := joinWith ('\n' :: indent) (splitNl [] s)

/-- How the parts are rendered that need the sections: sections, tables of contents, deferred content and `String()`. -/
structure InnerTxt where
  sect : Nat → Res Str
  toc : Nat → Res Str
  force : Nat → Res Str
  raw : Content → Res Str

mutual
/-- `subRender` (text.go:300-317) of content: the `Visit...` methods (text.go:179-268) choose the template, and there are
none for references, targets, images, lists, links, tables, definitions, and all styles but two: inset.tmpl is meant to be
one, and string.tmpl can be applied to anything that has a `String` method. The other templates, if named by a style, are
meant for other data and end in an error. -/
def Content.txt (I : InnerTxt) : Content → Res Str
  | .nil => tmplErr
  | .str s => .ok s                                                                  -- string.tmpl
  | .seq cs => (txtL I cs).map List.flatten                                          -- sequence.tmpl
  | .para cs => (txtL I cs).map fun ts => joinWith [' '] ts ++ q%"\n\n"              -- paragraph.tmpl
  | .pre cs => (txtL I cs).map (joinWith ['\n'])                                     -- preformatted.tmpl
  | .ref _ _ _ _ _ => tmplErr
  | .sect i => I.sect i
  | .toc i => I.toc i
  | .styled st _ c _ =>
    if st = q%"inset" then (c.txt I).map fun t => q%"    " ++ joinLines q%"    " t   -- inset.tmpl
    else if st = q%"string" then (I.raw c).recover                                   -- string.tmpl, styled.go:42-44
    else tmplErr
  | .target _ _ _ _ => tmplErr
  | .image _ _ => tmplErr
  | .list _ _ => tmplErr
  | .link _ _ => tmplErr
  | .table _ => tmplErr
  | .defs _ => tmplErr
  | .lazy _ i => I.force i                                                           -- text.go:271-278
  | .aux c => c.txt I                                                                -- `Visit` is promoted
/-- Several contents, in order. -/
def txtL (I : InnerTxt) : List Content → Res (List Str)
  | [] => .ok []
  | c :: cs => (c.txt I).bind fun t => (txtL I cs).map (t :: ·)
end

/-- section.tmpl. The dash in `render -}}` takes away the lines between the title and the body. -/
def Heap.sectTmpl (h : Heap) (n : Nat) (render : Content → Res Str) (i : Nat) : Res Str :=
  let x := h.get i
  (if x.parent.isSome then (Res.ofFuel (h.number n i)).map fun k => k ++ q%" " else .ok []).bind fun num =>
  (render x.title).bind fun title =>
  (render x.body).bind fun body =>
  (if x.split then .ok []
   else (resMap (fun c => render (.sect c)) x.children).map fun ts =>
    q%"\n" ++ (ts.flatMap fun t => q%"\n" ++ t ++ q%"\n") ++ q%"\n").map fun kids =>
  num ++ title ++ body ++ q%"\n\n" ++ kids

/-- One entry of toc.tmpl. -/
def Heap.tocLine (h : Heap) (n : Nat) (render : Content → Res Str) (toc : Nat → Res Str) (c : Nat) : Res Str :=
  (Res.ofFuel (h.number n c)).bind fun k =>
  match stripAux (h.get c).title with
  | none => tmplErr
  | some d =>
    (render d).bind fun title =>
    (toc c).map fun below => q%"\n" ++ k ++ q%" " ++ title ++ q%"\n\n" ++ below ++ q%"\n"

/-- toc.tmpl. -/
def Heap.tocTxt (h : Heap) (render : Content → Res Str) : Nat → Nat → Res Str
  | 0, _ => .more
  | n + 1, i =>
    if (h.get i).children = [] ∨ (h.get i).omitToc then .ok []
    else (resMap (h.tocLine n render (h.tocTxt render n)) (h.get i).children).map fun ts =>
      q%"\n" ++ ts.flatten ++ q%"\n"

/-- page.tmpl. -/
def Heap.pageTmpl (S : Site) (h : Heap) (n : Nat) (render : Content → Res Str) (i : Nat) : Res Str :=
  (h.text S.brokenOk n (h.get i).title).recover.bind fun title =>
  (render (.sect i)).map fun t => title ++ q%"\n\n" ++ t

/-- `VisitSection` (text.go:194-202): section.tmpl, or the template named by the style, and an error if there is none (text.go:280-290).
Of the built-in ones, page.tmpl renders the section again, string.tmpl its `String()` (section.go:129-131), and those that
are meant for contents end in an error. -/
def Heap.sectTxt (S : Site) (h : Heap) (n : Nat) (render : Content → Res Str) (toc : Nat → Res Str) (i : Nat) : Res Str :=
  let st := (h.get i).style
  if st = [] ∨ st = q%"section" then h.sectTmpl n render i
  else if st = q%"page" then h.pageTmpl S n render i
  else if st = q%"string" then (h.text S.brokenOk n (.sect i)).recover
  else if st = q%"toc" then toc i
  else tmplErr

/-- Rendering of content in a heap of sections, with fuel. -/
def Heap.txt (S : Site) (h : Heap) : Nat → Content → Res Str
  | 0, c => c.txt ⟨fun _ => .more, fun _ => .more, fun _ => .more, fun _ => .more⟩
  | n + 1, c => c.txt
    ⟨h.sectTxt S n (h.txt S n) (h.tocTxt (h.txt S n) n), h.tocTxt (h.txt S n) n,
      fun i => match S.force i with
        | none => tmplErr
        | some d => h.txt S n d,
      h.text S.brokenOk n⟩

/-- `RenderSection` (text.go:162-176): page.tmpl, or the template named by the style followed by `-page`, of which none is
built in. -/
def Heap.txtPage (S : Site) (h : Heap) (n : Nat) (i : Nat) : Res Str :=
  if (h.get i).style ≠ [] then tmplErr else h.pageTmpl S n (h.txt S n) i

/-- The text engine with the built-in templates, for files with the extension `ext` (command.go:132-142, text.go:78-98). -/
def textEngine (ext : Str) (S : Site) : Engine := ⟨ext, fun h n i => h.txtPage S n i⟩

end Booklit
