import Verif.Props.TextEngine
import Verif.Props.Answers
import Verif.Lemmas.ShippedTextRefine

/-!
C79: the templates that come with Booklit.
-/

namespace Booklit.Props

open Booklit Booklit.Templates Booklit.Tmpl

theorem no_builtin_page (files : List (Str × Str)) (hf : ∀ p ∈ files, p.1.reverse.take 5 ≠ q%"egap-") (style : Str) :
    (builtinSet files).find (style ++ q%"-page") = none := by
  rw [TSet.find, builtinSet_none]
  · rfl
  · intro p hp e
    refine hf p hp ?_
    rw [e, List.reverse_append]
    rfl

theorem html_page_template (style : Str) : builtinHtml.htmlPage style = some q%"page" := by
  have h1 : builtinHtml.find q%"page" = some q%"page" := by decide +kernel
  rw [TSet.htmlPage, builtinHtml, no_builtin_page _ (by decide +kernel), ← builtinHtml, h1]
  split <;> rfl

theorem text_page_template (style : Str) : builtinText.textPage style = if style = [] then some q%"page" else none := by
  have h1 : builtinText.find q%"page" = some q%"page" := by decide +kernel
  by_cases hs : style = []
  · rw [TSet.textPage, if_neg (not_not_intro hs), if_pos hs, h1]
  · rw [TSet.textPage, if_pos hs, if_neg hs, builtinText, no_builtin_page _ (by decide +kernel)]

/-- **C79**: the HTML templates that come with Booklit, executed by the template language, make exactly the pages of the model: the same
text, or the same error, for every section of any book, and neither ends if the other does not. The styles excluded are those for which
`Model/Html.lean` says that it simplifies. -/
theorem C79_html {S : Site} {h : Heap} (hc : ShownUnstyled [q%"string"] S h)
    (hs : ∀ i, (h.get i).style ∉ [q%"string", q%"toc", q%"page", q%"raw-html"]) (i : Nat) (r : Res Str) (hr : r ≠ .more) :
    (∃ n, h.page S n i = r) ↔ ∃ n, pageWith htmlMode builtinHtml S h n i = r := by
  have : ∀ n, pageWith htmlMode builtinHtml S h n i = run htmlMode T0 S h n (.template q%"page.tmpl" (.content (.sect i))) := by
    intro n
    rw [pageWith, show htmlMode.isHtml = true from rfl, if_pos rfl, html_page_template]
    rfl
  simp only [this]
  exact page_eq hc hs i r hr

/-- **C79**: the same for plain text, for every book. -/
theorem C79_text (ext : Str) (S : Site) (h : Heap) (i : Nat) (r : Res Str) (hr : r ≠ .more) :
    (∃ n, h.txtPage S n i = r) ↔ ∃ n, pageWith (textMode ext) builtinText S h n i = r := by
  have hp : ∀ n, pageWith (textMode ext) builtinText S h n i = if (h.get i).style = [] then
      run (textMode ext) (T1 ext) S h n (.template q%"page.tmpl" (.content (.sect i))) else tmplErr := by
    intro n
    rw [pageWith, show (textMode ext).isHtml = false from rfl, if_neg (by simp), text_page_template]
    split
    · rename_i e
      split at e
      · cases e
      · rename_i hs; rw [if_neg hs]
    · rename_i name e
      split at e
      · rename_i hs; cases e; rw [if_pos hs]; rfl
      · cases e
  by_cases hs : (h.get i).style = []
  · simp only [hp, if_pos hs, Heap.txtPage, if_neg (not_not_intro hs)]
    exact pageT_eq i r hr
  · simp only [hp, if_neg hs, Heap.txtPage, if_pos hs, exists_const]

/-- The text that `bindata.go` has for `reference.tmpl` is not that of the file. -/
theorem reference_stale : builtinHtml q%"reference.tmpl" ≠ some (trimNewlines referenceFile) := by
  decide +kernel

set_option maxRecDepth 100000 in
/-- The templates compiled into the program are those of the directory `render/html`, but for `reference.tmpl`, of which
the program has an older text. It makes no difference: with the text of the file every page is the same. -/
theorem C79_reference_file (S : Site) (h : Heap) (n i : Nat) :
    pageWith htmlMode (Cache.set builtinHtml q%"reference.tmpl" (some (trimNewlines referenceFile))) S h n i =
      pageWith htmlMode builtinHtml S h n i := by
  have hc : htmlMode.compile (Cache.set builtinHtml q%"reference.tmpl" (some (trimNewlines referenceFile))) =
      htmlMode.compile builtinHtml := by
    funext f
    by_cases e : f = q%"reference.tmpl"
    · subst e
      rw [h_reference_is]
      rfl
    · simp only [Mode.compile, Cache.set, if_neg e]
  have hp : ∀ style, TSet.htmlPage (Cache.set builtinHtml q%"reference.tmpl" (some (trimNewlines referenceFile))) style =
      builtinHtml.htmlPage style := by
    have hf : ∀ name, TSet.find (Cache.set builtinHtml q%"reference.tmpl" (some (trimNewlines referenceFile))) name =
        builtinHtml.find name := by
      intro name
      have : (Cache.set builtinHtml q%"reference.tmpl" (some (trimNewlines referenceFile)) (name ++ q%".tmpl")).isSome =
          (builtinHtml (name ++ q%".tmpl")).isSome := by
        by_cases e : name ++ q%".tmpl" = q%"reference.tmpl"
        · rw [e]; rfl
        · simp only [Cache.set, if_neg e]
      simp only [TSet.find, this]
    intro style
    simp only [TSet.htmlPage, hf]
  have hm : htmlMode.isHtml = true := rfl
  simp only [pageWith, hc, hp, hm, if_true]

/-- The page of a loaded text, by the given templates. -/
def pageBy (M : Tmpl.Mode) (ts : TSet) (text : Str) : Option (Str ⊕ Str) :=
  match loadText text with
  | (.ok i, s) =>
    match pageWith M ts plainSite s.heap 30 i with
    | .ok t => some (.inl t)
    | .err (.plain t) => some (.inr t)
    | _ => none
  | _ => none

example : pageBy htmlMode builtinHtml q%"\\title{A<b>}{t}\n\n\\italic{x} & \\link{y}{javascript:z}\\target{u}\\reference{u}{v}\n" =
    some (.inl q%"<!DOCTYPE html>\n<html>\n  <head>\n    <meta http-equiv=\"content-type\" content=\"text/html; charset=utf-8\" />\n    <title>A&lt;b&gt;</title>\n  </head>\n  <body>\n    <h1 class=\"section-header\"><a id=\"t\"></a>A&lt;b&gt;</h1>\n\n<p><em>x</em> &amp; <a href=\"#ZgotmplZ\">y</a><a id=\"u\"></a><a href=\"t.html#u\">v</a></p>\n\n\n  \n\n  </body>\n</html>") := by
  decide +kernel

example : pageBy (textMode q%"txt") builtinText q%"\\title{A}{t}\n\nx y\nz\n\n\\inset{u}\n\n\\table-of-contents\n\n\\section{\\title{B}\n\nb\n}\n\n\\section{\\title{C}\n\nc\n}\n" =
    some (.inl q%"A\n\nAx y z\n\n    u\n\n\n\n1 B\n\n\n\n2 C\n\n\n\n\n\n\n\n1 B  b \n\n\n\n\n\n2 C  c \n\n\n\n\n\n") := by
  decide +kernel

/-- There is no template for links in plain text. -/
example : pageBy (textMode q%"txt") builtinText q%"\\title{A}{t}\n\n\\link{y}{z}\n" = some (.inr q%"template") := by decide +kernel

/-- A section with the style `toc` is shown as its list of sections, which is why that style is excluded above. -/
example : pageBy htmlMode builtinHtml q%"\\title{A}{t}\n\n\\styled{toc}\n\nx\n" =
    some (.inl q%"<!DOCTYPE html>\n<html>\n  <head>\n    <meta http-equiv=\"content-type\" content=\"text/html; charset=utf-8\" />\n    <title>A</title>\n  </head>\n  <body>\n    \n  </body>\n</html>") ∧
    pageOf q%"\\title{A}{t}\n\n\\styled{toc}\n\nx\n" = none := by
  decide +kernel

/-- **C79**: for loaded documents, if other plugins make no content with the style `string`. -/
theorem C79_documents {W : World} {F : Content → Prop} (hF : W.Makes F) (hm : ∀ c, F c → c.notStyle [q%"string"] = true)
    (hfs : W.fs [] = none) {s : St} (hr : Reach W s) {S : Site} (hS : ∀ i c, S.force i = some c → c.unstyled [q%"string"] = true)
    (hs : ∀ i, (s.heap.get i).style ∉ [q%"string", q%"toc", q%"page", q%"raw-html"]) (i : Nat) (r : Res Str) (hne : r ≠ .more) :
    (∃ n, s.heap.page S n i = r) ↔ ∃ n, pageWith htmlMode builtinHtml S s.heap n i = r := by
  refine C79_html ⟨fun i c hc => (all_iff c).2 ?_, hS⟩ hs i r hne
  refine parts_shown (P := fun _ c => c.notStyle [q%"string"] = true) hF hfs hr (fun p j c o => ?_) i c hc
  cases o
  case styled s x h1 h2 =>
    have key : ∀ x ∈ baseMethods, x.2 ≠ Base.style q%"string" := by
      intro x hx; revert x; decide
    have : s ≠ q%"string" := fun e => key _ h2 (by rw [e])
    simp [Content.notStyle, this]
  case plugin h => exact hm c h
  all_goals rfl

/-- The hypotheses hold when there is only baselit and nothing is deferred. -/
example (text : Str) : (plainFile text).Makes (fun _ => False) ∧ (plainFile text).fs [] = none ∧
    ∀ i c, plainSite.force i = some c → c.unstyled [q%"string"] = true :=
  ⟨fun _ _ _ h => by simp [plainFile, plainFiles] at h, rfl, fun _ _ h => by cases h⟩

/-- **C79**: so what is proved of the pages of the model is true of the pages made by the shipped templates; here that they are
well-formed and harmless. -/
theorem C79_harmless {W : World} {F : Content → Prop} (hF : W.Makes F) (hm : ∀ c, F c → c.notStyle [q%"string"] = true ∧ c.noRaw = true)
    (hfs : W.fs [] = none) {s : St} (hr : Reach W s) {S : Site}
    (hS : ∀ i c, S.force i = some c → c.unstyled [q%"string"] = true ∧ ∀ d ∈ c.parts true, d.noRaw = true)
    (hs : ∀ i, (s.heap.get i).style ∉ [q%"string", q%"toc", q%"page", q%"raw-html"]) {n i : Nat} {txt : Str}
    (hp : pageWith htmlMode builtinHtml S s.heap n i = .ok txt) : ∃ ds, readHtml txt = some ds ∧ Harmless ds := by
  obtain ⟨m, e⟩ := (C79_documents hF (fun c h => (hm c h).1) hfs hr (fun i c h => (hS i c h).1) hs i (.ok txt) (by simp)).2 ⟨n, hp⟩
  exact C52_documents hF (fun c h => (hm c h).2) hfs hr (fun i c h => (hS i c h).2) e

end Booklit.Props
