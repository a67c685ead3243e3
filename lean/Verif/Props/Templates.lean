import Verif.Lemmas.TemplatesL

/-!
C46 and C53: loading templates again and again, and choosing them.
-/

namespace Booklit.Props

open Booklit Booklit.Templates

/-! ### C46 -/

/-- **C46 (part)**: load templates any number of times while files are added and edited, with later modification times,
and not removed. Whatever happened before, once all files in the directory parse, loading succeeds and the
templates in use are those of the directory over the built-in ones. Missing: files that do not parse, are removed or get
older times, see `C46_false_broken`, `C46_false_removed` and `C46_false_older`. -/
theorem C46_up_to_date_partial (L : Lang) (builtin : TSet) {d : Dir} {ds : List Dir} (h : History (d :: ds))
    (hp : AllParse L d) :
    (L.loadTemplates builtin d (after L builtin ds)).1 = true ∧
      InUse L builtin d (L.loadTemplates builtin d (after L builtin ds)).2.tmpl := by
  have hs : History ds ∧ (d.map (·.1)).Nodup ∧ Evolves (latest ds) d := by
    cases ds with
    | nil => exact ⟨trivial, h, fun name f hf => by cases hf⟩
    | cons d0 ds => exact ⟨h.2.2, h.1, h.2.1⟩
  obtain ⟨h1, h2, h3⟩ := hs
  obtain ⟨i, hn⟩ := Inv.history (L := L) (builtin := builtin) ds h1
  obtain ⟨j, h4, -⟩ := i.load hn h2 h3
  exact ⟨h4 hp, j.used hp⟩

/-- A file that does not parse is reported, if at the load before all files did parse (or if there was none). -/
theorem C46_reports_broken (L : Lang) (builtin : TSet) {d : Dir} {ds : List Dir} (h : History (d :: ds))
    (h0 : ∀ d0 ∈ ds.head?, AllParse L d0) (hp : ¬ AllParse L d) :
    (L.loadTemplates builtin d (after L builtin ds)).1 = false := by
  cases ds with
  | nil =>
    obtain ⟨i, hn⟩ := Inv.history (L := L) (builtin := builtin) [] trivial
    exact (i.load hn h (fun name f hf => by cases hf)).2.2 (fun p hp => by cases hp) hp
  | cons d0 ds =>
    obtain ⟨i, hn⟩ := Inv.history (L := L) (builtin := builtin) (d0 :: ds) h.2.2
    exact (i.load hn h.1 h.2.1).2.2 (h0 d0 rfl) hp

/-- A template language for examples: braces must be closed. -/
def braces : Lang := ⟨fun t => t.count '{' == t.count '}', fun t => t.all (· == ' ')⟩

/-- Built-in templates for examples. -/
def someBuiltin : TSet := fun n => if n = q%"page.tmpl" then some q%"<page>" else none

/-- Three states of a directory, the latest first: a broken file, repaired and another one added, one edited. -/
def someHistory : List Dir :=
  [[(q%"a.tmpl", ⟨2, q%"{a}\n"⟩), (q%"page.tmpl", ⟨5, q%"{p}"⟩)],
   [(q%"a.tmpl", ⟨2, q%"{a}\n"⟩), (q%"page.tmpl", ⟨3, q%"{q}"⟩)],
   [(q%"a.tmpl", ⟨1, q%"{a"⟩)]]

theorem someHistory_ok : History someHistory := by
  exact ⟨by decide, .of_list (by decide) (by decide), by decide, .of_list (by decide) (by decide),
    show List.Nodup _ by decide⟩

/-- The conditions of `C46_up_to_date_partial` and `C46_reports_broken` are met by this history. -/
example : History someHistory ∧ AllParse braces (latest someHistory) ∧
    (after braces someBuiltin someHistory).tmpl q%"page.tmpl" = some q%"{p}" ∧
    (after braces someBuiltin someHistory).tmpl q%"a.tmpl" = some q%"{a}" ∧
    (braces.loadTemplates someBuiltin [(q%"a.tmpl", ⟨1, q%"{a"⟩)] (Eng.new someBuiltin)).1 = false := by
  refine ⟨someHistory_ok, ?_, by decide, by decide, by decide⟩
  intro f hf t ht
  rw [trimmed_unique ht (trimmed_trim _)]
  clear ht
  revert f
  decide

/-- **C46** does not hold: a file that does not parse is reported once; loading again succeeds, although the templates of
the directory (here also the one that parses) are not in use. -/
theorem C46_false_broken :
    let d : Dir := [(q%"a.tmpl", ⟨1, q%"{a"⟩), (q%"page.tmpl", ⟨1, q%"{p}"⟩)]
    History [d, d] ∧
    (braces.loadTemplates someBuiltin d (after braces someBuiltin [])).1 = false ∧
    (braces.loadTemplates someBuiltin d (after braces someBuiltin [d])).1 = true ∧
    (after braces someBuiltin [d, d]).tmpl q%"page.tmpl" = some q%"<page>" := by
  refine ⟨⟨by decide, fun name f hf => ⟨f, hf, Nat.le_refl _, fun _ => rfl⟩, show List.Nodup _ by decide⟩, by decide, by decide, by decide⟩

/-- A template that is removed stays in use. -/
theorem C46_false_removed :
    let d : Dir := [(q%"page.tmpl", ⟨1, q%"{p}"⟩)]
    (braces.loadTemplates someBuiltin [] (after braces someBuiltin [d])).1 = true ∧
    (after braces someBuiltin [[], d]).tmpl q%"page.tmpl" = some q%"{p}" := by
  decide

/-- A template replaced by an older file stays in use. -/
theorem C46_false_older :
    (after braces someBuiltin [[(q%"page.tmpl", ⟨1, q%"{q}"⟩)], [(q%"page.tmpl", ⟨2, q%"{p}"⟩)]]).tmpl q%"page.tmpl" =
      some q%"{p}" := by
  decide

/-! ### C53 -/

/-- **C53 (part)**: when the HTML engine renders a page, the template `style-page` is used if the section has a style and
this template exists, and otherwise `page`; it fails only if neither exists. Missing: sections inside pages and the text
engine, see `C53_false_section` and `C53_false_text`. -/
theorem C53_page_partial (ts : TSet) (style : Str) :
    (style ≠ [] → (ts (style ++ q%"-page.tmpl")).isSome = true → ts.htmlPage style = some (style ++ q%"-page")) ∧
    ((ts q%"page.tmpl").isSome = true → style = [] ∨ ts (style ++ q%"-page.tmpl") = none → ts.htmlPage style = some q%"page") ∧
    (ts.htmlPage style = none ↔ ts q%"page.tmpl" = none ∧ (style = [] ∨ ts (style ++ q%"-page.tmpl") = none)) := by
  have e : ∀ s : Str, s ++ q%"-page" ++ q%".tmpl" = s ++ q%"-page.tmpl" := by simp
  have e' : (q%"page" ++ q%".tmpl" : Str) = q%"page.tmpl" := rfl
  simp only [TSet.htmlPage, TSet.find, e, e']
  by_cases hs : style = []
  · subst hs
    cases ts q%"page.tmpl" <;> simp
  · cases h1 : ts (style ++ q%"-page.tmpl") <;> cases h2 : ts q%"page.tmpl" <;> simp [hs]

example : someBuiltin.htmlPage q%"fancy" = some q%"page" := by decide

/-- **C53** does not hold for a section inside a page: without a template named like its style rendering fails, although
the default template exists. -/
theorem C53_false_section :
    let ts : TSet := fun n => if n = q%"section.tmpl" then some [] else none
    ts.inner [] = some q%"section" ∧ ts.inner q%"fancy" = none := by
  decide

/-- Nor for pages rendered by the text engine. -/
theorem C53_false_text : someBuiltin.textPage [] = some q%"page" ∧ someBuiltin.textPage q%"fancy" = none := by
  decide

/-- For sections inside pages and pages of the text engine, styles are all or nothing: exactly the template named by the
style is used, and without style the default one. -/
theorem C53_exact (ts : TSet) (style : Str) :
    ts.inner style = (if (ts ((if style = [] then q%"section" else style) ++ q%".tmpl")).isSome
      then some (if style = [] then q%"section" else style) else none) ∧
    ts.textPage style = (if (ts ((if style = [] then q%"page" else style ++ q%"-page") ++ q%".tmpl")).isSome
      then some (if style = [] then q%"page" else style ++ q%"-page") else none) := by
  by_cases hs : style = [] <;> simp [TSet.inner, TSet.textPage, TSet.find, hs]

end Booklit.Props
