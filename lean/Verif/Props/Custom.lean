import Verif.Props.Shipped
import Verif.Props.Templates
import Verif.Lemmas.CustomL

/-!
C80: templates of one's own.
-/

namespace Booklit.Props

open Booklit Booklit.Templates Booklit.Tmpl

/-- **C80**: two sets of templates that differ only in templates for styles that nothing in a book has make the same pages, at every
step: the same text or the same error. None of the templates in question is called by another one, or is that of the page. -/
theorem C80_unused (M : Tmpl.Mode) {ts ts' : TSet} {xs : List Str} (hts : ∀ file, (∀ x ∈ xs, file ≠ fileOf x) → ts file = ts' file)
    (hcalls : ∀ file ns, (∀ x ∈ xs, file ≠ fileOf x) → M.compile ts file = some ns → ∀ x ∈ xs, fileOf x ∉ callsL ns)
    (hk : ∀ x ∈ xs, x ∉ q%"page" :: kindNames) {S : Site} {h : Heap} (hu : Unstyled xs S h) {i : Nat}
    (hp : (h.get i).style ++ q%"-page" ∉ xs) (n : Nat) : pageWith M ts S h n i = pageWith M ts' S h n i := by
  have hfind : ∀ name, name ∉ xs → ts.find name = ts'.find name := by
    intro name hn
    rw [TSet.find, TSet.find, hts _ fun x hx e => hn ((fileOf_inj (a := name) e) ▸ hx)]
  have hpage : q%"page" ∉ xs := fun m => hk _ m List.mem_cons_self
  have html : ts.htmlPage (h.get i).style = ts'.htmlPage (h.get i).style := by
    rw [TSet.htmlPage, TSet.htmlPage, hfind _ hp, hfind _ hpage]
  have text : ts.textPage (h.get i).style = ts'.textPage (h.get i).style := by
    rw [TSet.textPage, TSet.textPage]
    split
    · exact hfind _ hp
    · exact hfind _ hpage
  have name : ∀ name, (if M.isHtml then ts.htmlPage (h.get i).style else ts.textPage (h.get i).style) = some name → name ∉ xs := by
    have hf : ∀ n m, ts.find n = some m → m = n := by
      intro n m e
      rw [TSet.find] at e
      split at e
      · cases e; rfl
      · cases e
    intro name e
    split at e
    · rw [TSet.htmlPage] at e
      split at e
      · split at e
        · rename_i t he; cases e; rw [hf _ _ he]; exact hp
        · rw [hf _ _ e]; exact hpage
      · rw [hf _ _ e]; exact hpage
    · rw [TSet.textPage] at e
      split at e
      · rw [hf _ _ e]; exact hp
      · rw [hf _ _ e]; exact hpage
  rw [pageWith, pageWith, ← html, ← text]
  split
  · rfl
  · rename_i nm e
    have A := run_agree (M := M) (T := M.compile ts) (T' := M.compile ts') hu (fun x hx m => hk x hx (List.mem_cons_of_mem _ m))
      (fun file hf => by simp only [Mode.compile, hts file hf]) hcalls n
    exact A.2 _ _ (fun x hx e' => name nm e (fileOf_inj e' ▸ hx)) (.content rfl)

theorem parseAll_other (L : Lang) : ∀ (d : Dir) (ts : TSet) (file : Str), (∀ f ∈ d, f.1 ≠ file) → (L.parseAll ts d).2 file = ts file := by
  intro d
  induction d with
  | nil => intro ts file _; rfl
  | cons f d ih =>
    intro ts file hf
    rw [Lang.parseAll]
    cases hd : L.define ts f.1 (trimNewlines f.2.text) with
    | none => rfl
    | some ts' =>
      dsimp only
      rw [ih ts' file fun g hg => hf g (List.mem_cons_of_mem _ hg)]
      rw [Lang.define] at hd
      split at hd
      · split at hd
        · cases hd; rfl
        · cases hd
          rw [Cache.set, if_neg fun e => hf f List.mem_cons_self e.symm]
      · cases hd

theorem html_calls : ∀ p ∈ builtinHtmlFiles, (match compileHtml (trimNewlines p.2) with
    | none => true
    | some ns => (callsL ns).all (· == fileOf q%"toc")) = true := by
  decide +kernel

theorem text_calls : ∀ p ∈ builtinTextFiles, (match compileText (trimNewlines p.2) with
    | none => true
    | some ns => (callsL ns).all (· == fileOf q%"toc")) = true := by
  decide +kernel

/-- **C80**: a directory of templates changes nothing for books that use none of the names, whether or not all of it could be loaded.
The names of the templates that Booklit calls by itself have to be avoided; those of the styles that come with it need not. -/
theorem C80_directory (html : Bool) (ext : Str) (L : Lang) {d : Dir} {xs : List Str} (hd : ∀ f ∈ d, ∃ x ∈ xs, f.1 = fileOf x)
    (hk : ∀ x ∈ xs, x ∉ q%"page" :: kindNames) {S : Site} {h : Heap} (hu : Unstyled xs S h) {i : Nat}
    (hp : (h.get i).style ++ q%"-page" ∉ xs) (n : Nat) :
    let M := if html then htmlMode else textMode ext
    let b := if html then builtinHtml else builtinText
    pageWith M (L.loadTemplates b d (.new b)).2.tmpl S h n i = pageWith M b S h n i := by
  intro M b
  symm
  have hcalls : ∀ file ns, M.compile b file = some ns → ∀ y ∈ callsL ns, y = fileOf q%"toc" := by
    intro file ns e y hy
    have key : ∀ files (hm : ∀ p ∈ files, (match (if M.isHtml then compileHtml else compileText) (trimNewlines p.2) with
        | none => true
        | some ns => (callsL ns).all (· == fileOf q%"toc")) = true), builtinSet files file = b file → y = fileOf q%"toc" := by
      intro files hm hb
      simp only [Mode.compile, ← hb, builtinSet] at e
      cases hf : files.find? (fun p => p.1 ++ q%".tmpl" == file) with
      | none => rw [hf] at e; cases e
      | some p =>
        rw [hf] at e
        have := hm p (List.mem_of_find?_eq_some hf)
        simp only [Option.map_some, Option.bind_some] at e
        rw [e] at this
        exact eq_of_beq (List.all_eq_true.1 this y hy)
    cases html with
    | true =>
      exact key builtinHtmlFiles html_calls rfl
    | false =>
      exact key builtinTextFiles text_calls rfl
  refine C80_unused M (xs := xs) ?_ ?_ hk hu hp n
  · intro file hf
    rw [Lang.loadTemplates]
    dsimp only
    split
    · exact (parseAll_other L d b file fun f hfd e => by
        obtain ⟨x, hx, e'⟩ := hd f hfd
        exact hf x hx (e ▸ e')).symm
    · rfl
  · intro file ns _ e x hx m
    have := hcalls file ns e _ m
    have := fileOf_inj (a := x) this
    exact hk x hx (by rw [this]; decide)

theorem parseAll_same (L : Lang) : ∀ (d : Dir) (ts : TSet), (∀ f ∈ d, ts f.1 = some (trimNewlines f.2.text)) → (L.parseAll ts d).2 = ts := by
  intro d
  induction d with
  | nil => intro ts _; rfl
  | cons f d ih =>
    intro ts hf
    rw [Lang.parseAll]
    cases hd : L.define ts f.1 (trimNewlines f.2.text) with
    | none => rfl
    | some ts' =>
      have : ts' = ts := by
        rw [Lang.define] at hd
        split at hd
        · split at hd
          · cases hd; rfl
          · cases hd
            funext y
            rw [Cache.set]
            split
            · rename_i e; rw [e, hf f List.mem_cons_self]
            · rfl
        · cases hd
      subst this
      exact ih _ fun g hg => hf g (List.mem_cons_of_mem _ hg)

/-- **C80**: copies of templates that come with Booklit change nothing. -/
theorem C80_copies (M : Tmpl.Mode) (L : Lang) (files : List (Str × Str)) {d : Dir}
    (hd : ∀ f ∈ d, builtinSet files f.1 = some (trimNewlines f.2.text)) (S : Site) (h : Heap) (n i : Nat) :
    pageWith M (L.loadTemplates (builtinSet files) d (.new (builtinSet files))).2.tmpl S h n i = pageWith M (builtinSet files) S h n i := by
  rw [Lang.loadTemplates]
  dsimp only
  split
  · rw [parseAll_same L d _ hd]
  · rfl

/-- Nothing in a loaded book has the styles `xs`, if no function that is called in its files makes such content. -/
theorem documents_unstyled {W : World} {F : Content → Prop} (hF : W.Makes F) {xs : List Str} (hm : ∀ c, F c → c.notStyle xs = true)
    (hcall : ∀ p fn args l st, W.Has p (.invoke fn args l) → (methodName fn, Base.style st) ∈ baseMethods → st ∉ xs)
    (hfs : W.fs [] = none) {s : St} (hr : Reach W s) {S : Site} (hS : ∀ i c, S.force i = some c → c.unstyled xs = true)
    (hs : ∀ i, (s.heap.get i).style ∉ xs) : Unstyled xs S s.heap := by
  have og : ∀ {p i c}, Origins W F p i c → c.unstyled xs = true := by
    intro p i c o
    refine (all_iff c).2 fun d hd => ?_
    cases o d hd
    case styled s x h1 h2 => simp [Content.notStyle, hcall _ _ _ _ _ h1 h2]
    case plugin h => exact hm d h
    all_goals rfl
  have zero : Tag.unstyled xs Tag.zero := ⟨rfl, rfl⟩
  have sec : ∀ i, (s.heap.get i).title.unstyled xs = true ∧ (s.heap.get i).body.unstyled xs = true ∧
      (∀ g ∈ (s.heap.get i).tags, g.unstyled xs) ∧ (s.heap.get i).primaryTag.unstyled xs ∧
      ∀ p ∈ (s.heap.get i).partials, p.2.unstyled xs = true := by
    intro i
    by_cases hi : i < s.heap.length
    · obtain ⟨p, f⟩ := FileOf.exists hr.sound i hi
      have x := (hr.between hF hfs).heap i p hi f
      have tags : ∀ g ∈ (s.heap.get i).tags, g.unstyled xs := fun g hg => ⟨og (x.tags g hg).2.1, og (x.tags g hg).2.2⟩
      refine ⟨og x.title, og x.body, tags, ?_, fun q hq => og (x.partials q hq)⟩
      obtain ⟨own, an, h1, _, _, _, h5, _⟩ := (OwnTags.inv W).reach hr i hi
      rw [h5]
      cases own with
      | nil => exact zero
      | cons g own => exact tags g (by rw [h1]; simp)
    · rw [Heap.get_out hi]
      exact ⟨rfl, rfl, fun g hg => (by cases hg), zero, fun g hg => (by cases hg)⟩
  exact ⟨hs, fun i => (sec i).1, fun i => (sec i).2.1, fun i => (sec i).2.2.1, fun i => (sec i).2.2.2.1,
    fun i => (sec i).2.2.2.2, hS⟩

/-- **C80**: the same in terms of documents: loading templates changes no page of a book if nobody writes the functions they are for. -/
theorem C80_documents (html : Bool) (ext : Str) (L : Lang) {d : Dir} {xs : List Str} (hd : ∀ f ∈ d, ∃ x ∈ xs, f.1 = fileOf x)
    (hk : ∀ x ∈ xs, x ∉ q%"page" :: kindNames) {W : World} {F : Content → Prop} (hF : W.Makes F)
    (hm : ∀ c, F c → c.notStyle xs = true)
    (hcall : ∀ p fn args l st, W.Has p (.invoke fn args l) → (methodName fn, Base.style st) ∈ baseMethods → st ∉ xs)
    (hfs : W.fs [] = none) {s : St} (hr : Reach W s) {S : Site} (hS : ∀ i c, S.force i = some c → c.unstyled xs = true)
    (hs : ∀ i, (s.heap.get i).style ∉ xs ∧ (s.heap.get i).style ++ q%"-page" ∉ xs) (i n : Nat) :
    let M := if html then htmlMode else textMode ext
    let b := if html then builtinHtml else builtinText
    pageWith M (L.loadTemplates b d (.new b)).2.tmpl S s.heap n i = pageWith M b S s.heap n i :=
  C80_directory html ext L hd hk (documents_unstyled hF hm hcall hfs hr hS fun i => (hs i).1) (hs i).2 n

/-- A template of one's own for a style that comes with Booklit, and one for a new style. -/
def ownTemplates : Dir := [(q%"bold.tmpl", ⟨1, q%"<b>{{.Content | render}}</b>\n"⟩), (q%"shout.tmpl", ⟨1, q%"{{.Content | render}}!\n"⟩)]

/-- The templates of an engine after loading them. -/
def ownHtml : TSet := ((langOf htmlMode).loadTemplates builtinHtml ownTemplates (.new builtinHtml)).2.tmpl

/-- They are used where the styles are. -/
example : pageBy htmlMode ownHtml q%"\\title{A}{t}\n\n\\bold{x}\n" =
      some (.inl q%"<!DOCTYPE html>\n<html>\n  <head>\n    <meta http-equiv=\"content-type\" content=\"text/html; charset=utf-8\" />\n    <title>A</title>\n  </head>\n  <body>\n    <h1 class=\"section-header\"><a id=\"t\"></a>A</h1>\n\n<p><b>x</b></p>\n\n\n  \n\n  </body>\n</html>") ∧
    pageBy htmlMode builtinHtml q%"\\title{A}{t}\n\n\\bold{x}\n" =
      some (.inl q%"<!DOCTYPE html>\n<html>\n  <head>\n    <meta http-equiv=\"content-type\" content=\"text/html; charset=utf-8\" />\n    <title>A</title>\n  </head>\n  <body>\n    <h1 class=\"section-header\"><a id=\"t\"></a>A</h1>\n\n<p><strong>x</strong></p>\n\n\n  \n\n  </body>\n</html>") := by
  decide +kernel

/-- And nowhere else. -/
example : (pageBy htmlMode ownHtml q%"\\title{A}{t}\n\n\\italic{x}\n").isSome = true ∧
    pageBy htmlMode ownHtml q%"\\title{A}{t}\n\n\\italic{x}\n" = pageBy htmlMode builtinHtml q%"\\title{A}{t}\n\n\\italic{x}\n" := by
  decide +kernel

example : (∀ f ∈ ownTemplates, ∃ x ∈ [q%"bold", q%"shout"], f.1 = fileOf x) ∧ ∀ x ∈ [q%"bold", q%"shout"], x ∉ q%"page" :: kindNames := by
  decide

/-- The hypothesis about the functions called holds for a document. -/
example : ∀ p fn args l st, (plainFile q%"\\title{A}{t}\n\n\\italic{x}\n").Has p (.invoke fn args l) →
    (methodName fn, Base.style st) ∈ baseMethods → st ∉ [q%"bold", q%"shout"] := by
  have key : ∀ q ∈ fileNodes [(q%"x.lit", q%"\\title{A}{t}\n\n\\italic{x}\n")], (q.2.subs.all fun n => match n with
      | .invoke fn _ _ => methodName fn != q%"Bold" && methodName fn != q%"Shout"
      | _ => true) = true := by
    decide +kernel
  have names : (baseMethods.all fun m => match m.2 with
      | .style st => decide (st = q%"bold" → m.1 = q%"Bold") && decide (st = q%"shout" → m.1 = q%"Shout")
      | _ => true) = true := by
    decide +kernel
  intro p fn args l st h hm
  obtain ⟨t, ht, hn⟩ := h
  have h1 := List.all_eq_true.1 (key _ (wrote_mem ht)) _ hn
  have h2 := List.all_eq_true.1 names _ hm
  simp only [Bool.and_eq_true, bne_iff_ne, decide_eq_true_eq] at h1 h2
  simp only [List.mem_cons, List.not_mem_nil, or_false, not_or]
  exact ⟨fun e => h1.1 (h2.1 e), fun e => h1.2 (h2.2 e)⟩

/-- A template for a page, or for a kind of content, changes books that do not mention it, so these names have to be avoided. -/
example : (let ts : TSet := fun f => if f = q%"paragraph.tmpl" then some q%"(){{range .}}{{. | render}}{{end}}" else builtinText f
    pageBy (textMode q%"txt") ts q%"\\title{A}{t}\n\nx\n" ≠ pageBy (textMode q%"txt") builtinText q%"\\title{A}{t}\n\nx\n") := by
  decide +kernel

end Booklit.Props
