import Verif.Props.Html
import Verif.Lemmas.LooksL

/-!
C66: what is on a page, element by element.
-/

namespace Booklit.Props

open Booklit Tree

/-- **C66**: the page of any section of a book, if there is no raw HTML, reads as a page whose title is the text of the
section's title, and whose body shows the section as `Looks` says: headers, numbers, texts, styles, lists, tables,
references and tables of contents, in the order of the source and with nothing else but blanks between. -/
theorem C66_page {S : Site} {h : Heap} {t : Tree} (b : Book h t)
    (hh : ∀ i, ∀ c ∈ (h.get i).shown, ∀ d ∈ c.parts true, d.noRaw = true)
    (hin : ∀ i ∈ t.ids, ∀ c ∈ (h.get i).shown, ∀ d ∈ c.parts true, d.inBook t = true)
    (hS : ∀ i c, S.force i = some c → ∀ d ∈ c.parts true, d.inBook t = true) {n i : Nat} (hi : i ∈ t.ids) {txt : Str}
    (hp : h.page S n i = .ok txt) :
    ∃ title ds, h.text S.brokenOk n (h.get i).title = .ok title ∧ readHtml txt = some ds ∧ PageLooks S h t title i ds := by
  have hraw' : ∀ d : Content, d.inBook t = true → d.noRaw = true := by
    intro d hd
    cases d <;> first | rfl | exact hd
  have H : ShownOk Content.noRaw S h := shownOk_of (fun i c hc => (all_iff c).2 (hh i c hc))
    (fun b i c _ e => (all_iff c).2 fun d hd => hraw' d (hS i c e d hd)) (fun _ => rfl) (fun _ => rfl) noRaw_strip
  have hraw : ∀ n st b c ps, st = q%"raw-html" → (Content.styled st b c ps).all Content.noRaw = true →
      RSim Reads (h.text S.brokenOk n c) (tmplErr : Res (List Dom)) := by
    intro n st b c ps e hc
    rw [Content.all, Bool.and_eq_true, Bool.and_eq_true] at hc
    simp [Content.noRaw, e] at hc
  obtain ⟨title, x, h1, h2, h3⟩ := page_ok (raw := fun _ => tmplErr) H hraw hp
  have B : BookOk S h t := {
    book := b
    title := fun i hi => (all_iff _).2 (hin i hi _ (by simp [Sec.shown]))
    body := fun i hi => (all_iff _).2 (hin i hi _ (by simp [Sec.shown]))
    tags := fun i hi g hg => (all_iff _).2 (hin i hi _ (by
      simp only [Sec.shown, List.mem_cons, List.mem_map]
      exact .inr (.inr ⟨g, hg, rfl⟩)))
    force := fun i c e => (all_iff _).2 (hS i c e) }
  exact ⟨title, _, h1, h3, page_looks (heap_looks B n (.sect i) (by simpa [Content.all, Content.inBook] using hi) x h2)⟩

/-- The contents of a loaded section, if other plugins make nothing that stands for something elsewhere. -/
theorem origin_settled {W : World} {F : Content → Prop} (hF : ∀ c, F c → c.settled = true) {p : Str} {i : Nat} {c : Content}
    (o : Origin W F p i c) :
    c.noRaw = true ∧ (∀ s t x b l, c = .ref s t x b l → s = i) ∧ (∀ j, c = .toc j → j = i) ∧ (∀ j, c ≠ .sect j) := by
  refine ⟨o.noRaw fun c hc => ?_, ?_⟩
  · have := hF c hc
    cases c <;> first | rfl | exact this
  cases o
  case plugin h =>
    have := hF c h
    cases c <;> simp_all [Content.settled]
  case ref => exact ⟨fun s t x b l e => by cases e; rfl, by simp, by simp⟩
  all_goals simp

/-- **C66**: the pages of loaded documents, if other plugins make no raw HTML, references, sections or tables of contents
of their own. -/
theorem C66_documents {W : World} {F : Content → Prop} (hF : W.Makes F) (hm : ∀ c, F c → c.settled = true)
    (hfs : W.fs [] = none) {n : Nat} {path : Str} {plugins : List Nat} {s s' : St} {i : Nat}
    (hr : Reach W s) (h0 : plugins.head? = some 0) (hl : loadFile W n none path plugins s = (.ok i, s')) {S : Site}
    (hS : ∀ i c, S.force i = some c → ∀ d ∈ c.parts true, d.settled = true) :
    ∃ t, t.root = i ∧ Book s'.heap t ∧ ∀ o ∈ t.ids, ∀ m txt, s'.heap.page S m o = .ok txt →
      ∃ title ds, s'.heap.text S.brokenOk m (s'.heap.get o).title = .ok title ∧ readHtml txt = some ds ∧
        PageLooks S s'.heap t title o ds := by
  have hr' : Reach W s' := by
    have := Reach.load n none path plugins hr (by simp) h0
    rw [hl] at this
    exact this
  obtain ⟨t, rfl, b⟩ := C28_loaded_tree hl
  have shown := parts_shown (P := fun i c => c.noRaw = true ∧ (∀ s t x b l, c = .ref s t x b l → s = i) ∧
    (∀ j, c = .toc j → j = i) ∧ (∀ j, c ≠ .sect j)) hF hfs hr' fun _ _ _ o => origin_settled hm o
  refine ⟨t, rfl, b, fun o ho m txt hp => C66_page b (fun i c hc d hd => (shown i c hc d hd).1) ?_ ?_ ho hp⟩
  · intro i hi c hc d hd
    obtain ⟨h1, h2, h3, h4⟩ := shown i c hc d hd
    cases d with
    | styled s b c ps => exact h1
    | ref s' t' x o l =>
      obtain rfl := h2 _ _ _ _ _ rfl
      simpa [Content.inBook] using hi
    | toc j =>
      obtain rfl := h3 _ rfl
      simpa [Content.inBook] using hi
    | sect j => exact (h4 j rfl).elim
    | _ => rfl
  · intro i c e d hd
    have := hS i c e d hd
    cases d <;> first | rfl | exact this | cases this

/-- **C66**: the address of a link, if it is allowed, stands on the page as it is written if and only if it needs no encoding,
and otherwise encoded: what was encoded already stays, nothing is encoded twice, and it stands for the same bytes. -/
theorem C66_address {u : Str} (hu : allowedUrl u) :
    ReadsV (escURL u) (linkTo u) ∧ (linkTo u = u ↔ Encoded u) ∧ Encoded (linkTo u) ∧ unpercent (linkTo u) = urlBytes u := by
  have l := leadsTo_linkTo u
  exact ⟨ReadsV.escURL u, ⟨fun e => e ▸ l.encoded, l.same hu⟩, l.encoded, l.decoded hu⟩

/-- An address with encoded and other characters, and percent signs that encode nothing. -/
example : allowedUrl q%"/a%20b/ü?x=100%&y=%e4" ∧ ¬ linkTo q%"/a%20b/ü?x=100%&y=%e4" = q%"/a%20b/ü?x=100%&y=%e4" ∧
    linkTo q%"/a%20b/ü?x=100%&y=%e4" = q%"/a%20b/%c3%bc?x=100%25&y=%e4" ∧
    linkTo q%"/a%20b/%C3%bc?x=100%25&y=%e4" = q%"/a%20b/%C3%bc?x=100%25&y=%e4" := by
  refine ⟨.inl (by decide), by decide +kernel, by decide +kernel, by decide +kernel⟩

/-- A page with a table of contents, two sections, a list and references. -/
example : pageOf q%"\\title{A}{t}\n\n\\table-of-contents\n\n\\section{\\title{B}\n\n\\list{x}{\\bold{y}}\n}\n\n\\section{\\title{C}\n\n\\reference{b}\n}\n" =
    some q%"<!DOCTYPE html>\n<html>\n  <head>\n    <meta http-equiv=\"content-type\" content=\"text/html; charset=utf-8\" />\n    <title>A</title>\n  </head>\n  <body>\n    <h1 class=\"section-header\"><a id=\"t\"></a>A</h1>\n\n\n<nav>\n  <ul>\n  \n    <li>\n      <a href=\"t.html#b\">1 B</a>\n\n      \n    </li>\n  \n    <li>\n      <a href=\"t.html#c\">2 C</a>\n\n      \n    </li>\n  \n  </ul>\n</nav>\n\n\n\n  \n    <h2 class=\"section-header\"><a id=\"b\"></a><span class=\"section-number\">1 </span>B</h2>\n\n  <ul>\n\n  <li>x</li>\n\n  <li><strong>y</strong></li>\n\n</ul> \n\n\n  \n\n  \n    <h2 class=\"section-header\"><a id=\"c\"></a><span class=\"section-number\">2 </span>C</h2>\n\n  <a href=\"t.html#b\">B</a> \n\n\n  \n\n  \n\n  </body>\n</html>" := by
  decide +kernel

end Booklit.Props
