import Verif.Lemmas.MsSite
import Verif.Lemmas.MsCheck

/-!
C85: the whole way from the text of a manuscript to the files of its pages.
-/

namespace Booklit.Props

open Booklit Booklit.Src Booklit.Ms

/-- **C85**: a book is written down as a manuscript (any text, escaped; code; styles; links; images; targets;
references to sections and targets, with a text of their own or not; lists, tables, definitions, asides, insets, blocks of code; tables of contents, and sections
left out of them; sections within sections, with pages of their own or not), in a file with either kind of line ends. If every reference is to a name that is given once, and the pages have names of their own, then the
program builds the book: for each section that starts a page there is a file with its name, a browser reads the file as a
page, and on the page is what the manuscript says, in its order, with the right headers, numbers, links and titles, and
nothing else but blanks between. No other file is touched, except that of the search index if it is asked for. -/
theorem C85_site {nl : Str} (hnl : nl = ['\n'] ∨ nl = ['\r', '\n']) {b : Part} (hb : b.ok) (hr : RefsOk b) (hp : PagesApart b)
    {J : Job} (hJ : J.Whole) {W : World} {info : FileInfo} (hf : W.fs J.input = some info) (hd : info.data = some (b.src nl))
    {O : Outside} (hO : O.Fine) {S : Site} (hS : ∀ i, S.force i = none) (short : Bool) :
    ∃ N, ∀ n, N ≤ n → ∃ K, ∀ k, K ≤ k → ∀ d, let B := J.build W O (htmlEngine S) S.brokenOk short n k d
      B.res = .ok () ∧
      (∀ ks p, Place b ks 1 ks p p → ∃ txt ds, B.disk (joinPath J.out (p.name ++ q%".html")) = some txt ∧
        readHtml txt = some ds ∧ PageDom b ks 1 p ds) ∧
      ∀ f, (∀ ks p, Place b ks 1 ks p p → f ≠ joinPath J.out (p.name ++ q%".html")) →
        (J.saveIndex = true → f ≠ joinPath J.out q%"search_index.json") → B.disk f = d f := by
  refine ⟨depth b + 1, fun n hn => ?_⟩
  obtain ⟨m, rfl⟩ : ∃ m, n = m + 1 := ⟨n - 1, by omega⟩
  obtain ⟨s, t, hl, L⟩ := load_part (W := W) hnl hb hf hd (plugins := [0]) rfl (n := m) (by omega)
  obtain ⟨t', ps, e, bk, hps, hbuild⟩ := C68_build hJ hl hO (htmlEngine S) S.brokenOk short
  have bk' := L.made.book L.nodup
  obtain rfl := Tree.unique (h := s.heap) (e.trans L.top.symm) bk.children bk'.children
  have hw := written_places L (by rw [e]; exact hps)
  have ids := written_ids bk (by rw [e]; exact hps)
  have hname : ∀ {ks u p}, t'.At ks u → Place b ks 1 ks p p → s.heap.filePathOf J.out htmlExt u.root = joinPath J.out (p.name ++ q%".html") ∧
      (s.heap.get u.root).primaryTag.name = p.name := by
    intro ks u p ha hpl
    obtain ⟨u', so, par, par', a1, a2, _⟩ := place_at L.made hpl
    obtain rfl := ha.inj a1
    obtain ⟨l, et⟩ := a2.inv.2.1.tag
    simp [Heap.filePathOf, Heap.fileName, htmlExt, et]
  obtain ⟨K, hK⟩ := hbuild (fun p hp => page_done bk (L.sane hr) (ids p hp))
    fun _ => ⟨by rw [← e]; exact L.index S.brokenOk htmlExt, fun p _ => html_not_index hJ.out p⟩
  refine ⟨K, fun k hk d => ?_⟩
  obtain ⟨h1, h2, -, h4⟩ := hK k hk d
  refine ⟨h1, fun ks p hpl => ?_, fun f hf => h4 f fun i hi => ?_⟩
  · obtain ⟨u, _, _, _, ha, _⟩ := place_at L.made hpl
    obtain ⟨q, hq, e1, txt, h5, h6⟩ := h2 u.root ((hw u.root).2 ⟨ks, u, p, ha, rfl, hpl⟩)
    obtain ⟨ks', u', p', ha', rfl, hpl'⟩ := (hw q).1 hq
    have e1 : s.heap.filePathOf J.out htmlExt u'.root = s.heap.filePathOf J.out htmlExt u.root := e1
    rw [(hname ha hpl).1, (hname ha' hpl').1] at e1
    have good : goodExt htmlExt := by unfold goodExt; decide
    have pf : ∀ {ks u p}, t'.At ks u → Place b ks 1 ks p p → p.name ++ q%".html" = s.heap.fileName htmlExt u.root ∧
        '/' ∉ (s.heap.get u.root).primaryTag.name := by
      intro ks u p ha hpl
      have := (hname ha hpl).2
      exact ⟨by simp [Heap.fileName, htmlExt, this], by rw [this]; exact (hp _ _ hpl).1⟩
    rw [(pf ha hpl).1, (pf ha' hpl').1] at e1
    have := joinPath_inj hJ.out (plain_fileName (pf ha' hpl').2 good) (plain_fileName (pf ha hpl).2 good) e1
    have := List.append_cancel_right (List.append_cancel_right this)
    rw [(hname ha hpl).2, (hname ha' hpl').2] at this
    obtain rfl := (hp _ _ hpl).2 _ _ hpl' this
    obtain rfl := ha.inj ha'
    obtain ⟨ds, h7, h8⟩ := L.page hr hS hpl ha h5
    refine ⟨txt, ds, ?_, h7, h8⟩
    rw [← (hname ha hpl).1]
    exact h6
  · obtain ⟨ks, u, p, ha, rfl, hpl⟩ := (hw i).1 hi
    have := hf ks p hpl
    rw [← (hname ha hpl).1] at this
    exact this

/-! ### A manuscript -/

/-- A manuscript with all there is. -/
def someManuscript : Part :=
  .mk [.text q%"A & {B}"] [q%"top"] true false
    [.para [[.text q%"See ", .ref q%"second", .text q%", "], [.styled .bold [.text q%"not ", .code q%"x\\y"], .link [.text q%"here"] q%"https://a/?b"]],
     .code (.verbatim [(q%"  ", q%"if x {"), (q%"    ", q%"\\y"), (q%"  ", q%"}")]),
     .box true [.list true [[.text q%"one"], [.ref q%"one-half"], [.ref q%"spot"]], .toc]]
    [.mk [.styled .italic [.text q%"One"], .aux [.text q%": ", .code q%"1st"]] [] false true [.para [[.target q%"mark" none], [.text q%"a < b", .target q%"spot" (some q%"A {Spot}")]]] [.mk [.text q%"One Half"] [] false false [] []],
     .mk [.text q%"Two"] [q%"two", q%"second"] false false [.toc, .list false [[.text q%"- "]],
       .table [[[.text q%"a"], [.see q%"top" [.text q%"b ", .see q%"one" [.code q%"c"]]]], [[.text q%"d"]]],
       .defs [([.styled .italic [.text q%"e"]], [.image q%"f g.png" q%"h"])]] []]

/-- It is written like this. -/
example : someManuscript.src ['\n'] = q%"\\title{A & \\{B\\}}{top}\n\n\\split-sections\n\nSee \\reference{second}, \n\\bold{not \\code{{{x\\y}}}}\\link{here}{https://a/?b}\n\n\\code{{{\n  if x {\n    \\y\n  }\n}}}\n\n\\aside{\n\\ordered-list{one}{\\reference{one-half}}{\\reference{spot}}\n\n\\table-of-contents\n\n}\n\n\\section{\n\\title{\\italic{One}\\aux{: \\code{{{1st}}}}}\n\n\\omit-children-from-table-of-contents\n\n\\target{mark}\na < b\\target{spot}{A \\{Spot\\}}\n\n\\section{\n\\title{One Half}\n\n}\n\n}\n\n\\section{\n\\title{Two}{two}{second}\n\n\\table-of-contents\n\n\\list{- }\n\n\\table{\\table-row{a}{\\reference{top}{b \\reference{one}{\\code{{{c}}}}}}}{\\table-row{d}}\n\n\\definitions{\\definition{\\italic{e}}{\\image{f g.png}{h}}}\n\n}\n\n" := by
  decide +kernel

/-- Text with few braces does not end verbatim text. -/
theorem noClose {s : Str} (h : s.count '}' < 3) : ¬ hasClose s := by
  rintro ⟨a, b, rfl⟩
  rw [List.count_append, List.count_cons_self, List.count_cons_self, List.count_cons_self] at h
  omega

theorem someManuscript_ok : someManuscript.ok := by
  simp [someManuscript, Part.ok, okParts, okBlks, Blk.ok, okSpans, Span.ok, Ms.lineOk, runOk, apart, Span.isText, oneLine, Block.ok, allBlank,
    isBlank, fullSpans, Span.full, titleOk, notOnlyAux, bareSpans, Span.bare]
  exact ⟨⟨noClose (by decide), noClose (by decide), noClose (by decide), noClose (by decide)⟩, noClose (by decide), noClose (by decide)⟩

example : RefsOk someManuscript ∧ PagesApart someManuscript := ⟨.of_check (by decide +kernel), .of_check (by decide +kernel)⟩

/-- A job for it. -/
def someJob : Job := { input := q%"x.lit", out := q%"o", saveIndex := true }

/-- It is built, and has three pages. -/
example (d : Disk) : ∃ n k, let B := someJob.build (plainFile (someManuscript.src ['\n'])) calm (htmlEngine ⟨false, fun _ => none⟩) false true n k d
    B.res = .ok () ∧ (B.disk q%"o/top.html").isSome = true ∧ (B.disk q%"o/one.html").isSome = true ∧ (B.disk q%"o/two.html").isSome = true := by
  obtain ⟨n, hn⟩ := C85_site (.inl rfl) someManuscript_ok (.of_check (by decide +kernel)) (.of_check (by decide +kernel))
    (J := someJob) ⟨by simp [someJob], rfl, rfl⟩ (W := plainFile (someManuscript.src ['\n'])) rfl rfl
    (O := calm) (fun _ => ⟨rfl, rfl, rfl⟩) (S := ⟨false, fun _ => none⟩) (fun _ => rfl) true
  obtain ⟨k, hk⟩ := hn n (Nat.le_refl _)
  obtain ⟨h1, h2, h3⟩ := hk k (Nat.le_refl _) d
  refine ⟨n, k, h1, ?_, ?_, ?_⟩
  · obtain ⟨txt, _, e, _⟩ := h2 [] _ .top
    exact Option.isSome_of_eq_some e
  · obtain ⟨txt, _, e, _⟩ := h2 [0] _ (.page (k := 0) .top rfl rfl)
    exact Option.isSome_of_eq_some e
  · obtain ⟨txt, _, e, _⟩ := h2 [1] _ (.page (k := 1) .top rfl rfl)
    exact Option.isSome_of_eq_some e

end Booklit.Props
