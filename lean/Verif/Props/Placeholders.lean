import Verif.Props.Custom
import Verif.Lemmas.MarkupL
import Verif.Lemmas.LooksL

/-!
C87: with templates of one's own, too, what is written in a book is only text.
-/

namespace Booklit.Props

open Booklit Booklit.Templates Booklit.Tmpl Booklit.Markup

/-- **C87**: a page is composed of pieces of the templates' texts, and of what is put between them: text between tags and in titles,
letters and digits in the names of tags, values of attributes between quotes, but never those of attributes that hold programs,
and addresses only if they are safe. No template uses `rawHTML` or `rawURL`. -/
theorem C87_page {ts : TSet} (hraw : ∀ file src, ts file = some src → Escapes src) {S : Site} {h : Heap} {n i : Nat} {page : Str}
    (e : pageWith htmlMode ts S h n i = .ok page) :
    ∃ ps : List Piece, page = ps.flatMap Piece.text ∧ Composed (OfTemplates ts) .text ps .text := by
  unfold pageWith at e
  split at e
  · cases e
  · obtain ⟨ps, hf, hc⟩ := (run_comp hraw n).2 _ _ (.content _) page e
    exact ⟨ps, hf.symm, hc⟩

/-- More texts of templates. -/
theorem composed_mono {own own' : Str → Prop} (ho : ∀ s, own s → own' s) {w w' : Where} {ps : List Piece} (h : Composed own w ps w') :
    Composed own' w ps w' := by
  induction h with
  | done => exact .done
  | own h1 _ ih => exact .own (ho _ h1) ih
  | put h1 _ ih => exact .put h1 ih

/-- **C87**: it does not matter if there are templates that use `rawHTML` or `rawURL`, as long as a book uses none of them. -/
theorem C87_book {ts : TSet} {xs : List Str} (hraw : ∀ file src, (∀ x ∈ xs, file ≠ fileOf x) → ts file = some src → Escapes src)
    (hcalls : ∀ file ns, (∀ x ∈ xs, file ≠ fileOf x) → htmlMode.compile ts file = some ns → ∀ x ∈ xs, fileOf x ∉ callsL ns)
    (hk : ∀ x ∈ xs, x ∉ q%"page" :: kindNames) {S : Site} {h : Heap} (hu : Unstyled xs S h) {n i : Nat}
    (hp : (h.get i).style ++ q%"-page" ∉ xs) {page : Str} (e : pageWith htmlMode ts S h n i = .ok page) :
    ∃ ps : List Piece, page = ps.flatMap Piece.text ∧ Composed (OfTemplates ts) .text ps .text := by
  let ts' : TSet := fun f => if ∃ x ∈ xs, f = fileOf x then none else ts f
  have same : ∀ file, (∀ x ∈ xs, file ≠ fileOf x) → ts file = ts' file := by
    intro file hf
    show _ = if _ then _ else _
    rw [if_neg]
    rintro ⟨x, hx, e⟩
    exact hf x hx e
  have sub : ∀ file src, ts' file = some src → (∀ x ∈ xs, file ≠ fileOf x) ∧ ts file = some src := by
    intro file src hs
    replace hs : (if ∃ x ∈ xs, file = fileOf x then none else ts file) = some src := hs
    split at hs
    · cases hs
    · rename_i hn
      exact ⟨fun x hx e => hn ⟨x, hx, e⟩, hs⟩
  rw [C80_unused htmlMode same hcalls hk hu hp] at e
  obtain ⟨ps, hf, hc⟩ := C87_page (fun file src hs => hraw file src (sub file src hs).1 (sub file src hs).2) e
  exact ⟨ps, hf, composed_mono (fun s ⟨file, src, hs, hi⟩ => ⟨file, src, (sub file src hs).2, hi⟩) hc⟩

/-- The templates there are after loading a directory: those before, and those of the directory. -/
theorem parseAll_mem (L : Lang) : ∀ (d : Dir) (ts : TSet) (file src : Str), (L.parseAll ts d).2 file = some src →
    ts file = some src ∨ ∃ f ∈ d, f.1 = file ∧ src = trimNewlines f.2.text := by
  intro d
  induction d with
  | nil => intro ts file src h; exact .inl h
  | cons f d ih =>
    intro ts file src h
    rw [Lang.parseAll] at h
    cases hd : L.define ts f.1 (trimNewlines f.2.text) with
    | none => rw [hd] at h; exact .inl h
    | some ts' =>
      rw [hd] at h
      rcases ih ts' file src h with h | ⟨g, hg, h⟩
      · rw [Lang.define] at hd
        split at hd
        · split at hd
          · cases hd; exact .inl h
          · cases hd
            rw [Cache.set] at h
            split at h
            · rename_i e; cases h; exact .inr ⟨f, List.mem_cons_self, e.symm, rfl⟩
            · exact .inl h
        · cases hd
      · exact .inr ⟨g, List.mem_cons_of_mem _ hg, h⟩

theorem html_escapes : ∀ p ∈ builtinHtmlFiles, p.1 ≠ q%"raw-html" → (match parse htmlFns (trimNewlines p.2) with
    | none => true
    | some ns => !(usedByL ns).contains .rawHTML && !(usedByL ns).contains .rawURL) = true := by
  decide +kernel

theorem builtin_mem {file src : Str} (h : builtinHtml file = some src) : ∃ p ∈ builtinHtmlFiles, file = fileOf p.1 ∧ src = trimNewlines p.2 := by
  rw [builtinHtml, builtinSet, Option.map_eq_some_iff] at h
  obtain ⟨p, hp, rfl⟩ := h
  exact ⟨p, List.mem_of_find?_eq_some hp, (eq_of_beq (List.find?_some (p := fun p : Str × Str => p.1 ++ q%".tmpl" == file) hp)).symm, rfl⟩

/-- **C87**, in terms of documents: with a directory of templates loaded over those that come with Booklit, on every page of a book
everything but the texts of the templates is text, a value or a safe address. The templates of the directory do not use `rawHTML` and
`rawURL`, nor call the template that does, and plugins do not use the style it is for. -/
theorem C87_documents (L : Lang) {d : Dir} (hd : ∀ f ∈ d, Escapes (trimNewlines f.2.text))
    (hdc : ∀ f ∈ d, ∀ ns, compileHtml (trimNewlines f.2.text) = some ns → q%"raw-html.tmpl" ∉ callsL ns) {W : World} {F : Content → Prop}
    (hF : W.Makes F) (hm : ∀ c, F c → c.noRaw = true) (hfs : W.fs [] = none) {s : St} (hr : Reach W s) {S : Site}
    (hS : ∀ i c, S.force i = some c → c.unstyled [q%"raw-html"] = true)
    (hs : ∀ i, (s.heap.get i).style ≠ q%"raw-html") {n i : Nat} {page : Str}
    (e : pageWith htmlMode (L.loadTemplates builtinHtml d (.new builtinHtml)).2.tmpl S s.heap n i = .ok page) :
    ∃ ps : List Piece, page = ps.flatMap Piece.text ∧
      Composed (OfTemplates (L.loadTemplates builtinHtml d (.new builtinHtml)).2.tmpl) .text ps .text := by
  have hts : ∀ file src, (L.loadTemplates builtinHtml d (.new builtinHtml)).2.tmpl file = some src →
      (∃ p ∈ builtinHtmlFiles, file = fileOf p.1 ∧ src = trimNewlines p.2) ∨ ∃ f ∈ d, f.1 = file ∧ src = trimNewlines f.2.text := by
    intro file src h
    rw [Lang.loadTemplates] at h
    dsimp only at h
    split at h
    · rcases parseAll_mem L d _ file src h with h | h
      · exact .inl (builtin_mem h)
      · exact .inr h
    · exact .inl (builtin_mem h)
  refine C87_book (xs := [q%"raw-html"]) ?_ ?_ (by decide) ?_ ?_ e
  · intro file src hx h
    rcases hts file src h with ⟨p, hp, hf, rfl⟩ | ⟨f, hf, _, rfl⟩
    · have := html_escapes p hp fun e => hx _ List.mem_cons_self (by rw [hf, e])
      intro ns hn
      rw [hn] at this
      simpa using this
    · exact hd f hf
  · intro file ns hx h x hx' hc
    rw [List.mem_singleton.1 hx'] at hc
    rw [Mode.compile, Option.bind_eq_some_iff] at h
    obtain ⟨src, h, hn⟩ := h
    rcases hts file src h with ⟨p, hp, hf, rfl⟩ | ⟨f, hf, _, rfl⟩
    · have := html_calls p hp
      rw [show compileHtml (trimNewlines p.2) = some ns from hn] at this
      exact absurd (eq_of_beq (List.all_eq_true.1 this _ hc)) (by decide)
    · exact hdc f hf ns hn hc
  · refine documents_unstyled hF (fun c hc => ?_) ?_ hfs hr hS fun i h => hs i (List.mem_singleton.1 h)
    · have := hm c hc
      cases c <;> first | rfl | simpa [Content.noRaw, Content.notStyle] using this
    · have names : (baseMethods.all fun m => match m.2 with
          | .style st => decide (st ≠ q%"raw-html")
          | _ => true) = true := by
        decide +kernel
      intro p fn args l st _ hb h
      have := List.all_eq_true.1 names _ hb
      exact of_decide_eq_true this (List.mem_singleton.1 h)
  · intro h
    have := congrArg List.getLast? (List.mem_singleton.1 h)
    rw [List.getLast?_append] at this
    exact absurd (show some 'e' = some 'l' from this) (by decide)

/-- **C87**: a text between tags or in a title is shown as it is. -/
theorem C87_text (E : Env) (t : Str) {c : Ctx} (hc : c = .text ∨ c = .raw .title ∨ c = .raw .textarea) :
    ∃ s, c.escape E (.str t) = .ok s ∧ readHtml s = some (lettering t) := by
  refine ⟨escText t, ?_, reads_iff.1 (Reads.escText t)⟩
  rcases hc with rfl | rfl | rfl <;> rfl

/-- **C87**: a text put into an attribute is what it holds. -/
theorem C87_attribute (E : Env) (t : Str) (e : Option Elem) (q : Char) (p : Part) :
    ∃ s, (Ctx.value e .plain q p).escape E (.str t) = .ok s ∧ Holds s (t.map arriving) :=
  ⟨escAttr t, rfl, holds_of (ReadsV.escAttr t)⟩

/-- **C87**: a text put at the start of an address leads there, if it is safe. -/
theorem C87_address (E : Env) (t : Str) (e : Option Elem) (q : Char) :
    ∃ s v, (Ctx.value e .url q .start).escape E (.str t) = .ok s ∧ Holds s v ∧ LeadsTo t v :=
  ⟨escURL t, linkTo t, rfl, holds_of (ReadsV.escURL t), leadsTo_linkTo t⟩

theorem unpercent_escape {bs : List Byte} (h : ∀ b ∈ bs, b < 256) : unpercent (urlEscape bs) = bs := by
  induction bs with
  | nil => rfl
  | cons b bs ih =>
    have h1 := h b List.mem_cons_self
    have h2 := ih fun x hx => h x (List.mem_cons_of_mem _ hx)
    rw [urlEscape, List.flatMap_cons]
    rw [urlEscape] at h2
    split
    · rename_i hb
      have hs := urlPlain_cases hb
      rw [List.cons_append, List.nil_append, unpercent_plain, h2, toNat_small b hs.1]
      intro e
      have := hs.2
      rw [e] at this
      exact absurd this (by decide)
    · rw [List.cons_append, List.cons_append, List.cons_append, List.nil_append, unpercent, if_pos rfl,
        digitValue_hexDigit (Nat.mod_lt _ (by decide)), digitValue_hexDigit (Nat.mod_lt _ (by decide))]
      dsimp only
      rw [h2]
      congr 1
      unfold Byte at *
      omega

/-- **C87**: a text put into the query of an address stands for itself there, and cannot be taken for more than that: it consists of letters,
digits, `-._~` and percent signs. -/
theorem C87_query (E : Env) (t : Str) (e : Option Elem) (q : Char) :
    ∃ s v, (Ctx.value e .url q .query).escape E (.str t) = .ok s ∧ Holds s v ∧ unpercent v = utf8 t ∧
      ∀ c ∈ v, letter c ∨ digit c ∨ c ∈ q%"-._~%" := by
  exact ⟨escAttr (urlEscape (utf8 t)), urlEscape (utf8 t), rfl, holds_word (urlEscape_chars _), unpercent_escape (utf8_bytes t), urlEscape_chars _⟩

/-! ### Templates that put things in many places -/

/-- A template of one's own, with placeholders between tags, in attributes and in addresses. -/
def busyTemplate : Str :=
  q%"<div class='{{.Style}}' data-x=\"{{.Content.String}}\"><a href=\"{{.Content.String}}\">{{.Content | render}}</a><a href='/s?q={{.Content.String}}'>?</a><title>{{.Content.String}}</title></div>"

def busyDir : Dir := [(q%"shout.tmpl", ⟨1, busyTemplate⟩)]

def busyHtml : TSet := ((langOf htmlMode).loadTemplates builtinHtml busyDir (.new builtinHtml)).2.tmpl

/-- What a book says, put into all of them. -/
def nasty : Content := .styled q%"shout" false (.str q%"javascript:'\"><b>&") []

def nastyHeap : Heap := [{ Sec.fresh none q%"x.lit" with title := .str q%"A", body := nasty }]

/-- The page is made, and nothing of it is taken for markup or for a program. -/
example : (match Tmpl.run htmlMode (htmlMode.compile busyHtml) ⟨false, fun _ => none⟩ nastyHeap 10 (.content nasty) with
    | .ok s => s == q%"<div class='shout' data-x=\"javascript:&#39;&#34;&gt;&lt;b&gt;&amp;\"><a href=\"#ZgotmplZ\">javascript:&#39;&#34;&gt;&lt;b&gt;&amp;</a><a href='/s?q=javascript%3a%27%22%3e%3cb%3e%26'>?</a><title>javascript:&#39;&#34;&gt;&lt;b&gt;&amp;</title></div>"
    | _ => false) = true := by
  decide +kernel

/-- Its page, too. -/
example : (match pageWith htmlMode busyHtml ⟨false, fun _ => none⟩ nastyHeap 20 0 with
    | .ok s => Where.text.run s == .text
    | _ => false) = true := by
  decide +kernel

/-- Templates can hand two sections to another one (`walkContext`): here each entry of a list knows the section of the page. -/
def walkDir : Dir :=
  [(q%"here.tmpl", ⟨1, q%"{{range .Children}}{{template \"entry.tmpl\" walkContext $ .}}{{end}}"⟩),
   (q%"entry.tmpl", ⟨1, q%"<li{{if eq .Section.PrimaryTag.Name .Current.PrimaryTag.Name}} class=\"self\"{{end}}>{{.Section.Title | render}}/{{.Current.Title | render}}</li>"⟩)]

example : (match Tmpl.run htmlMode (htmlMode.compile ((langOf htmlMode).loadTemplates builtinHtml walkDir (.new builtinHtml)).2.tmpl) ⟨false, fun _ => none⟩
      [{ Sec.fresh none q%"x.lit" with title := .str q%"A", style := q%"here", children := [1] },
       { Sec.fresh (some 0) [] with title := .str q%"<B>", primaryTag := { Tag.zero with name := q%"b" } }] 10 (.content (.sect 0)) with
    | .ok s => s == q%"<li>&lt;B&gt;/A</li>"
    | _ => false) = true := by
  decide +kernel

/-- `or` gives the first of its arguments that is true, and the last one if none is. -/
theorem or_first (E : Env) (vs : List Val) (h : vs ≠ []) : Fn.or.apply E vs = .ok ((vs.find? Val.truth).getD (vs.getLast h)) := by
  cases vs with
  | nil => exact (h rfl).elim
  | cons v vs =>
    simp only [Fn.apply, Res.ok.injEq]
    induction vs generalizing v with
    | nil => cases hv : v.truth <;> simp [hv]
    | cons w vs ih =>
      cases hv : v.truth
      · rw [List.foldl_cons, if_neg (by simp [hv]), ih w (by simp)]
        simp [hv]
      · rw [List.foldl_cons, if_pos (by simp [hv]), ih v (by simp)]
        simp [hv]

/-- `and` gives the first of its arguments that is false, and the last one if none is. -/
theorem and_first (E : Env) (vs : List Val) (h : vs ≠ []) : Fn.and.apply E vs = .ok ((vs.find? fun v => !v.truth).getD (vs.getLast h)) := by
  cases vs with
  | nil => exact (h rfl).elim
  | cons v vs =>
    simp only [Fn.apply, Res.ok.injEq]
    induction vs generalizing v with
    | nil => cases hv : v.truth <;> simp [hv]
    | cons w vs ih =>
      cases hv : v.truth
      · rw [List.foldl_cons, if_neg (by simp [hv]), ih v (by simp)]
        simp [hv]
      · rw [List.foldl_cons, if_pos (by simp [hv]), ih w (by simp)]
        simp [hv]

/-- `.IsFlow` of a content in a template is what decides whether the content is wrapped in a paragraph. -/
theorem isFlow_field (E : Env) {c : Content} {b : Bool} (h : isFlow c = some b) : Val.field E (.content c) .isFlow [] = .ok (.bool b) := by
  cases c <;> simp only [isFlow, Option.some.injEq, reduceCtorEq] at h <;> simp [Val.field, conField, secField, anyField, isFlow, h]

-- A section is not, a text is.
example : isFlow (.sect 0) = some false ∧ isFlow (.str q%"a") = some true := by decide

/-- Comments, variables of `if` and `with`, fields of parenthesised expressions, `true` and raw strings. -/
def oddDir : Dir :=
  [(q%"odd.tmpl", ⟨1, q%"a {{- /* a }} comment */ -}} b{{if $t := .Title}}{{with $s := (and true .).PrimaryTag}}{{$s.Name}}{{`<`}}{{$t | render}}{{end}}{{else}}none{{end}}"⟩),
   (q%"odder.tmpl", ⟨1, q%"{{if .Parent}}a{{else if .Style}}b{{else if .Title}}c{{else}}d{{end}}{{if .Parent}}e{{else if .Tags}}f{{else if true}}g{{else}}h{{end}}"⟩)]

example : (compileHtml q%"{{/* a */ }}").isNone = true ∧
    (match Tmpl.run htmlMode (htmlMode.compile ((langOf htmlMode).loadTemplates builtinHtml oddDir (.new builtinHtml)).2.tmpl) ⟨false, fun _ => none⟩
      [{ Sec.fresh none q%"x.lit" with title := .str q%"A", style := q%"odd", primaryTag := { Tag.zero with name := q%"&t" } }] 10 (.content (.sect 0)) with
    | .ok s => s == q%"ab&amp;t&lt;A"
    | _ => false) = true ∧
    (match Tmpl.run htmlMode (htmlMode.compile ((langOf htmlMode).loadTemplates builtinHtml oddDir (.new builtinHtml)).2.tmpl) ⟨false, fun _ => none⟩
      [{ Sec.fresh none q%"x.lit" with style := q%"odder" }] 10 (.content (.sect 0)) with
    | .ok s => s == q%"bg"
    | _ => false) = true := by
  decide +kernel

theorem escapes_of_check {src : Str} (h : (match parse htmlFns src with
    | none => true
    | some ns => !(usedByL ns).contains .rawHTML && !(usedByL ns).contains .rawURL) = true) : Escapes src := by
  intro ns hn
  rw [hn] at h
  simpa using h

/-- The hypotheses about the directory hold for it. -/
example : (∀ f ∈ busyDir, Escapes (trimNewlines f.2.text)) ∧
    ∀ f ∈ busyDir, ∀ ns, compileHtml (trimNewlines f.2.text) = some ns → q%"raw-html.tmpl" ∉ callsL ns := by
  refine ⟨fun f hf => ?_, fun f hf ns hn => ?_⟩
  · rw [List.mem_singleton.1 hf]
    exact escapes_of_check (by decide +kernel)
  · rw [List.mem_singleton.1 hf] at hn
    have : (match compileHtml (trimNewlines busyTemplate) with
      | none => true
      | some ns => !(callsL ns).contains q%"raw-html.tmpl") = true := by decide +kernel
    rw [show compileHtml (trimNewlines busyTemplate) = some ns from hn] at this
    simpa using this

/-- Placeholders are not allowed where they could become programs. -/
example : compileHtml q%"<a onclick=\"{{.Style}}\">x</a>" = none ∧ compileHtml q%"<script>{{.Style}}</script>" = none ∧
    compileHtml q%"<a style='{{.Style}}'>x</a>" = none ∧ (compileHtml q%"<a title='{{.Style}}'>x</a>").isSome = true := by
  refine ⟨?_, ?_, ?_, by decide +kernel⟩
  all_goals exact Option.isNone_iff_eq_none.1 (by decide +kernel)

/-- The hypothesis is needed: with `rawHTML`, markup in a book is markup on the page. -/
example : (match Tmpl.run htmlMode (htmlMode.compile builtinHtml) ⟨false, fun _ => none⟩ nastyHeap 10
      (.content (.styled q%"raw-html" false (.str q%"<script>") [])) with
    | .ok s => s == q%"<script>"
    | _ => false) = true := by
  decide +kernel

end Booklit.Props
