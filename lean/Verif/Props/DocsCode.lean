import Verif.Lemmas.DocsCodeL
import Verif.Props.DocsPlugin
import Verif.Props.DocsLit

/-!
C103: how Booklit code is shown on the site of Booklit's documentation.
-/

set_option maxRecDepth 100000

namespace Booklit.Props

open Booklit Booklit.Tmpl Booklit.Templates

/-- Contents rendered, each on its own. -/
def RenderedEach (S : Site) (h : Heap) (cs : List Content) (xs : List Str) : Prop :=
  xs.length = cs.length ∧ ∀ (j : Nat) (c : Content), cs[j]? = some c → ∃ x, xs[j]? = some x ∧ RenderedAs docsHtml S h c x

theorem rendered_seq {S : Site} {h : Heap} {cs : List Content} {x : Str} (hx : RenderedAs docsHtml S h (.seq cs) x) :
    ∃ xs, RenderedEach S h cs xs ∧ x = xs.flatten := by
  obtain ⟨n, hx⟩ := hx
  rcases n with _ | _ | n
  · cases hx
  · cases hx
  · rw [run] at hx
    dsimp only [Content.visit] at hx
    rw [run, show q%"sequence" ++ q%".tmpl" = q%"sequence.tmpl" from rfl, d_sequence_is] at hx
    dsimp only at hx
    rw [exec_sequence rfl] at hx
    obtain ⟨xs, e, rfl⟩ := Res.ok_of_map hx
    exact ⟨xs, rendered_all e, rfl⟩

theorem rendered_two {S : Site} {h : Heap} {a b : Content} {x : Str} (hx : RenderedAs docsHtml S h (.seq [a, b]) x) :
    ∃ s t, RenderedAs docsHtml S h a s ∧ RenderedAs docsHtml S h b t ∧ x = s ++ t := by
  obtain ⟨xs, ⟨hl, hj⟩, rfl⟩ := rendered_seq hx
  obtain ⟨s, h1, r1⟩ := hj 0 a rfl
  obtain ⟨t, h2, r2⟩ := hj 1 b rfl
  rcases xs with _ | ⟨u, _ | ⟨v, _ | ⟨w, xs⟩⟩⟩ <;> simp at hl
  cases h1
  cases h2
  exact ⟨s, t, r1, r2, by simp⟩

theorem rendered_target {S : Site} {h : Heap} {t : Str} {l : Location} {ti c : Content} {x : Str} (hx : RenderedAs docsHtml S h (.target t l ti c) x) :
    x = q%"<a id=\"" ++ escAttr t ++ q%"\"></a>" := by
  obtain ⟨n, hx⟩ := hx
  rcases n with _ | _ | n
  · cases hx
  · cases hx
  · rw [run] at hx
    dsimp only [Content.visit] at hx
    rw [run, show q%"target" ++ q%".tmpl" = q%"target.tmpl" from rfl, d_target_is] at hx
    dsimp only at hx
    rw [exec_target] at hx
    cases hx
    rfl

/-- A style that puts its content between two texts. -/
theorem rendered_wrap {S : Site} {h : Heap} {st : Str} {b : Bool} {c : Content} {ps : List (Str × Content)} {x a z : Str}
    (hn : htmlMode.compile docsHtml (st ++ q%".tmpl") = some [.text a, .act .text (.call .render [.field .dot .content []]), .text z])
    (hx : RenderedAs docsHtml S h (.styled st b c ps) x) : ∃ t, RenderedAs docsHtml S h c t ∧ x = a ++ t ++ z := by
  obtain ⟨n, e⟩ := rendered_styled hx hn
  rw [exec_wrap rfl] at e
  obtain ⟨t, e1, rfl⟩ := Res.ok_of_map e
  exact ⟨t, ⟨n, e1⟩, rfl⟩

/-- **C103**: a definition is shown as its thumbnail, which begins with an anchor named like the function, so that references to it lead there, and then
has the parts of the signature, each as it is shown by itself and in their order; and below it what was written about the function. -/
theorem C103_definition {S : Site} {h : Heap} {fn : Str} {loc : Location} {title content : Content} {cs : List Content} {ps : List (Str × Content)} {x : Str}
    (hx : RenderedAs docsHtml S h (.styled q%"definition" false content [(q%"Thumb",
      .seq [.target fn loc title content, .styled q%"code-flow" false (.seq cs) ps])]) x) :
    ∃ (xs : List Str) (t : Str), RenderedEach S h cs xs ∧ RenderedAs docsHtml S h content t ∧
      x = q%"<div class=\"definition\">\n  <pre class=\"definition-thumb\"><a id=\"" ++ escAttr fn ++ q%"\"></a><code class=\"highlight\">" ++ xs.flatten ++
        q%"</code></pre>\n\n  <div class=\"definition-content\">\n    " ++ t ++ q%"\n  </div>\n</div>" := by
  obtain ⟨n, e⟩ := rendered_styled hx d_definition_is
  rw [exec_definition rfl] at e
  obtain ⟨u, e1, e2⟩ := Res.ok_of_bind e
  obtain ⟨t, e3, rfl⟩ := Res.ok_of_map e2
  obtain ⟨a, b, ra, rb, rfl⟩ := rendered_two ⟨n, e1⟩
  obtain ⟨w, rw', rfl⟩ := rendered_wrap d_codeFlow_is rb
  obtain ⟨xs, hxs, rfl⟩ := rendered_seq rw'
  rw [rendered_target ra]
  exact ⟨xs, t, hxs, ⟨n, e3⟩, by simp⟩

/-- **C103**: code shown with `\lit-syntax` is a block in a block, or code in code within a line; in it are its pieces, each as it is
shown by itself and in their order. -/
theorem C103_code {S : Site} {h : Heap} {flow b : Bool} {cs : List Content} {ps : List (Str × Content)} {x : Str}
    (hx : RenderedAs docsHtml S h (.styled (if flow then q%"lit-flow" else q%"lit-block") false
      (.styled (if flow then q%"code-flow" else q%"code-block") b (.seq cs) ps) []) x) :
    ∃ xs : List Str, RenderedEach S h cs xs ∧
      x = if flow then q%"<code class=\"highlight\"><code class=\"highlight\">" ++ xs.flatten ++ q%"</code></code>"
        else q%"<div class=\"lit-syntax\"><div class=\"highlight\">" ++ xs.flatten ++ q%"</div></div>" := by
  cases flow with
  | true =>
    obtain ⟨t, rt, rfl⟩ := rendered_wrap d_litFlow_is hx
    obtain ⟨u, ru, rfl⟩ := rendered_wrap d_codeFlow_is rt
    obtain ⟨xs, hxs, rfl⟩ := rendered_seq ru
    exact ⟨xs, hxs, by simp⟩
  | false =>
    obtain ⟨t, rt, rfl⟩ := rendered_wrap d_litBlock_is hx
    obtain ⟨u, ru, rfl⟩ := rendered_wrap d_codeBlock_is rt
    obtain ⟨xs, hxs, rfl⟩ := rendered_seq ru
    exact ⟨xs, hxs, by simp⟩

/-- **C103**: of the pieces, what the highlighter made is there to the letter, -/
theorem C103_raw {S : Site} {h : Heap} {p : Piece} {x : Str} (hx : RenderedAs docsHtml S h (rawPart p) x) : x = p.text := by
  obtain ⟨n, e⟩ := rendered_styled hx d_rawhtml_is
  rw [exec_rawhtml] at e
  have ht : ∀ b k, h.text b k (.styled q%"raw-html" false (.str p.text) []) = .ok p.text := by intro b k; cases k <;> rfl
  have e' : (h.text S.brokenOk n (.styled q%"raw-html" false (.str p.text) [])).recover = .ok x := e
  rw [ht] at e'
  cases e'
  rfl

/-- an argument is in braces and in italics, escaped as text, -/
theorem C103_arg {S : Site} {h : Heap} {arg x : Str} (hx : RenderedAs docsHtml S h (argPart ⟨true, '{' :: arg ++ ['}']⟩) x) :
    x = q%"{<em>" ++ escText arg ++ q%"</em>}" := by
  obtain ⟨xs, ⟨hl, hj⟩, rfl⟩ := rendered_seq hx
  obtain ⟨s, h1, r1⟩ := hj 0 _ rfl
  obtain ⟨t, h2, r2⟩ := hj 1 _ rfl
  obtain ⟨u, h3, r3⟩ := hj 2 _ rfl
  rcases xs with _ | ⟨_, _ | ⟨_, _ | ⟨_, _ | ⟨_, xs⟩⟩⟩⟩ <;> simp at hl
  cases h1
  cases h2
  cases h3
  obtain ⟨w, rw', rfl⟩ := rendered_wrap d_italic_is r2
  have ea : (('{' :: arg ++ ['}']).drop 1).dropLast = arg := by
    show (arg ++ ['}']).dropLast = arg
    rw [List.dropLast_concat]
  simp only [ea] at rw'
  rw [rendered_str r1, rendered_str r3, rendered_str rw']
  rw [show escText ['{'] = ['{'] from by decide, show escText ['}'] = ['}'] from by decide]
  simp

/-- and a call is a backslash and the reference. -/
theorem C103_call {S : Site} {h : Heap} {i : Nat} {p : Piece} {x : Str} (hx : RenderedAs docsHtml S h (callPart i p) x) :
    ∃ t, RenderedAs docsHtml S h (.ref i p.text.tail (.str p.text.tail) true Location.zero) t ∧ x = '\\' :: t := by
  obtain ⟨s, t, r1, r2, rfl⟩ := rendered_two hx
  rw [rendered_str r1, show escText ['\\'] = ['\\'] from by decide]
  exact ⟨t, r2, rfl⟩

/-- How a reference by name is rendered, with enough fuel. -/
theorem rendered_ref {S : Site} {h : Heap} {i : Nat} {name : Str} {c : Content} {o : Bool} {l : Location} {x : Str}
    (hx : RenderedAs docsHtml S h (.ref i name c o l) x) (N : Nat) :
    ∃ n, N ≤ n ∧ (Heap.tagOf S h n i name o l).bind (fun
      | some g => (Heap.tagURL h htmlExt n g).bind fun u =>
        match stripAux (if c.isNil then g.title else c) with
        | none => tmplErr
        | some d => (run htmlMode (htmlMode.compile docsHtml) S h n (.content d)).map fun x => q%"<a href=\"" ++ escURL u ++ q%"\">" ++ x ++ q%"</a>"
      | none =>
        match stripAux c with
        | none => tmplErr
        | some d => run htmlMode (htmlMode.compile docsHtml) S h n (.content d)) = .ok x := by
  obtain ⟨n, hx⟩ := hx
  have hm : run htmlMode (htmlMode.compile docsHtml) S h (n + N + 2) (.content (.ref i name c o l)) = .ok x := by
    rcases run_le (show n ≤ n + N + 2 by omega) (.content (.ref i name c o l)) with e | e
    · rw [hx] at e; cases e
    · rw [← e]; exact hx
  refine ⟨n + N, by omega, ?_⟩
  rw [run] at hm
  dsimp only [Content.visit] at hm
  rw [run, show q%"reference" ++ q%".tmpl" = q%"reference.tmpl" from rfl, d_reference_is] at hm
  dsimp only at hm
  rw [exec_reference rfl] at hm
  exact hm

/-- **C103**: on the site, a call of something that is tagged in the book is a link to where the book documents it, and other calls are shown as they
are. (The name is not tagged twice.) -/
theorem C103_link {h : Heap} {t : Tree} (b : Book h t) (own : ∀ j ∈ t.ids, ∀ g ∈ (h.get j).tags, g.sec = some j) {S : Site} {i : Nat}
    (hi : i ∈ t.ids) {p : Piece} (hp : p.hit = true) (hc : ∃ r, CallHit p.text r) (hg : (t.tagsNamed h p.text.tail).length ≤ 1) {x : Str}
    (hx : RenderedAs docsHtml S h (callPart i p) x) : ShowsPiece h t p x := by
  obtain ⟨y, ry, rfl⟩ := C103_call hx
  obtain ⟨r, name, e, hne, ha, _⟩ := hc
  obtain ⟨hit, text⟩ := p
  cases hp
  cases e
  simp only [List.tail_cons] at hg ry
  obtain ⟨z, hz, rfl⟩ := Tree.mem_ids.1 hi
  obtain ⟨r, hr, hm⟩ := C22_references b z hz name true
  have hesc : escText name = name := Ms.escText_same fun c hc => fnChar_esc (ha c hc)
  have hstr : ∀ {x}, RenderedAs docsHtml S h (.str name) x → x = name := fun r => (rendered_str r).trans hesc
  match hgs : t.tagsNamed h name, hm with
  | [], hm =>
    obtain ⟨N, hN⟩ := hr
    obtain ⟨n, hle, e⟩ := rendered_ref ry N
    have e1 : h.refTag n S.brokenOk z.root name true Location.zero = some .nothing := by
      rw [Heap.refTag, show h.resolve n z.root name true = _ from hN n hle, hm]
      cases S.brokenOk <;> rfl
    rw [Heap.tagOf, e1] at e
    have e2 : y = name := hstr ⟨n, e⟩
    rw [ShowsPiece, if_pos rfl, List.tail_cons, hgs, e2]
  | [g], hm =>
    subst hm
    obtain ⟨-, j, hj, hgm⟩ := Ms.mem_tagsNamed (hgs ▸ List.mem_singleton.2 rfl : g ∈ t.tagsNamed h name)
    obtain ⟨u, hu⟩ := url_in b hj g.anchor
    obtain ⟨N1, h1⟩ := hr
    have hu' := hu
    obtain ⟨N2, h2⟩ := hu
    obtain ⟨n, hle, e⟩ := rendered_ref ry (N1 + N2)
    have e1 : h.refTag n S.brokenOk z.root name true Location.zero = some (.tag g) := by
      rw [Heap.refTag, show h.resolve n z.root name true = _ from h1 n (by omega)]
      cases S.brokenOk <;> rfl
    have e2 : h.sectionURL htmlExt n j g.anchor = some u := h2 n (by omega)
    have e3 : Heap.tagURL h htmlExt n g = .ok u := by rw [Heap.tagURL, own j hj g hgm]; simp only [e2, Res.ofFuel]
    rw [Heap.tagOf, e1] at e
    simp only [Res.bind, e3] at e
    obtain ⟨w, e4, rfl⟩ := Res.ok_of_map (show (run htmlMode (htmlMode.compile docsHtml) S h n (.content (.str name))).map _ = _ from e)
    have e5 : w = name := hstr ⟨n, e4⟩
    rw [ShowsPiece, if_pos rfl, List.tail_cons, hgs, e5]
    exact ⟨j, u, own j hj g hgm, hu', rfl⟩
  | _ :: _ :: _, _ => rw [hgs] at hg; simp at hg

/-- One text for each piece. -/
theorem each_of_rendered {S : Site} {h : Heap} {f : Piece → Content} {R : Piece → Str → Prop} : ∀ {ps : List Piece} {xs : List Str},
    (∀ p ∈ ps, ∀ x, RenderedAs docsHtml S h (f p) x → R p x) → RenderedEach S h (ps.map f) xs → Each R ps xs
  | [], xs, _, ⟨hl, _⟩ => by
    cases xs with
    | nil => exact .nil
    | cons _ _ => simp at hl
  | p :: ps, xs, hR, ⟨hl, hj⟩ => by
    cases xs with
    | nil => simp at hl
    | cons x xs =>
      obtain ⟨y, h1, r1⟩ := hj 0 (f p) rfl
      cases h1
      exact .cons (hR p List.mem_cons_self x r1) (each_of_rendered (fun q hq => hR q (List.mem_cons_of_mem _ hq))
        ⟨by simpa using hl, fun j c e => hj (j + 1) c e⟩)

/-- Where the hits stand in the text. -/
theorem Cut.at {hit : Str → Str → Prop} {s : Str} {ps : List Piece} (h : Cut hit s ps) : ∀ p ∈ ps, p.hit = true → ∃ u r, s = u ++ p.text ++ r ∧ hit p.text r := by
  induction h with
  | done => intro p hp; cases hp
  | hit hh _ ih =>
    intro p hp ht
    rcases List.mem_cons.1 hp with rfl | hp
    · exact ⟨[], _, rfl, hh⟩
    · obtain ⟨u, r, e, h2⟩ := ih p hp ht
      rw [e]
      exact ⟨_, r, by rw [← List.append_assoc, ← List.append_assoc], h2⟩
  | keep _ _ _ ih =>
    intro p hp ht
    rcases List.mem_cons.1 hp with rfl | hp
    · cases ht
    · obtain ⟨u, r, e, h2⟩ := ih p hp ht
      rw [e]
      exact ⟨_, r, by rw [← List.append_assoc, ← List.append_assoc], h2⟩

/-- **C103**: so on the site code is the highlighter's output in which every call of something that is tagged in the book is a link to where the
book documents it, with everything else unchanged. (No called name is tagged twice.) -/
theorem C103_site {h : Heap} {t : Tree} (b : Book h t) (own : ∀ j ∈ t.ids, ∀ g ∈ (h.get j).tags, g.sec = some j) {S : Site} {i : Nat} (hi : i ∈ t.ids)
    {brokenOk : Bool} {k : Nat} {highlight : Str → Str → Bool → Option Str} {code c : Content} {text html x : Str} {flow : Bool}
    (h1 : h.text brokenOk k code = .ok text) (h2 : isFlow code = some flow) (h3 : highlight q%"lit" text flow = some html)
    (hl : litSyntax h brokenOk k highlight i code = .ok c) 
    (hg : ∀ name u r, html = u ++ ('\\' :: name) ++ r → CallHit ('\\' :: name) r → (t.tagsNamed h name).length ≤ 1) (hx : RenderedAs docsHtml S h c x) :
    ∃ ps xs, Cut CallHit html ps ∧ Each (ShowsPiece h t) ps xs ∧
      x = if flow then q%"<code class=\"highlight\"><code class=\"highlight\">" ++ xs.flatten ++ q%"</code></code>"
        else q%"<div class=\"lit-syntax\"><div class=\"highlight\">" ++ xs.flatten ++ q%"</div></div>" := by
  obtain ⟨ps, hc, -, e⟩ := C103_lit h brokenOk k highlight i code text html flow h1 h2 h3
  rw [hl] at e
  cases e
  obtain ⟨xs, hxs, rfl⟩ := C103_code hx
  refine ⟨ps, xs, hc, each_of_rendered (fun p hp x hx => ?_) hxs, rfl⟩
  cases hh : p.hit with
  | true =>
    rw [hh] at hx
    obtain ⟨u, r, e, hr⟩ := Cut.at hc p hp hh
    have hr' := hr
    obtain ⟨name, hn, -⟩ := hr'
    refine C103_link b own hi hh ⟨r, hr⟩ ?_ hx
    rw [hn] at e hr ⊢
    exact hg name u r e hr
  | false =>
    rw [hh] at hx
    rw [ShowsPiece, hh]
    exact C103_raw hx

/-- The arguments of a signature are taken from the output of the highlighter, in which they are escaped, and then escaped as text: one with an
ampersand is not shown as it is written. -/
theorem C103_arg_twice : RenderedAs docsHtml ⟨false, fun _ => none⟩ [] (argPart ⟨true, q%"{" ++ escText q%"a&b" ++ q%"}"⟩) q%"{<em>a&amp;amp;b</em>}" ∧
    escText q%"a&b" = q%"a&amp;b" := ⟨⟨8, ok_of_text (by decide +kernel)⟩, by decide +kernel⟩

/-- A definition that is rendered. -/
example : RenderedAs docsHtml ⟨false, fun _ => none⟩ [Sec.fresh none q%"x.lit"] (.styled q%"definition" false (.str q%"About & so") [(q%"Thumb",
      .seq [.target q%"foo" Location.zero .nil (.str q%"About & so"), .styled q%"code-flow" false (.seq [callPart 0 ⟨true, q%"\\foo"⟩, argPart ⟨true, q%"{x}"⟩]) []])])
    (q%"<div class=\"definition\">\n  <pre class=\"definition-thumb\"><a id=\"foo\"></a><code class=\"highlight\">\\foo{<em>x</em>}</code></pre>\n\n  <div class=\"definition-content\">\n    " ++
      q%"About &amp; so\n  </div>\n</div>") := ⟨24, ok_of_text (by decide +kernel)⟩

/-- Code that is rendered. -/
example : RenderedAs docsHtml ⟨false, fun _ => none⟩ [] (.styled q%"lit-block" false
      (.styled q%"code-block" true (.seq [rawPart ⟨false, q%"<pre>"⟩, rawPart ⟨false, q%"x</pre>"⟩]) [(q%"Language", .str q%"lit")]) [])
    q%"<div class=\"lit-syntax\"><div class=\"highlight\"><pre>x</pre></div></div>" := ⟨12, ok_of_text (by decide +kernel)⟩

/-- A page with code in it, in a book in which one of the calls is documented. -/
def shownCode : Res Content := litSyntax codeHeap false 5 (fun _ t _ => some (q%"<b>" ++ t ++ q%"</b>")) 3 (.str q%"\\e{x}\\zz")

example : (∀ j ∈ sampleTree.ids, ∀ g ∈ (codeHeap.get j).tags, g.sec = some j) ∧ 3 ∈ sampleTree.ids ∧ isFlow (.str q%"\\e{x}\\zz") = some true ∧
    (match shownCode with
    | .ok c => Res.text (run htmlMode (htmlMode.compile docsHtml) ⟨false, fun _ => none⟩ codeHeap 30 (.content c)) ==
        some q%"<code class=\"highlight\"><code class=\"highlight\"><b>\\<a href=\"e.html\">e</a>{x}\\zz</b></code></code>"
    | _ => false) = true := ⟨by decide, by decide, rfl, by decide +kernel⟩

end Booklit.Props
