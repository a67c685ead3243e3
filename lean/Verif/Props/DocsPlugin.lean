import Verif.Lemmas.DocsPluginL
import Verif.Props.DocsSite

/-!
C98: how what the plugin of Booklit's documentation makes is shown on the site.
-/

set_option maxRecDepth 100000

namespace Booklit.Props

open Booklit Booklit.Tmpl Booklit.Templates

/-- A method of the plugin, called with these values, makes content that is shown in this way, and that is flow or block. -/
def Makes (f : Foreign) (vals : List Raw) (flow : Option Bool) (P : Site → Heap → Str → Prop) : Prop :=
  ∀ h i, ∃ c, (f.run h i vals = .content c ∨ f.run h i vals = .both c none) ∧ isFlow c = flow ∧ ∀ S h x, RenderedAs docsHtml S h c x → P S h x

/-- The templates that styled content is rendered with. -/
theorem rendered_styled {ts : TSet} {S : Site} {h : Heap} {st : Str} {b : Bool} {c : Content} {ps : List (Str × Content)} {x : Str}
    (hx : RenderedAs ts S h (.styled st b c ps) x) {ns : List TNode} (hn : htmlMode.compile ts (st ++ q%".tmpl") = some ns) :
    ∃ n, execL (envOf htmlMode S h n (run htmlMode (htmlMode.compile ts) S h n)) (.content (.styled st b c ps)) (.content (.styled st b c ps)) [] ns = .ok x := by
  obtain ⟨n, hx⟩ := hx
  rcases n with _ | _ | n
  · cases hx
  · cases hx
  · rw [run] at hx
    dsimp only [Content.visit] at hx
    rw [run, hn] at hx
    exact ⟨n, hx⟩

/-- What came out. -/
def Res.text : Res Str → Option Str
  | .ok x => some x
  | _ => none

theorem ok_of_text {r : Res Str} {x : Str} (h : Res.text r = some x) : r = .ok x := by
  cases r <;> simp [Res.text] at h
  rw [h]

theorem rendered_str {S : Site} {h : Heap} {s x : Str} (hx : RenderedAs docsHtml S h (.str s) x) : x = escText s := by
  obtain ⟨n, hx⟩ := hx
  rcases n with _ | _ | n
  · cases hx
  · cases hx
  · rw [run] at hx
    dsimp only [Content.visit] at hx
    rw [run, show q%"string" ++ q%".tmpl" = q%"string.tmpl" from rfl, d_string_is] at hx
    dsimp only at hx
    have ht : (envOf htmlMode S h n (run htmlMode (htmlMode.compile docsHtml) S h n)).text (.str s) = .ok s := by
      cases n <;> rfl
    rw [exec_string _ ht] at hx
    cases hx
    rfl

theorem rendered_all {ts : TSet} {S : Site} {h : Heap} {n : Nat} : ∀ {cs : List Content} {xs : List Str},
    resMap (fun c => run htmlMode (htmlMode.compile ts) S h n (.content c)) cs = .ok xs →
      xs.length = cs.length ∧ ∀ (j : Nat) (c : Content), cs[j]? = some c → ∃ x, xs[j]? = some x ∧ RenderedAs ts S h c x := by
  intro cs
  induction cs with
  | nil => intro xs e; cases e; exact ⟨rfl, fun j c e => by cases e⟩
  | cons c cs ih =>
    intro xs e
    rw [resMap] at e
    obtain ⟨x, e1, e2⟩ := Res.ok_of_bind e
    obtain ⟨ys, e3, rfl⟩ := Res.ok_of_map e2
    obtain ⟨h1, h2⟩ := ih e3
    refine ⟨by simp [h1], fun j d hd => ?_⟩
    cases j with
    | zero => cases hd; exact ⟨x, rfl, n, e1⟩
    | succ j => exact h2 j d hd

/-- **C98**: a frame is an `iframe` whose address is the one given, escaped as text and as an address. -/
theorem C98_frame (u : Str) : Makes outputFrame [.str u] (some true) fun _ _ x =>
    x = q%"<iframe class=\"output-frame\" scrolling=\"no\" src=\"" ++ escURL (escText u) ++ q%"\"></iframe>" := by
  refine fun _ _ => ⟨_, .inl rfl, rfl, fun S h x hx => ?_⟩
  obtain ⟨n, e⟩ := rendered_styled hx d_frame_is
  rw [exec_frame rfl] at e
  obtain ⟨t, e1, rfl⟩ := Res.ok_of_map e
  rw [rendered_str ⟨n, e1⟩]

/-- The address of a frame is escaped twice, as the template has it rendered as text first: one with an ampersand leads elsewhere. -/
theorem C98_frame_twice : RenderedAs docsHtml ⟨false, fun _ => none⟩ [] (.styled q%"output-frame" false (.link (.str q%"a?b&c") q%"a?b&c") [(q%"URL", .str q%"a?b&c")])
      q%"<iframe class=\"output-frame\" scrolling=\"no\" src=\"a?b&amp;amp;c\"></iframe>" ∧
    escURL q%"a?b&c" = q%"a?b&amp;c" := ⟨⟨6, ok_of_text (by decide +kernel)⟩, by decide +kernel⟩

/-- **C98**: highlighted text is flow if it was, a header of columns is a block, and both are shown inside an element of their class. -/
theorem C98_wraps (d : Content) :
    (Makes syntaxHl [.content d] (isFlow d) fun S h x => ∃ t, RenderedAs docsHtml S h d t ∧ x = q%"<span class=\"syntax-hl\">" ++ t ++ q%"</span>") ∧
    (Makes columnHeader [.content d] (some false) fun S h x => ∃ t, RenderedAs docsHtml S h d t ∧ x = q%"<div class=\"column-header\">" ++ t ++ q%"</div>") := by
  refine ⟨fun _ _ => ⟨_, .inl rfl, rfl, fun S h x hx => ?_⟩, fun _ _ => ⟨_, .inl rfl, rfl, fun S h x hx => ?_⟩⟩
  · obtain ⟨n, e⟩ := rendered_styled hx d_hl_is
    rw [d_hl, exec_wrap rfl] at e
    obtain ⟨t, e1, rfl⟩ := Res.ok_of_map e
    exact ⟨t, ⟨n, e1⟩, rfl⟩
  · obtain ⟨n, e⟩ := rendered_styled hx d_header_is
    rw [d_header, exec_wrap rfl] at e
    obtain ⟨t, e1, rfl⟩ := Res.ok_of_map e
    exact ⟨t, ⟨n, e1⟩, rfl⟩

theorem contents_map (cs : List Content) : Raw.contents (cs.map .content) = cs := by
  induction cs with
  | nil => rfl
  | cons c cs ih => rw [List.map_cons, Raw.contents, ih]

/-- **C98**: columns are a block with the first argument as title and one column for each of the others, in their order. -/
theorem C98_columns (title : Content) (cs : List Content) : Makes columns (.content title :: cs.map .content) (some false) fun S h x =>
    ∃ (t : Str) (ts : List Str), RenderedAs docsHtml S h title t ∧ ts.length = cs.length ∧
      (∀ (j : Nat) (c : Content), cs[j]? = some c → ∃ y, ts[j]? = some y ∧ RenderedAs docsHtml S h c y) ∧
      x = q%"<div class=\"columns\">\n  <div class=\"column title\">" ++ t ++ q%"</div>\n  " ++
        ts.flatMap (fun t => q%"\n  <div class=\"column\">" ++ t ++ q%"</div>\n  ") ++ q%"\n</div>" := by
  refine fun _ _ => ⟨_, .inl rfl, rfl, fun S h x hx => ?_⟩
  rw [contents_map] at hx
  obtain ⟨n, e⟩ := rendered_styled hx d_columns_is
  rw [exec_columns rfl] at e
  obtain ⟨t, e1, e2⟩ := Res.ok_of_bind e
  obtain ⟨ts, e3, rfl⟩ := Res.ok_of_map e2
  obtain ⟨h1, h2⟩ := rendered_all e3
  exact ⟨t, ts, ⟨n, e1⟩, h1, h2, rfl⟩

/-- **C98**: a link to a template shows its name as code and leads to its source. -/
theorem C98_template_link (f : Str) : Makes templateLink [.str f] (some true) fun _ _ x =>
    x = q%"<a href=\"" ++ escURL (q%"https://github.com/vito/booklit/blob/master/render/html/" ++ f) ++ q%"\"><code>" ++ escText f ++ q%"</code></a>" := by
  refine fun _ _ => ⟨_, .inr rfl, rfl, fun S h x hx => ?_⟩
  obtain ⟨n, hx⟩ := hx
  rcases n with _ | _ | n
  · cases hx
  · cases hx
  · rw [run] at hx
    dsimp only [Content.visit] at hx
    rw [run, show q%"link" ++ q%".tmpl" = q%"link.tmpl" from rfl, d_link_is] at hx
    dsimp only at hx
    rw [exec_link rfl] at hx
    obtain ⟨t, e1, rfl⟩ := Res.ok_of_map hx
    obtain ⟨m, e2⟩ := rendered_styled (ts := docsHtml) ⟨n, e1⟩ d_verbatim_is
    rw [exec_verbatim rfl, if_neg (by decide), show isFlow (.str f) = some true from rfl] at e2
    obtain ⟨y, e3, rfl⟩ := Res.ok_of_map e2
    rw [rendered_str ⟨m, e3⟩]
    simp

/-- **C98**: only sections that use the plugin find its methods. -/
theorem C98_asked {fs : Str → Option FileInfo} {brokenOk : Bool} {name : Str} {f : Foreign} : ∀ {ps : List Nat},
    findMethod ⟨fs, docsRegistry, docsForeign, brokenOk⟩ name ps = some (.foreign f) → ∃ p, p ∈ ps ∧ docsRegistry q%"booklitdoc" = some p
  | [], h => by cases h
  | p :: ps, h => by
    rw [findMethod] at h
    rcases p with _ | _ | p
    · simp only [methodOf] at h
      cases hl : baseMethods.lookup name with
      | none => rw [hl] at h; obtain ⟨p, h1, h2⟩ := C98_asked h; exact ⟨p, .tail _ h1, h2⟩
      | some c => rw [hl] at h; cases h
    · exact ⟨1, .head _, rfl⟩
    · obtain ⟨p, h1, h2⟩ := C98_asked (ps := ps) (by simpa [methodOf, docsForeign] using h)
      exact ⟨p, .tail _ h1, h2⟩

theorem finds {fs : Str → Option FileInfo} {brokenOk : Bool} {name : Str} {f : Foreign} (h0 : baseMethods.lookup name = none)
    (h1 : docsMethods.lookup name = some f) : ∀ {ps : List Nat}, 1 ∈ ps →
      findMethod ⟨fs, docsRegistry, docsForeign, brokenOk⟩ name ps = some (.foreign f)
  | [], h => by cases h
  | 0 :: ps, h => by
    have hm : 1 ∈ ps := by simpa using h
    simp only [findMethod, methodOf, h0, Option.map_none]
    exact finds h0 h1 hm
  | 1 :: ps, _ => by simp only [findMethod, methodOf, docsForeign, if_true, h1, Option.map_some]
  | (p + 2) :: ps, h => by
    have hm : 1 ∈ ps := by simpa using h
    have hp : ¬ p + 2 = 1 := by omega
    simp only [findMethod, methodOf, docsForeign, if_neg hp, Option.map_none]
    exact finds h0 h1 hm

/-- **C98**: in a section that uses the plugin, whichever others it uses before or after it, the functions of the documentation are called by these names. -/
theorem C98_called (fs : Str → Option FileInfo) (brokenOk : Bool) {ps : List Nat} (hp : 1 ∈ ps) : ∀ p ∈
    [(q%"output-frame", outputFrame), (q%"syntax-hl", syntaxHl), (q%"column-header", columnHeader), (q%"columns", columns),
      (q%"template-link", templateLink), (q%"describe-fruit", describeFruit)],
    findMethod ⟨fs, docsRegistry, docsForeign, brokenOk⟩ (methodName p.1) ps = some (.foreign p.2) := by
  intro p hm
  simp only [List.mem_cons, List.not_mem_nil, or_false] at hm
  rcases hm with rfl | rfl | rfl | rfl | rfl | rfl <;> exact finds (by decide) rfl hp

example : 1 ∈ [1, 0] := by decide

/-- **C98**: `use-plugin` finds the plugin of the documentation and the basic one under their names, and no other. -/
theorem C98_registry (name : Str) (p : Nat) :
    docsRegistry name = some p ↔ (name = q%"booklitdoc" ∧ p = 1) ∨ (name = q%"baselit" ∧ p = 0) := by
  have hne : ¬ q%"baselit" = q%"booklitdoc" := by decide
  by_cases h1 : name = q%"booklitdoc"
  · rw [docsRegistry, if_pos h1]
    constructor
    · intro h; cases h; exact .inl ⟨h1, rfl⟩
    · rintro (⟨_, rfl⟩ | ⟨h2, _⟩)
      · rfl
      · exact absurd (h2.symm.trans h1) hne
  · rw [docsRegistry, if_neg h1]
    by_cases h2 : name = q%"baselit"
    · rw [if_pos h2]
      constructor
      · intro h; cases h; exact .inr ⟨h2, rfl⟩
      · rintro (⟨h, _⟩ | ⟨_, rfl⟩)
        · exact absurd h h1
        · rfl
    · rw [if_neg h2]
      constructor
      · intro h; cases h
      · rintro (⟨h, _⟩ | ⟨h, _⟩)
        · exact absurd h h1
        · exact absurd h h2

/-- All of this together, as it is shown: columns with a header, a link to a template and highlighted text. -/
example : RenderedAs docsHtml ⟨false, fun _ => none⟩ []
    (.styled q%"columns" true (.styled q%"column-header" true (.str q%"A & B") [])
      [(q%"Columns", .seq [.styled q%"syntax-hl" false (.str q%"x < y") [],
        .link (.styled q%"verbatim" false (.str q%"toc.tmpl") []) q%"https://github.com/vito/booklit/blob/master/render/html/toc.tmpl"])])
    q%"<div class=\"columns\">\n  <div class=\"column title\"><div class=\"column-header\">A &amp; B</div></div>\n  \n  <div class=\"column\"><span class=\"syntax-hl\">x &lt; y</span></div>\n  \n  <div class=\"column\"><a href=\"https://github.com/vito/booklit/blob/master/render/html/toc.tmpl\"><code>toc.tmpl</code></a></div>\n  \n</div>" :=
  ⟨12, ok_of_text (by decide +kernel)⟩

end Booklit.Props
