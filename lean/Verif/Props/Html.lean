import Verif.Props.Section
import Verif.Props.Load
import Verif.Props.Collect
import Verif.Props.Output
import Verif.Props.Origin
import Verif.Lemmas.LinksL

/-!
C52 and C65: what the pages are like. Texts come through, markup is harmless, links lead somewhere.
-/

namespace Booklit.Props

open Booklit Tree

/-! ### C52 -/

/-- **C52, partial**: the rendering of a text has no markup characters except in character references, and reading it,
wherever it stands, gives the text back. Missing compared with C52: the text must not have a NUL, see `C52_false`. -/
theorem C52_text_partial {s : Str} (h0 : '\x00' ∉ s) {u v : Str} {a b : List Dom} (hu : readHtml u = some a)
    (hv : readHtml v = some b) :
    readHtml (u ++ escText s ++ v) = some (a ++ chars s ++ b) ∧ ∀ c ∈ escText s, c ∉ ['<', '>', '"', '\''] := by
  refine ⟨?_, fun c hc => ?_⟩
  · have := ((reads_iff.2 hu).append (Reads.escText s)).append (reads_iff.2 hv)
    have e : s.map arriving = s := by
      refine (List.map_congr_left fun c hc => ?_).trans (List.map_id s)
      have : c ≠ '\x00' := fun e => h0 (e ▸ hc)
      simp [arriving, this]
    rw [e] at this
    exact reads_iff.1 this
  · obtain ⟨x, _, hc⟩ := List.mem_flatMap.1 hc
    unfold escChar at hc
    repeat' split at hc
    all_goals simp only [List.mem_cons, List.not_mem_nil, or_false] at hc ⊢
    all_goals first
      | (rcases hc with rfl | rfl | rfl | rfl | rfl <;> decide)
      | (rcases hc with rfl | rfl | rfl | rfl <;> decide)
      | (subst hc; decide)
      | (subst hc; simp_all)

example : escText q%"<b> & \"c\"" = q%"&lt;b&gt; &amp; &#34;c&#34;" ∧ ('\x00' ∉ q%"<b> & \"c\"") := by decide
example : (readHtml q%"<p>a</p>").isSome = true := by decide

/-- **C52 fails** as stated: a NUL does not come back, a replacement character does. -/
theorem C52_false : readHtml (escText ['\x00']) = some [.char '�'] := rfl

/-- **C52, partial**: the same for attributes, here anchors and links. The link is always safe. -/
theorem C52_attributes_partial (s : Str) (h0 : '\x00' ∉ s) :
    readHtml (q%"<a id=\"" ++ escAttr s ++ q%"\"></a>") = some [.elem q%"a" [(q%"id", s)] []] ∧
    ∀ u, readHtml (q%"<a href=\"" ++ escURL u ++ q%"\"></a>") = some [.elem q%"a" [(q%"href", linkTo u)] []] ∧
      safeLink (linkTo u) = true := by
  refine ⟨?_, fun u => ⟨?_, linkTo_safe u⟩⟩
  · have := Reads.anchor s
    have e : s.map arriving = s := by
      refine (List.map_congr_left fun c hc => ?_).trans (List.map_id s)
      have : c ≠ '\x00' := fun e => h0 (e ▸ hc)
      simp [arriving, this]
    rw [e] at this
    exact reads_iff.1 this
  · have := Reads.link u Reads.nil
    exact reads_iff.1 (by simpa using this)

example : escURL q%"javascript:alert(1)" = q%"#ZgotmplZ" ∧ escURL q%"http://x/a b\"" = q%"http://x/a%20b%22" := by decide

/-- **C52**: whatever is in the sections, as long as none of it is raw HTML, a page that is rendered is well-formed and
harmless: only elements for structure and style, no scripts, no event handlers, links only to web and mail. -/
theorem C52_page {S : Site} {h : Heap} (hh : ∀ i, ∀ c ∈ (h.get i).shown, ∀ d ∈ c.parts true, d.noRaw = true)
    (hS : ∀ i c, S.force i = some c → ∀ d ∈ c.parts true, d.noRaw = true) {n i : Nat} {txt : Str}
    (hp : h.page S n i = .ok txt) : ∃ ds, readHtml txt = some ds ∧ Harmless ds := by
  have H : ShownOk Content.noRaw S h := shownOk_of (fun i c hc => (all_iff c).2 (hh i c hc))
    (fun b i c _ e => (all_iff c).2 (hS i c e)) (fun _ => rfl) (fun _ => rfl) noRaw_strip
  have hraw : ∀ n st b c ps, st = q%"raw-html" → (Content.styled st b c ps).all Content.noRaw = true →
      RSim Reads (h.text S.brokenOk n c) (tmplErr : Res (List Dom)) := by
    intro n st b c ps e hc
    rw [Content.all, Bool.and_eq_true, Bool.and_eq_true] at hc
    simp [Content.noRaw, e] at hc
  obtain ⟨title, t, _, h2, h3⟩ := page_ok (raw := fun _ => tmplErr) H hraw hp
  refine ⟨_, h3, (page_harmless made_plain ?_).harmless⟩
  have := heap_good made_plain (Shows.any S h) (raw := fun _ => tmplErr) (fun _ => trivial) n (.sect i) rfl
  rw [h2] at this
  exact this

/-- **C52**: all pages of all documents, if plugins other than baselit make no raw HTML. -/
theorem C52_documents {W : World} {F : Content → Prop} (hF : W.Makes F) (hm : ∀ c, F c → c.noRaw = true)
    (hfs : W.fs [] = none) {s : St} (hr : Reach W s) {S : Site}
    (hS : ∀ i c, S.force i = some c → ∀ d ∈ c.parts true, d.noRaw = true) {n i : Nat} {txt : Str}
    (hp : s.heap.page S n i = .ok txt) : ∃ ds, readHtml txt = some ds ∧ Harmless ds :=
  C52_page (parts_shown (P := fun _ c => c.noRaw = true) hF hfs hr fun _ _ _ o => o.noRaw hm) hS hp

/-- The page of a loaded text. -/
def pageOf (text : Str) : Option Str :=
  match loadText text with
  | (.ok i, s) =>
    match s.heap.page ⟨false, fun _ => none⟩ 9 i with
    | .ok t => some t
    | _ => none
  | _ => none

example : pageOf q%"\\title{A<b>}{t}\n\n\\italic{x} & \\link{y}{javascript:z}\\target{u}\\reference{u}{v}\n" =
    some q%"<!DOCTYPE html>\n<html>\n  <head>\n    <meta http-equiv=\"content-type\" content=\"text/html; charset=utf-8\" />\n    <title>A&lt;b&gt;</title>\n  </head>\n  <body>\n    <h1 class=\"section-header\"><a id=\"t\"></a>A&lt;b&gt;</h1>\n\n<p><em>x</em> &amp; <a href=\"#ZgotmplZ\">y</a><a id=\"u\"></a><a href=\"t.html#u\">v</a></p>\n\n\n  \n\n  </body>\n</html>" := by
  decide +kernel

/-! ### C65 -/

/-- Names that have no meaning of their own in links. -/
def plainName (s : Str) : Prop := ∀ c ∈ s, c ∉ [':', '#', '?', '%', '\x00']

/-- A link of the book leads to the file of one of its pages, and if it names a place on that page, the name is one of the
known ones and the place is there. -/
def Leads (h : Heap) (S : Site) (ps : List Nat) (known hidden : Str → Prop) (v : Str) : Prop :=
  ∃ o ∈ ps, ∃ frag : Option Str, v = linkTo ((h.get o).primaryTag.name ++ q%".html" ++ (frag.map ('#' :: ·)).getD []) ∧
    (∀ a, frag = some a → hidden a ∨ known a) ∧
    (plainName (h.get o).primaryTag.name → (∀ a, frag = some a → plainName a) →
      whereTo v = some (utf8 ((h.get o).primaryTag.name ++ q%".html"), frag.map utf8)) ∧
    ∀ a, frag = some a → plainName a → ∀ m txt, h.page S m o = .ok txt →
      hidden a ∨ ∃ ds, readHtml txt = some ds ∧ HasAnchor ds a

theorem leads_where {file : Str} {frag : Option Str} (h1 : plainName file) (h2 : ∀ a, frag = some a → plainName a) :
    whereTo (linkTo (file ++ q%".html" ++ (frag.map ('#' :: ·)).getD [])) = some (utf8 (file ++ q%".html"), frag.map utf8) := by
  refine linkTo_where (file := file ++ q%".html") ?_ fun a ha c hc => ?_
  · intro c hc
    rcases List.mem_append.1 hc with hc | hc
    · have := h1 c hc
      simp only [List.mem_cons, List.not_mem_nil, or_false, not_or] at this ⊢
      exact ⟨this.1, this.2.1, this.2.2.1, this.2.2.2.1⟩
    · have key : ∀ c ∈ q%".html", c ∉ [':', '#', '?', '%'] := by decide
      exact key c hc
  · have := h2 a ha c hc
    simp only [List.mem_cons, List.not_mem_nil, or_false, not_or] at this ⊢
    exact ⟨this.1, this.2.2.2.1⟩

/-- **C65, partial**: on every page of a loaded book, every link is one written as a link in the book, or leads to the file
of a page of the book and, if it names a place there, to an anchor on that page. Missing compared with C65: tags with
`:`, `#`, `?`, `%` or NUL in their names (see `C65_false_colon`); with broken references allowed, those lead to the anchor
`broken`; targets inside partials have no anchor with the built-in templates (see `C65_false_partial`). Other plugins may
make anything but raw HTML, partials of their own, references, tables of contents and deferred content. -/
theorem C65_no_dead_links_partial {W : World} {F : Content → Prop} (hF : W.Makes F) (hm : ∀ c, F c → c.modest = true)
    (hsolid : W.SolidPlugins) (hfs : W.fs [] = none) {n : Nat} {path : Str} {plugins : List Nat} {s s' : St} {i : Nat}
    (hr : Reach W s) (h0 : plugins.head? = some 0) (hl : loadFile W n none path plugins s = (.ok i, s')) (S : Site) :
    ∃ t ps, t.root = i ∧ Book s'.heap t ∧ Ends (fun n => s'.heap.written n i) ps ∧
      ∀ o ∈ t.ids, ∀ m txt, s'.heap.page S m o = .ok txt → ∃ ds, readHtml txt = some ds ∧
        ∀ e as ks v, Within (.elem e as ks) ds → (q%"href", v) ∈ as →
          (∃ u ∈ t.links s'.heap, v = linkTo u) ∨
          Leads s'.heap S ps (fun a => ∃ j ∈ t.ids, a = (s'.heap.get j).primaryTag.name ∨ ∃ g ∈ (s'.heap.get j).tags, a = g.anchor)
            (fun a => S.brokenOk = true ∧ a = q%"broken" ∨
            ∃ j ∈ t.ids, ∃ p ∈ (s'.heap.get j).partials, ∃ l x y, .target a l x y ∈ p.2.parts false) v := by
  have hr' : Reach W s' := by
    have := Reach.load n none path plugins hr (by simp) h0
    rw [hl] at this
    exact this
  obtain ⟨t, rfl, b, htags⟩ := C42_targets_become_tags_partial hsolid hr hl
  obtain ⟨ps, hps, hurl⟩ := C24_links_to_pages b
  refine ⟨t, ps, rfl, b, hps, fun o ho m txt hp => ?_⟩
  generalize hh : s'.heap = h at *
  -- the sections of the book
  have kids : ∀ i, i ∈ t.ids → ∀ c ∈ (h.get i).children, c ∈ t.ids := by
    intro i hi c hc
    obtain ⟨u, hu, rfl⟩ := mem_ids.1 hi
    rw [b.children u hu] at hc
    obtain ⟨k, hk, rfl⟩ := List.mem_map.1 hc
    exact mem_ids.2 ⟨k, hu.kid hk, rfl⟩
  have parents : ∀ i p, i ∈ t.ids → (h.get i).parent = some p → p ∈ t.ids := by
    intro i p hi hp
    obtain ⟨u, ⟨ks, hu⟩, rfl⟩ := mem_ids.1 hi
    cases hu with
    | here => rw [b.top] at hp; cases hp
    | @step ks q k _ hq hk =>
      have := b.parent q ⟨_, hq⟩ u (List.mem_of_getElem? hk)
      rw [hp] at this
      cases this
      exact mem_ids.2 ⟨q, ⟨_, hq⟩, rfl⟩
  -- what is in them
  have shown : ∀ i, ∀ c ∈ (h.get i).shown, ∀ d ∈ c.parts true, d.bare = true ∧
      (∀ s t x b l, d = .ref s t x b l → s = i) ∧ (∀ j, d = .toc j → j = i) ∧ (∀ j, d ≠ .sect j) := by
    rw [← hh]
    exact parts_shown hF hfs hr' fun _ _ _ o => o.bare hm
  have H : ShownOk Content.bare S h := shownOk_of (fun i c hc => (all_iff c).2 fun d hd => (shown i c hc d hd).1)
    (fun b i c e _ => by cases e) (fun _ => rfl) (fun _ => rfl) bare_strip
  have hraw : ∀ n st b c ps, st = q%"raw-html" → (Content.styled st b c ps).all Content.bare = true →
      RSim Reads (h.text S.brokenOk n c) (tmplErr : Res (List Dom)) := by
    intro n st b c ps e hc
    rw [Content.all, Bool.and_eq_true, Bool.and_eq_true] at hc
    simp [Content.bare, e] at hc
  have within : ∀ i ∈ t.ids, ∀ c ∈ (h.get i).shown, c.all (Content.within h t) = true := by
    intro i hi c hc
    refine (all_iff c).2 fun d hd => ?_
    obtain ⟨h1, h2, h3, h4⟩ := shown i c hc d hd
    cases d with
    | link x u =>
      simp only [Content.within, List.contains_iff_mem]
      refine List.mem_flatMap.2 ⟨i, hi, List.mem_filterMap.2 ⟨.link x u, List.mem_flatMap.2 ⟨c, hc, hd⟩, rfl⟩⟩
    | ref s' t' x o l =>
      obtain rfl := h2 _ _ _ _ _ rfl
      simpa [Content.within] using hi
    | toc j =>
      obtain rfl := h3 _ rfl
      simpa [Content.within] using hi
    | sect j => exact (h4 j rfl).elim
    | lazy b j => cases h1
    | _ => rfl
  have tagsOf : ∀ j g, g ∈ (h.get j).tags → g.sec = some j := by
    intro j g hg
    by_cases hj : j < h.length
    · rw [← hh] at hg hj
      exact ((C59_tags_of_sections hr' hj).1 g hg).1
    · rw [Heap.get_out hj] at hg
      cases hg
  let L : Str → Prop := fun u => u ∈ t.links h ∨ ∃ g : Tag, ∃ s, t.Sub s ∧ g.sec = some s.root ∧
    (∃ n, h.sectionURL htmlExt n s.root g.anchor = some u) ∧
    (g ∈ (h.get s.root).tags ∨ S.brokenOk = true ∧ g.anchor = q%"broken")
  have shows : Shows (Content.within h t) (· ∈ t.ids) L S h := {
    link := fun c u e => .inl (by simpa [Content.within] using e)
    title := fun i hi => within i hi _ (by simp [Sec.shown])
    body := fun i hi => within i hi _ (by simp [Sec.shown])
    sect := fun i => by simp [Content.within]
    toc := fun i e => by simpa [Content.within] using e
    kids := kids
    primary := fun i hi j n u e1 e2 => by
      obtain ⟨w, hw, rfl⟩ := mem_ids.1 hi
      have : (h.get w.root).primaryTag ∈ (h.get w.root).tags := by
        by_cases hj : w.root < h.length
        · rw [← hh] at hj e1 ⊢
          rcases (C59_tags_of_sections hr' hj).2 with h1 | h1
          · exact h1.1
          · rw [h1.1] at e1; cases e1
        · rw [Heap.get_out hj] at e1
          cases e1
      have hs := tagsOf _ _ this
      rw [e1] at hs
      cases hs
      exact .inr ⟨_, w, hw, e1, ⟨n, e2⟩, .inl this⟩
    ref := fun s1 t1 c o l e n g hg => by
      have hs1 : s1 ∈ t.ids := by simpa [Content.within] using e
      rcases refTag_mem (T := (· ∈ t.ids)) kids parents hs1 hg with ⟨j, hj, hgj⟩ | ⟨hb, rfl⟩
      · have hsec := tagsOf j g hgj
        refine ⟨within j hj _ ?_, fun i u e1 e2 => ?_⟩
        · simp only [Sec.shown, List.mem_cons, List.mem_map]
          exact .inr (.inr ⟨g, hgj, rfl⟩)
        · rw [hsec] at e1
          cases e1
          obtain ⟨w, hw, rfl⟩ := mem_ids.1 hj
          exact .inr ⟨g, w, hw, hsec, ⟨n, e2⟩, .inl hgj⟩
      · refine ⟨rfl, fun i u e1 e2 => ?_⟩
        cases e1
        obtain ⟨w, hw, rfl⟩ := mem_ids.1 hs1
        exact .inr ⟨_, w, hw, rfl, ⟨n, e2⟩, .inr ⟨hb, rfl⟩⟩
    force := fun b i c e _ => by cases e
    strip := within_strip h t }
  -- the page
  obtain ⟨title, x, _, h2, h3⟩ := page_ok (raw := fun _ => tmplErr) H hraw hp
  let Q : Dom → Prop := fun d => ∀ e as ks, d = .elem e as ks → ∀ v, (q%"href", v) ∈ as → ∃ u, L u ∧ v = linkTo u
  have M : Made Q L := {
    char := fun c e as ks h => by cases h
    elem := fun n as ks _ ha e as' ks' h v hv => by cases h; exact ((ha _ hv).2 rfl).elim
    link := fun u ks hu e as ks' h v hv => by
      cases h
      simp only [List.mem_singleton, Prod.mk.injEq, true_and] at hv
      exact ⟨u, hu, hv⟩ }
  have hgood := heap_good M shows (raw := fun _ => tmplErr) (fun _ => trivial) m (.sect o) (by simpa [Content.all, Content.within] using ho)
  rw [h2] at hgood
  refine ⟨_, h3, fun e as ks v hw hv => ?_⟩
  obtain ⟨u, hu, rfl⟩ := page_harmless M hgood _ hw e as ks rfl v hv
  rcases hu with hu | ⟨g, w, hw, hsec, ⟨k, hk⟩, hg⟩
  · exact .inl ⟨u, hu, rfl⟩
  refine .inr ?_
  obtain ⟨o', ho', on, url, hon, hwon, hends, hu'⟩ := hurl w hw htmlExt g hsec
  have : url = u := by
    obtain ⟨N, hN⟩ := hends
    have h1 := hN (max N k) (Nat.le_max_left ..)
    have h2 := sectionURL_mono (Nat.le_max_right N k) hk
    simp only [Heap.url, hsec] at h1
    rw [h1] at h2
    exact Option.some.inj h2
  subst this
  obtain ⟨N, hN⟩ := hon
  have hshown := (shown_in N).1 _ _ (hN N (Nat.le_refl N)) _ hwon
  have anchored : ∀ a : Str, plainName a → a.map arriving = a := by
    intro a ha
    refine (List.map_congr_left fun c hc => ?_).trans (List.map_id a)
    have := ha c hc
    simp only [List.mem_cons, not_or] at this
    simp [arriving, this.2.2.2.2.1]
  by_cases ha : g.anchor = []
  · by_cases hb : o' ≠ w.root ∧ (h.get w.root).primaryTag.name ≠ []
    · have e : url = (h.get o').primaryTag.name ++ q%".html" ++ ((some (h.get w.root).primaryTag.name).map ('#' :: ·)).getD [] := by
        rw [hu']
        simp [ha, hb, htmlExt]
      refine ⟨o', ho', some (h.get w.root).primaryTag.name, by rw [e],
        fun a ea => .inr ⟨w.root, mem_ids.2 ⟨w, hw, rfl⟩, .inl (Option.some.inj ea).symm⟩, fun h1 h2 => by rw [e]; exact leads_where h1 h2, ?_⟩
      · rintro a ea h0 m txt hp
        cases ea
        obtain ⟨title, x, _, h2, h3⟩ := page_ok (raw := fun _ => tmplErr) H hraw hp
        obtain ⟨ks, hk⟩ := (shown_anchors hshown _ _ h2).1
        rw [anchored _ h0] at hk
        exact .inr ⟨_, h3, ks, page_within hk⟩
    · have e : url = (h.get o').primaryTag.name ++ q%".html" ++ ((none : Option Str).map ('#' :: ·)).getD [] := by
        rw [hu']
        simp [ha, hb, htmlExt]
      exact ⟨o', ho', none, by rw [e], (fun _ ea => by cases ea), fun h1 h2 => by rw [e]; exact leads_where h1 h2, by simp⟩
  · have e : url = (h.get o').primaryTag.name ++ q%".html" ++ ((some g.anchor).map ('#' :: ·)).getD [] := by
      rw [hu']
      simp [ha, htmlExt]
    refine ⟨o', ho', some g.anchor, by rw [e], fun a ea => hg.symm.imp (fun hg => .inl ⟨hg.1, by cases ea; exact hg.2⟩)
      (fun hg => ⟨w.root, mem_ids.2 ⟨w, hw, rfl⟩, .inr ⟨g, hg, (Option.some.inj ea).symm⟩⟩), fun h1 h2 => by rw [e]; exact leads_where h1 h2, ?_⟩
    · rintro a ea h0 m txt hp
      cases ea
      rcases hg with hg | hg
      · have hid : w.root ∈ t.ids := mem_ids.2 ⟨w, hw, rfl⟩
        obtain ⟨own, h1, h2⟩ := htags w.root hid
        rw [h2] at hg
        rcases List.mem_append.1 hg with hg | hg
        · exact (ha ((h1 g hg).1)).elim
        · obtain ⟨c, hc, hg⟩ := List.mem_flatMap.1 hg
          obtain ⟨d, hd, hg⟩ := List.mem_filterMap.1 hg
          cases d <;> simp only [Content.anchor, reduceCtorEq, Option.some.injEq] at hg
          rename_i tn tl ta tb
          subst hg
          have surf : ∀ c, c ∈ (h.get w.root).shown → .target tn tl ta tb ∈ c.parts false → .target tn tl ta tb ∈ c.surface := by
            intro c hc hd
            exact target_surface c ((all_iff c).2 fun d hd => (shown _ c hc d hd).1) hd
          simp only [Sec.contents, List.mem_cons, List.mem_map] at hc
          have main : .target tn tl ta tb ∈ (h.get w.root).title.surface ++ (h.get w.root).body.surface →
              ∃ ds, readHtml txt = some ds ∧ HasAnchor ds tn := by
            intro hs
            obtain ⟨title, x, _, h2, h3⟩ := page_ok (raw := fun _ => tmplErr) H hraw hp
            obtain ⟨ks, hk⟩ := (shown_anchors hshown _ _ h2).2 _ _ _ _ hs
            rw [anchored _ h0] at hk
            exact ⟨_, h3, ks, page_within hk⟩
          rcases hc with rfl | rfl | ⟨p, hp', rfl⟩
          · exact .inr (main (List.mem_append_left _ (surf _ (by simp [Sec.shown]) hd)))
          · exact .inr (main (List.mem_append_right _ (surf _ (by simp [Sec.shown]) hd)))
          · exact .inl (.inr ⟨w.root, hid, p, hp', tl, ta, tb, hd⟩)
      · exact .inl (.inl hg)

/-- The hypotheses hold when there is only baselit. -/
example (text : Str) : (plainFile text).Makes (fun _ => False) ∧ (plainFile text).SolidPlugins ∧ (plainFile text).fs [] = none :=
  ⟨fun _ _ _ h => by simp [plainFile, plainFiles] at h, fun _ _ _ h => by simp [plainFile, plainFiles] at h, rfl⟩

/-- A book of two pages: the number of its sections, and the page of the second section. -/
example : (match loadFile (plainFile q%"\\title{A}{t}\n\n\\split-sections\n\n\\target{u}\n\n\\section{\\title{B}\n\n\\reference{u}{x} \\reference{b}\n}\n") 5 none
      q%"x.lit" [0] ⟨[], []⟩ with
    | (.ok i, s) => match s.heap.page ⟨false, fun _ => none⟩ 9 1 with
      | .ok t => i == 0 && s.heap.length == 2 && t == q%"<!DOCTYPE html>\n<html>\n  <head>\n    <meta http-equiv=\"content-type\" content=\"text/html; charset=utf-8\" />\n    <title>B</title>\n  </head>\n  <body>\n    <h1 class=\"section-header\"><a id=\"b\"></a><span class=\"section-number\">1 </span>B</h1>\n\n  <a href=\"t.html#u\">x</a> <a href=\"b.html\">B</a> \n\n\n  \n\n  </body>\n</html>"
      | _ => false
    | _ => false) = true := by decide +kernel

/-- **C65 fails** for tags with a colon: the template engine takes what stands before it for the scheme of an unsafe URL,
and the reference leads nowhere. -/
theorem C65_false_colon : pageOf q%"\\title{A}{a:b}\n\n\\reference{a:b}\n" = some
    q%"<!DOCTYPE html>\n<html>\n  <head>\n    <meta http-equiv=\"content-type\" content=\"text/html; charset=utf-8\" />\n    <title>A</title>\n  </head>\n  <body>\n    <h1 class=\"section-header\"><a id=\"a:b\"></a>A</h1>\n\n<p><a href=\"#ZgotmplZ\">A</a></p>\n\n\n  \n\n  </body>\n</html>" := by
  decide +kernel

/-- **C65 fails** for targets in partials: the reference leads to an anchor that is not on the page. -/
theorem C65_false_partial : pageOf q%"\\title{A}{t}\n\n\\set-partial{P}{\\target{u}}\n\n\\reference{u}\n" = some
    q%"<!DOCTYPE html>\n<html>\n  <head>\n    <meta http-equiv=\"content-type\" content=\"text/html; charset=utf-8\" />\n    <title>A</title>\n  </head>\n  <body>\n    <h1 class=\"section-header\"><a id=\"t\"></a>A</h1>\n\n<p><a href=\"t.html#u\">u</a></p>\n\n\n  \n\n  </body>\n</html>" := by
  decide +kernel

end Booklit.Props
