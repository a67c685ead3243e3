import Verif.Props.Section
import Verif.Props.Load
import Verif.Props.Calls
import Verif.Lemmas.OutputL
import Verif.Lemmas.SecInv

/-!
C26, C49, C54 and C59: files written, the search index, and tags.
-/

namespace Booklit.Props

open Booklit Tree

/-! ### C59 -/

/-- **C59**: in every state reached by loading documents, every tag of a section belongs to that section; tags without
anchor carry the section's title, and the primary tag is the first of them; anchored tags have their name as anchor. A
section without title has the empty primary tag. -/
theorem C59_tags_of_sections {W : World} {s : St} (hr : Reach W s) {i : Nat} (hi : i < s.heap.length) :
    (∀ g ∈ (s.heap.get i).tags, g.sec = some i ∧ (g.anchor = [] → g.title = (s.heap.get i).title ∨ g.name = []) ∧
      (g.anchor ≠ [] → g.anchor = g.name)) ∧
    ((s.heap.get i).primaryTag ∈ (s.heap.get i).tags ∧ (s.heap.get i).primaryTag.anchor = [] ∧
        (s.heap.get i).primaryTag.title = (s.heap.get i).title ∨
      (s.heap.get i).primaryTag = Tag.zero ∧ (s.heap.get i).title = .str []) := by
  obtain ⟨own, an, h1, h2, h3, h4, h5, h6⟩ := (OwnTags.inv W).reach hr i hi
  refine ⟨fun g hg => ⟨?_, fun ha => ?_, fun ha => ?_⟩, ?_⟩
  · rw [h1] at hg; exact h2 g hg
  · rw [h1] at hg
    rcases List.mem_append.1 hg with hg | hg
    · exact .inl (h3 g hg).2
    · exact .inr ((h4 g hg).symm.trans ha)
  · rw [h1] at hg
    rcases List.mem_append.1 hg with hg | hg
    · exact (ha (h3 g hg).1).elim
    · exact h4 g hg
  · cases own with
    | nil => exact .inr ⟨h5, h6 rfl⟩
    | cons g gs =>
      refine .inl ?_
      simp only [List.headD_cons] at h5
      rw [h5, h1]
      exact ⟨by simp, h3 g (by simp)⟩

/-- The tags of the top section of a document, with their anchors. -/
def tagsOf (text : Str) : Option (List (Str × Str) × Str) :=
  match loadText text with
  | (.ok i, s) => some ((s.heap.get i).tags.map (fun g => (g.name, g.anchor)), (s.heap.get i).primaryTag.name)
  | _ => none

example : tagsOf q%"\\title{A}{b}{c}\n\n\\target{tt}{T}\n" =
    some ([(q%"b", []), (q%"c", []), (q%"tt", q%"tt")], q%"b") := by decide +kernel

/-! ### C26 and C54 -/

/-- A file name extension without surprises, like `html` or `md`. -/
def goodExt (ext : Str) : Prop := '/' ∉ ext ∧ ext ≠ [] ∧ ext ≠ q%"."

theorem plain_fileName {name ext : Str} (hn : '/' ∉ name) (he : goodExt ext) : Plain (name ++ ['.'] ++ ext) := by
  obtain ⟨h1, h2, h3⟩ := he
  refine ⟨by simp [hn, h1], by simp, ?_, ?_⟩
  · intro e
    have := congrArg List.length e
    have hpos : 0 < ext.length := by cases ext with
      | nil => exact (h2 rfl).elim
      | cons _ _ => simp
    simp at this
    omega
  · intro e
    have hl := congrArg List.length e
    have hpos : 0 < ext.length := by cases ext with
      | nil => exact (h2 rfl).elim
      | cons _ _ => simp
    simp at hl
    have : name = [] := by cases name with
      | nil => rfl
      | cons _ _ => simp at hl; omega
    subst this
    simp at e
    exact h3 e

/-- **C54 (part)**: a page whose primary tag contains no slash is written directly under the output directory, as the
tag with the extension added. Missing: tags with slashes, see `C54_false`. -/
theorem C54_in_destination_partial (h : Heap) (i : Nat) {dest ext : Str} (hd : dest ≠ []) (he : goodExt ext)
    (hn : '/' ∉ (h.get i).primaryTag.name) :
    dirPath (h.filePathOf dest ext i) = cleanPath dest ∧
    ∃ dir, h.filePathOf dest ext i = dir ++ (h.get i).primaryTag.name ++ ['.'] ++ ext ∧
      (dir = [] ∨ ∃ d, dir = d ++ ['/']) := by
  have hp := plain_fileName hn he
  refine ⟨dirPath_joinPath hd hp, rootOf dest ++ trail (partsOf dest), ?_, ?_⟩
  · rw [Heap.filePathOf, Heap.fileName, joinPath_plain hd hp]
    simp
  · rcases trail_end (partsOf dest) with e | ⟨q, e⟩
    · rw [e, rootOf]
      split
      · exact .inr ⟨[], rfl⟩
      · exact .inl rfl
    · exact .inr ⟨rootOf dest ++ q, by rw [e]; simp⟩

/-- The files a document is written to (directory `o/ut`), if it loads. -/
def filesOf (text : Str) : Option (List Str) :=
  match loadText text with
  | (.ok i, s) => (s.heap.outputs q%"o/ut" q%"html" 20 i).map fun ws => ws.map (·.1)
  | _ => none

/-- The hypotheses are met: tags made from titles contain no slash. -/
example : filesOf q%"\\title{A/B}\n\n\\split-sections\n\n\\section{\\title{C}}\n" = some [q%"o/ut/ab.html", q%"o/ut/c.html"] := by
  decide +kernel

/-- **C54** does not hold: with a slash in its tag a page goes to another directory, with `..` even outside the output
directory. -/
theorem C54_false :
    filesOf q%"\\title{A}{../../a}\n\n\\split-sections\n\n\\section{\\title{C}{d/c}}\n" = some [q%"a.html", q%"o/ut/d/c.html"] := by
  decide +kernel

/-- **C26 (part)**: pages whose primary tags differ and contain no slash are written to different files. When this
holds for all pages of a book, every page is in its file at the end: nothing has been overwritten. Missing: tags with
slashes, see `C26_false`. -/
theorem C26_different_files_partial {h : Heap} {t : Tree} (b : Book h t) {dest ext : Str} (hd : dest ≠ []) (he : goodExt ext) :
    ∃ ps ws, Ends (fun n => h.written n t.root) ps ∧ Ends (fun n => h.outputs dest ext n t.root) ws ∧
      (∀ p ∈ ps, ∀ q ∈ ps, '/' ∉ (h.get p).primaryTag.name → '/' ∉ (h.get q).primaryTag.name →
        (h.get p).primaryTag.name ≠ (h.get q).primaryTag.name → h.filePathOf dest ext p ≠ h.filePathOf dest ext q) ∧
      ((∀ p ∈ ps, '/' ∉ (h.get p).primaryTag.name) →
        (∀ p ∈ ps, ∀ q ∈ ps, p ≠ q → (h.get p).primaryTag.name ≠ (h.get q).primaryTag.name) →
        ∀ p ∈ ps, lastWritten (h.filePathOf dest ext p) ws = some p) := by
  have hw := written_ends b t (Sub.refl t)
  have key : ∀ p q, '/' ∉ (h.get p).primaryTag.name → '/' ∉ (h.get q).primaryTag.name →
        (h.get p).primaryTag.name ≠ (h.get q).primaryTag.name → h.filePathOf dest ext p ≠ h.filePathOf dest ext q := by
    intro p q hp hq hne e
    have := joinPath_inj hd (plain_fileName hp he) (plain_fileName hq he) e
    simp at this
    exact hne this
  generalize ((if h.isPage t.root = true then [t.root] else []) ++ List.map root (pages h t)) = ps at hw
  refine ⟨ps, ps.map fun p => (h.filePathOf dest ext p, p), hw, hw.congr fun n hn => ?_, fun p _ q _ => key p q,
    fun hs hdist p hp => ?_⟩
  · simp only [Heap.outputs, hn, Option.map_some]
  · obtain ⟨q, hq⟩ := lastWritten_some (ws := ps.map fun p => (h.filePathOf dest ext p, p)) (path := h.filePathOf dest ext p) (i := p)
      (List.mem_map.2 ⟨p, hp, rfl⟩)
    rw [hq]
    have hm := lastWritten_mem hq
    obtain ⟨q', hq', e⟩ := List.mem_map.1 hm
    simp only [Prod.mk.injEq] at e
    obtain ⟨e1, rfl⟩ := e
    by_cases hpq : p = q'
    · rw [hpq]
    · exact (key p q' (hs p hp) (hs q' hq') (hdist p hp q' hq' hpq) e1.symm).elim

/-- **C26** does not hold: two pages with the tags `b` and `a/../b` are written to the same file. -/
theorem C26_false :
    filesOf q%"\\title{A}\n\n\\split-sections\n\n\\section{\\title{C}{b}}\n\n\\section{\\title{C}{a/../b}}\n" =
      some [q%"o/ut/a.html", q%"o/ut/b.html", q%"o/ut/b.html"] := by
  decide +kernel

/-- Nor do pages with equal titles (and no tags given) differ: no error is reported, the last one remains. -/
theorem C26_same_title :
    filesOf q%"\\title{A}\n\n\\split-sections\n\n\\section{\\title{C}}\n\n\\section{\\title{C}}\n" =
      some [q%"o/ut/a.html", q%"o/ut/c.html", q%"o/ut/c.html"] := by
  decide +kernel

/-! ### C49 -/

/-- **C49**: if making the search index of a book succeeds, it has an entry for the name of every tag in the book and no
others. The entry belongs to the last tag with that name, in document order. It points to the URL of that tag, which
lies on a page that is written and shows the tag's section; it has that section's depth and primary tag, the text of the
tag's title, and the text of the tag's content or else of the section's body. -/
theorem C49_search_index {h : Heap} {t : Tree} (b : Book h t) (own : ∀ j ∈ t.ids, ∀ g ∈ (h.get j).tags, g.sec = some j)
    {bo : Bool} {ext : Str} {m : Nat} {ix : SearchIndex} (hx : h.searchIndex bo ext m t.root = .ok ix) :
    ∃ ps, Ends (fun n => h.written n t.root) ps ∧
    (∀ name, (ix.lookup name).isSome = true ↔ ∃ j ∈ t.ids, ∃ g ∈ (h.get j).tags, g.name = name) ∧
    ∀ name d, ix.lookup name = some d → ∃ g j, (t.tagsNamed h name).getLast? = some g ∧ j ∈ t.ids ∧ g ∈ (h.get j).tags ∧
      Ends (fun n => h.url ext n g) d.location ∧ Ends (fun n => h.depth n j) d.depth ∧
      d.sectionTag = (h.get j).primaryTag.name ∧ h.text bo m g.title = .ok d.title ∧
      h.text bo m (if g.content.isNil then (h.get j).body else g.content) = .ok d.text ∧
      ∃ o ∈ ps, ∃ on, Ends (fun n => h.shown n o) on ∧ j ∈ on ∧
        ∃ frag, d.location = (h.get o).primaryTag.name ++ ['.'] ++ ext ++ frag := by
  obtain ⟨ps, hps, hurl⟩ := C24_links_to_pages b
  have hlook := indexTags_lookup (loadTags_tags b t (Sub.refl t) hx)
  simp only [filter_allTags] at hlook
  have mem : ∀ {name g}, g ∈ t.tagsNamed h name ↔ ∃ j ∈ t.ids, g ∈ (h.get j).tags ∧ g.name = name := by
    intro name g
    simp [tagsNamed, List.mem_flatMap, List.mem_filter]
  have docs : ∀ name d, ix.lookup name = some d → ∃ g, (t.tagsNamed h name).getLast? = some g ∧ h.searchDoc bo ext m g = .ok d := by
    intro name d hd
    have := hlook name
    split at this
    · next g hg =>
      obtain ⟨d', h1, h2⟩ := this
      rw [hd] at h2
      simp only [Option.some.injEq] at h2
      subst h2
      exact ⟨g, hg, h1⟩
    · rw [hd] at this
      simp at this
  refine ⟨ps, hps, fun name => ⟨fun hs => ?_, ?_⟩, fun name d hd => ?_⟩
  · obtain ⟨d, hd⟩ := Option.isSome_iff_exists.1 hs
    obtain ⟨g, hg, -⟩ := docs name d hd
    obtain ⟨j, hj, h1, h2⟩ := mem.1 (List.mem_of_getLast? hg)
    exact ⟨j, hj, g, h1, h2⟩
  · rintro ⟨j, hj, g, hg, hn⟩
    have := hlook name
    split at this
    · obtain ⟨d', h1, h2⟩ := this
      rw [h2]; rfl
    · next hnone =>
      have hm := mem.2 ⟨j, hj, hg, hn⟩
      rw [List.getLast?_eq_none_iff] at hnone
      rw [hnone] at hm
      cases hm
  · obtain ⟨g, hg, hdoc⟩ := docs name d hd
    obtain ⟨j, hj, h1, h2⟩ := mem.1 (List.mem_of_getLast? hg)
    have hsec := own j hj g h1
    refine ⟨g, j, hg, hj, h1, ?_⟩
    obtain ⟨s, hs, rfl⟩ := mem_ids.1 hj
    obtain ⟨o, ho, on, url, h3, h4, h5, h6⟩ := hurl s hs ext g hsec
    rw [Heap.searchDoc, hsec] at hdoc
    simp only at hdoc
    cases htext : h.text bo m (if g.content.isNil then (h.get s.root).body else g.content) with
    | ok text =>
      rw [htext] at hdoc
      simp only [Res.bind] at hdoc
      cases hu : h.sectionURL ext m s.root g.anchor with
      | some u =>
        rw [hu] at hdoc
        simp only [Res.ofFuel] at hdoc
        cases ht : h.text bo m g.title with
        | ok title =>
          rw [ht] at hdoc
          simp only at hdoc
          cases hdp : h.depth m s.root with
          | some dp =>
            rw [hdp] at hdoc
            simp only [Res.ok.injEq] at hdoc
            subst hdoc
            have hue : Ends (fun n => h.url ext n g) u :=
              ⟨m, fun n hn => by simp only [Heap.url, hsec]; exact sectionURL_mono hn hu⟩
            have : u = url := hue.unique h5
            refine ⟨hue, ⟨m, fun n hn => depth_mono hn hdp⟩, rfl, rfl, rfl, o, ho, on, h3, h4, ?_⟩
            rw [this, h6]
            exact ⟨_, rfl⟩
          | none => rw [hdp] at hdoc; simp at hdoc
        | err e => rw [ht] at hdoc; simp at hdoc
        | panic => rw [ht] at hdoc; simp at hdoc
        | more => rw [ht] at hdoc; simp at hdoc
      | none => rw [hu] at hdoc; simp [Res.ofFuel] at hdoc
    | err e => rw [htext] at hdoc; simp [Res.bind] at hdoc
    | panic => rw [htext] at hdoc; simp [Res.bind] at hdoc
    | more => rw [htext] at hdoc; simp [Res.bind] at hdoc

/-- Loaded books meet the condition of `C49_search_index`. -/
theorem C49_own_tags {W : World} {s : St} (hr : Reach W s) (j : Nat) : ∀ g ∈ (s.heap.get j).tags, g.sec = some j := by
  intro g hg
  by_cases hj : j < s.heap.length
  · exact ((C59_tags_of_sections hr hj).1 g hg).1
  · rw [Heap.get, List.getD_eq_getElem?_getD, List.getElem?_eq_none (by omega)] at hg
    cases hg

/-- The search index of a document. -/
def indexOf (text : Str) : Option (List (Str × Str × Str × Nat)) :=
  match loadText text with
  | (.ok i, s) =>
    match s.heap.searchIndex false q%"html" 9 i with
    | .ok ix => some (ix.map fun e => (e.1, e.2.location, e.2.text, e.2.depth))
    | _ => none
  | _ => none

example : indexOf q%"\\title{A}\n\nx\\target{tt}{T}{c}\n\n\\section{\n\\title{C}\n\ny\n}\n" =
    some [(q%"c", q%"a.html#c", q%"y\n\n", 1), (q%"tt", q%"a.html#tt", q%"c", 0), (q%"a", q%"a.html", q%"x\n\n", 0)] := by
  decide +kernel

end Booklit.Props
