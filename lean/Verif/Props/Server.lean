import Verif.Props.Output
import Verif.Model.Server

/-!
C47: what the development server shows for a request.
-/

namespace Booklit.Props

open Booklit Tree

theorem requestTag_page (ext name : Str) : requestTag ext ('/' :: (name ++ ['.'] ++ ext)) = some name := by
  have hs : hasSuffix ('/' :: (name ++ ['.'] ++ ext)) ('.' :: ext) = true := by
    simp only [hasSuffix, List.isSuffixOf_iff_suffix]
    exact ⟨'/' :: name, by simp⟩
  have hs' : hasSuffix (name ++ ['.'] ++ ext) ('.' :: ext) = true := by
    simp only [hasSuffix, List.isSuffixOf_iff_suffix]
    exact ⟨name, by simp⟩
  have hne : ('/' :: (name ++ ['.'] ++ ext)) ≠ ['/'] := by simp
  rw [requestTag]
  simp only [if_neg hne, hs, if_true, trimSlash, trimSuffix, hs']
  congr 1
  have : (name ++ ['.'] ++ ext).length - ('.' :: ext).length = name.length := by simp
  rw [this]
  simp [List.append_assoc]

theorem requestTag_other {ext path : Str} (hp : path ≠ ['/']) (h : ¬ ('.' :: ext) <:+ path) : requestTag ext path = none := by
  rw [requestTag]
  have : hasSuffix path ('.' :: ext) = false := by
    rw [hasSuffix, Bool.eq_false_iff]
    simpa [List.isSuffixOf_iff_suffix] using h
  simp only [if_neg hp, this]
  simp

theorem written_sub {h : Heap} {t : Tree} (b : Book h t) {ps : List Nat} (hps : Ends (fun n => h.written n t.root) ps)
    {o : Nat} (ho : o ∈ ps) : ∃ s, t.Sub s ∧ s.root = o := by
  rw [hps.unique (written_ends b t (Sub.refl t))] at ho
  rcases List.mem_append.1 ho with ho | ho
  · split at ho
    · exact ⟨t, Sub.refl t, (List.mem_singleton.1 ho).symm⟩
    · cases ho
  · obtain ⟨s, hs, rfl⟩ := List.mem_map.1 ho
    exact ⟨s, pages_sub h hs, rfl⟩

/-- **C47, every request**: a request `/name.ext` shows a section that has a tag called `name`, and is left to the file
server exactly if there is none. The request `/` is the same as `/index.ext`; requests that do not end in `.ext` are left
to the file server. -/
theorem C47_requests {h : Heap} {t : Tree} (b : Book h t) (own : ∀ j ∈ t.ids, ∀ g ∈ (h.get j).tags, g.sec = some j) (ext : Str) :
    (∀ name, ∃ r, Ends (fun n => h.requested ext n t.root ('/' :: (name ++ ['.'] ++ ext))) r ∧
      match r with
      | some j => j ∈ t.ids ∧ ∃ g ∈ (h.get j).tags, g.name = name
      | none => ∀ j ∈ t.ids, ∀ g ∈ (h.get j).tags, g.name ≠ name) ∧
    (∀ n, h.requested ext n t.root ['/'] = h.requested ext n t.root (q%"/index." ++ ext)) ∧
    (∀ path, path ≠ ['/'] → ¬ ('.' :: ext) <:+ path → ∀ n, h.requested ext n t.root path = some none) := by
  refine ⟨fun name => ?_, fun n => ?_, fun path hp hs n => ?_⟩
  · obtain ⟨r, hr, hperm⟩ := C21_find_tag b t (Sub.refl t) name
    have mem : ∀ g, g ∈ r ↔ ∃ j ∈ t.ids, g ∈ (h.get j).tags ∧ g.name = name := by
      intro g
      rw [hperm.mem_iff]
      simp [tagsNamed, List.mem_flatMap, List.mem_filter]
    cases r with
    | nil =>
      refine ⟨none, hr.congr fun n hn => by simp only [Heap.requested, requestTag_page, hn], ?_⟩
      intro j hj g hg hn
      exact absurd ((mem g).2 ⟨j, hj, hg, hn⟩) (by simp)
    | cons g gs =>
      obtain ⟨j, hj, hg, hn⟩ := (mem g).1 (by simp)
      refine ⟨some j, hr.congr fun n hn => by simp only [Heap.requested, requestTag_page, hn, own j hj g hg], hj, g, hg, hn⟩
  · have : requestTag ext ['/'] = requestTag ext (q%"/index." ++ ext) := by simp [requestTag]
    simp only [Heap.requested, this]
  · simp [Heap.requested, requestTag_other hp hs]

/-- **C47 (part)**: requesting the path part of the URL of any tag shows the page that the URL belongs to, provided that
the page's section has a title and no other section has a tag called like the page. Missing: tags called like pages, see
`C47_false`. -/
theorem C47_links_to_pages_partial {h : Heap} {t : Tree} (b : Book h t)
    (own : ∀ j ∈ t.ids, ∀ g ∈ (h.get j).tags, g.sec = some j) (ext : Str)
    {j : Nat} (hj : j ∈ t.ids) {g : Tag} (hg : g ∈ (h.get j).tags) :
    ∃ ps, Ends (fun n => h.written n t.root) ps ∧ ∃ o ∈ ps, ∃ on url, Ends (fun n => h.shown n o) on ∧ j ∈ on ∧
      Ends (fun n => h.url ext n g) url ∧ ∃ path frag, url = path ++ frag ∧ (frag = [] ∨ frag.head? = some '#') ∧
      ((h.get o).primaryTag ∈ (h.get o).tags →
       (∀ k ∈ t.ids, k ≠ o → ∀ g' ∈ (h.get k).tags, g'.name ≠ (h.get o).primaryTag.name) →
       Ends (fun n => h.requested ext n t.root ('/' :: path)) (some o)) := by
  obtain ⟨ps, hps, hurl⟩ := C24_links_to_pages b
  obtain ⟨s, hs, rfl⟩ := mem_ids.1 hj
  obtain ⟨o, ho, on, url, h1, h2, h3, h4⟩ := hurl s hs ext g (own _ hj g hg)
  refine ⟨ps, hps, o, ho, on, url, h1, h2, h3, (h.get o).primaryTag.name ++ ['.'] ++ ext, _, h4, ?_, fun hp hu => ?_⟩
  · split
    · exact .inr rfl
    · split
      · exact .inr rfl
      · exact .inl rfl
  · obtain ⟨r, hr, hr'⟩ := (C47_requests b own ext).1 (h.get o).primaryTag.name
    have hot : o ∈ t.ids := by
      obtain ⟨s', hs', rfl⟩ := written_sub b hps ho
      exact mem_ids.2 ⟨s', hs', rfl⟩
    cases r with
    | none => exact (hr' o hot _ hp rfl).elim
    | some k =>
      obtain ⟨hk, g', hg', hn⟩ := hr'
      by_cases e : k = o
      · exact e ▸ hr
      · exact (hu k hk e g' hg' hn).elim

/-- What requests show of a document: the primary tags of the sections. -/
def shows (text path : Str) : Option (Option Str) :=
  match loadText text with
  | (.ok i, s) => (s.heap.requested q%"html" 20 i path).map fun r => r.map fun j => (s.heap.get j).primaryTag.name
  | _ => none

/-- A document with two pages. -/
def twoPages : Str := q%"\\title{Home}{index}\n\n\\split-sections\n\n\\section{\\title{C D}}\n"

example : shows twoPages q%"/" = some (some q%"index") ∧ shows twoPages q%"/c-d.html" = some (some q%"c-d") ∧
    shows twoPages q%"/c.html" = some none ∧ shows twoPages q%"/c-d.css" = some none := by
  decide +kernel

/-- **C47** does not hold: with a target called like a page, the page cannot be reached. -/
theorem C47_false :
    shows q%"\\title{A}\n\n\\split-sections\n\n\\target{b}{T}\n\n\\section{\\title{B}}\n" q%"/b.html" = some (some q%"a") ∧
    filesOf q%"\\title{A}\n\n\\split-sections\n\n\\target{b}{T}\n\n\\section{\\title{B}}\n" = some [q%"o/ut/a.html", q%"o/ut/b.html"] := by
  decide +kernel

end Booklit.Props
