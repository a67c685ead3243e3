import Verif.Lemmas.SectionTagL
import Verif.Props.Server

/-!
C47, exactly: which section a request shows.
-/

namespace Booklit.Props

open Booklit Tree

/-- The first of the tags of a name belongs to the first section that has one. -/
theorem first_named {h : Heap} (name : Str) (is : List Nat) (own : ∀ j ∈ is, ∀ g ∈ (h.get j).tags, g.sec = some j) :
    (is.flatMap fun i => (h.get i).tags.filter fun g => g.name = name).head?.bind Tag.sec =
      is.find? fun j => (h.get j).tags.any fun g => g.name = name := by
  induction is with
  | nil => rfl
  | cons j is ih =>
    rw [List.flatMap_cons, List.find?_cons]
    cases hf : (h.get j).tags.filter fun g => g.name = name with
    | nil =>
      have : ((h.get j).tags.any fun g => g.name = name) = false := by
        rw [List.any_eq_false]
        intro g hg hn
        have : g ∈ (h.get j).tags.filter fun g => g.name = name := List.mem_filter.2 ⟨hg, hn⟩
        rw [hf] at this
        cases this
      rw [this, List.nil_append]
      exact ih fun j hj => own j (List.mem_cons_of_mem _ hj)
    | cons g gs =>
      have hg : g ∈ (h.get j).tags.filter fun g => g.name = name := by rw [hf]; exact List.mem_cons_self
      rw [List.mem_filter] at hg
      have : ((h.get j).tags.any fun g => g.name = name) = true := List.any_eq_true.2 ⟨g, hg⟩
      rw [this]
      exact own j List.mem_cons_self g hg.1

/-- **C47, exactly**: a request `/name.ext` shows the first section of the book, in the order of the document, that has a
tag called `name`; it is left to the file server if there is none. So a page is shown at the path of its own file if and
only if no section that comes before it has a tag called like the page. -/
theorem C47_exact {h : Heap} {t : Tree} (b : Book h t) (own : ∀ j ∈ t.ids, ∀ g ∈ (h.get j).tags, g.sec = some j) (ext : Str) :
    (∀ name, Ends (fun n => h.requested ext n t.root ('/' :: (name ++ ['.'] ++ ext)))
      (t.ids.find? fun j => (h.get j).tags.any fun g => g.name = name)) ∧
    ∀ before o after, t.ids = before ++ o :: after → (h.get o).primaryTag ∈ (h.get o).tags →
      (Ends (fun n => h.requested ext n t.root ('/' :: h.fileName ext o)) (some o) ↔
        ∀ j ∈ before, ∀ g ∈ (h.get j).tags, g.name ≠ (h.get o).primaryTag.name) := by
  have first : ∀ name, Ends (fun n => h.requested ext n t.root ('/' :: (name ++ ['.'] ++ ext)))
      (t.ids.find? fun j => (h.get j).tags.any fun g => g.name = name) := by
    intro name
    refine (findTag_top b name).congr fun n hn => ?_
    have := first_named name t.ids own
    rw [← tagsNamed] at this
    rw [← this]
    simp only [Heap.requested, requestTag_page, hn]
    cases t.tagsNamed h name <;> rfl
  refine ⟨first, fun before o after he ho => ?_⟩
  have hs := first (h.get o).primaryTag.name
  have hany : ((h.get o).tags.any fun g => g.name = (h.get o).primaryTag.name) = true :=
    List.any_eq_true.2 ⟨_, ho, by simp⟩
  have hnd : t.ids.Nodup := b.nodup
  rw [he, List.find?_append, List.find?_cons, hany] at hs
  have hf : h.fileName ext o = (h.get o).primaryTag.name ++ ['.'] ++ ext := by simp [Heap.fileName]
  rw [hf]
  constructor
  · intro hx j hj g hg hn
    have e := hs.unique hx
    cases hb : before.find? fun j => (h.get j).tags.any fun g => g.name = (h.get o).primaryTag.name with
    | none =>
      rw [List.find?_eq_none] at hb
      exact hb j hj (List.any_eq_true.2 ⟨g, hg, by simpa using hn⟩)
    | some k =>
      rw [hb] at e
      simp only [Option.some_or, Option.some.injEq] at e
      rw [e] at hb
      rw [he] at hnd
      exact (List.nodup_append.1 hnd).2.2 o (List.mem_of_find?_eq_some hb) o List.mem_cons_self rfl
  · intro hx
    have hb : (before.find? fun j => (h.get j).tags.any fun g => g.name = (h.get o).primaryTag.name) = none := by
      rw [List.find?_eq_none]
      intro j hj ha
      obtain ⟨g, hg, hn⟩ := List.any_eq_true.1 ha
      exact hx j hj g hg (by simpa using hn)
    rw [hb] at hs
    exact hs

/-- A target that comes after a page called like it does not hide the page; one that comes before it does (`C47_false`). -/
example : shows q%"\\title{A}\n\n\\split-sections\n\n\\section{\\title{B}}\n\n\\section{\\title{C}\n\n\\target{b}{T}\n}\n" q%"/b.html" =
    some (some q%"b") := by
  decide +kernel

/-- The hypotheses are met by a book of two sections. -/
example : let sec (i : Nat) (n : Str) (p : Option Nat) (cs : List Nat) : Sec := { Sec.fresh p [] with
      children := cs, primaryTag := ⟨n, .str n, some i, [], .nil, .zero⟩, tags := [⟨n, .str n, some i, [], .nil, .zero⟩] }
    let h : Heap := [sec 0 q%"a" none [1], sec 1 q%"b" (some 0) []]
    Book h (.node 0 [.node 1 []]) ∧ (∀ j ∈ [0, 1], ∀ g ∈ (h.get j).tags, g.sec = some j ∧ g.name = (h.get j).primaryTag.name) :=
  ⟨.of_check (by decide) (by decide) (by decide), by decide⟩

end Booklit.Props
