import Verif.Props.Looks
import Verif.Lemmas.RendersL

/-!
C67: what can be rendered is rendered.
-/

namespace Booklit.Props

open Booklit Tree

/-- **C67**: in a book whose references can be resolved, whose titles can be shown anywhere and whose styles are known,
every section has a page: rendering it comes to an end, without error or panic, and always with the same text. -/
theorem C67_sane_books {S : Site} {h : Heap} {t : Tree} (b : Book h t) (sane : Sane S h t) {i : Nat} (hi : i ∈ t.ids) :
    ∃ txt N, ∀ n, N ≤ n → h.page S n i = .ok txt := page_done b sane hi

/-- Loaded documents in order are sane, if other plugins make nothing special. -/
theorem loaded_sane {W : World} {F : Content → Prop} (hF : W.Makes F) (hm : ∀ c, F c → c.simple = true)
    (hs : W.SolidPlugins) (hfs : W.fs [] = none) {s : St} (hr : Reach W s) {t : Tree} (S : Site) (ord : InOrder s.heap t) :
    Sane S s.heap t := by
  refine inOrder_sane S ord ?_ ?_ ?_ ?_
  · exact fun i _ => parts_shown (P := fun i d => d.ordinary i) hF hfs hr (fun _ _ _ o => origin_simple hm o) i
  · intro i _ g hg
    by_cases hi : i < s.heap.length
    · exact ((C59_tags_of_sections hr hi).1 g hg).1
    · rw [Heap.get_out hi] at hg
      cases hg
  · intro i _ ht
    by_cases hi : i < s.heap.length
    · obtain ⟨h1, h2⟩ := C59_tags_of_sections hr hi
      rcases h2 with ⟨h2, -⟩ | ⟨-, h2⟩
      · exact (h1 _ h2).1
      · exact absurd h2 ht
    · rw [Heap.get_out hi] at ht
      exact absurd rfl ht
  · intro i _
    by_cases hi : i < s.heap.length
    · exact (Reach.heapOk (contentInv_solid hs) hr i hi).2.1
    · rw [Heap.get_out hi]
      rfl

/-- **C67**: the documents that are loaded, if other plugins make nothing special, are rendered if they are in order: every
reference is to a name that exactly one tag has, texts that are shown elsewhere leave nothing out, and all sections have
titles if there is a table of contents. -/
theorem C67_documents {W : World} {F : Content → Prop} (hF : W.Makes F) (hm : ∀ c, F c → c.simple = true)
    (hs : W.SolidPlugins) (hfs : W.fs [] = none) {n : Nat} {path : Str} {plugins : List Nat} {s s' : St} {i : Nat}
    (hr : Reach W s) (h0 : plugins.head? = some 0) (hl : loadFile W n none path plugins s = (.ok i, s')) :
    ∃ t, t.root = i ∧ Book s'.heap t ∧ (InOrder s'.heap t → ∀ (S : Site), ∀ o ∈ t.ids,
      ∃ txt N, ∀ m, N ≤ m → s'.heap.page S m o = .ok txt) := by
  have hr' : Reach W s' := by
    have := Reach.load n none path plugins hr (by simp) h0
    rw [hl] at this
    exact this
  obtain ⟨t, rfl, b⟩ := C28_loaded_tree hl
  exact ⟨t, rfl, b, fun ord S o ho => page_done b (loaded_sane hF hm hs hfs hr' S ord) ho⟩

/-! ### Cases -/

/-- A test for documents in order. -/
def orderCheck (h : Heap) (t : Tree) : Bool :=
  t.ids.all (fun i => (h.get i).style == [] || (h.get i).style == q%"section") &&
  t.ids.all (fun i => (h.get i).shown.all fun c => (c.parts true).all fun
    | .ref _ name x _ _ => (t.tagsNamed h name).length == 1 && (x.isNil || x.plainTitle)
    | _ => true) &&
  t.ids.all (fun i => (h.get i).title.plainTitle && (h.get i).tags.all fun g => g.title.plainTitle) &&
  t.ids.all fun j => j == t.root || match (h.get j).title with | .str [] => false | _ => true

theorem InOrder.of_check {h : Heap} {t : Tree} (hc : orderCheck h t = true) : InOrder h t := by
  simp only [orderCheck, Bool.and_eq_true, List.all_eq_true, Bool.or_eq_true, beq_iff_eq] at hc
  obtain ⟨⟨⟨h1, h2⟩, h3⟩, h4⟩ := hc
  refine ⟨h1, fun i hi c hc s name x o l hd => ?_, h3, fun _ j hj hne e => ?_⟩
  · obtain ⟨h5, h6⟩ := Bool.and_eq_true_iff.1 (h2 i hi c hc _ hd)
    refine ⟨?_, ?_⟩
    · have h5 := beq_iff_eq.1 h5
      match e : t.tagsNamed h name, h5 with
      | [g], _ => exact ⟨g, rfl⟩
      | [], h5 => cases h5
      | _ :: _ :: _, h5 => simp at h5
    · refine (Bool.or_eq_true_iff.1 h6).imp_left fun h => ?_
      cases x with
      | nil => rfl
      | _ => cases h
  · rcases h4 j hj with h | h
    · exact hne h
    · rw [e] at h
      cases h

/-- A document in order: with sections, a table of contents, styles, and references to sections and targets, with and
without texts. -/
example : (match loadFile (plainFile q%"\\title{A}{t}\n\n\\table-of-contents\n\n\\target{u}{U \\bold{x}}\n\n\\section{\\title{B \\italic{\\reference{t}{x}}}{b}\n\n\\reference{u}{x} \\reference{b}\n}\n\n\\section{\\title{C}\n\n\\reference{u}\n}\n") 5 none
      q%"x.lit" [0] ⟨[], []⟩ with
    | (.ok i, s) => i == 0 && orderCheck s.heap (.node 0 [.node 1 [], .node 2 []]) &&
        (s.heap.get 0).children == [1, 2] && (s.heap.get 2).children == []
    | _ => false) = true := by decide +kernel

/-- The page of a document, if it cannot be rendered: is there an error? -/
def pageFails (text : Str) : Bool :=
  match loadText text with
  | (.ok i, s) =>
    match s.heap.page ⟨false, fun _ => none⟩ 9 i with
    | .err _ => true
    | _ => false
  | _ => false

theorem pageFails_always {text : Str} (hf : pageFails text = true) :
    ∃ i s, loadText text = (.ok i, s) ∧ ∀ n, 9 ≤ n → ∃ e, s.heap.page ⟨false, fun _ => none⟩ n i = .err e := by
  unfold pageFails at hf
  split at hf
  · rename_i i s e
    refine ⟨i, s, e, fun n hn => ?_⟩
    split at hf
    · rename_i e' he
      refine ⟨e', ?_⟩
      rcases page_le hn i with h | h
      · rw [he] at h; cases h
      · rw [← h, he]
    · cases hf
  · cases hf

/-- None of the conditions can be left out: a section without title in a table of contents; a target without content in a
title that is shown in a table of contents; a reference to a name that no tag has, and to one that two tags have. All of
these load, and cannot be rendered. -/
theorem C67_needed : ∀ text ∈ [
      q%"\\title{A}\n\n\\table-of-contents\n\n\\section{text}\n",
      q%"\\title{A}\n\n\\table-of-contents\n\n\\section{\\title{B \\target{x}}{b}\n\ntext}\n",
      q%"\\title{A}\n\n\\reference{b}\n",
      q%"\\title{A}\n\n\\target{b}\\target{b}\\reference{b}\n",
      q%"\\title{A}\n\n\\styled{fancy}\n"],
    ∃ i s, loadText text = (.ok i, s) ∧ ∀ n, 9 ≤ n → ∃ e, s.heap.page ⟨false, fun _ => none⟩ n i = .err e := by
  intro text ht
  refine pageFails_always ?_
  simp only [List.mem_cons, List.not_mem_nil, or_false] at ht
  rcases ht with rfl | rfl | rfl | rfl | rfl <;> decide +kernel

end Booklit.Props
