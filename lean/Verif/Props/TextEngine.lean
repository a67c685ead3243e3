import Verif.Props.Renders
import Verif.Lemmas.TypableL

/-!
C73: plain text.
-/

namespace Booklit.Props

open Booklit Tree

/-- **C73**: the plain text of any section of a book begins with the text of the section's title, followed by the section
as `TextLooks` says: numbers, titles, paragraphs, insets, tables of contents and the sections below, in the order of the
source and with nothing else but white space between. -/
theorem C73_page {S : Site} {h : Heap} {t : Tree} (b : Book h t)
    (hin : ∀ i ∈ t.ids, ∀ c ∈ (h.get i).shown, ∀ d ∈ c.parts true, d.placed t = true)
    (hS : ∀ i c, S.force i = some c → ∀ d ∈ c.parts true, d.placed t = true) {n i : Nat} (hi : i ∈ t.ids) {txt : Str}
    (hp : h.txtPage S n i = .ok txt) : TextPage S h t i txt :=
  (txtPage_looks {
    book := b
    title := fun i hi => (all_iff _).2 (hin i hi _ (by simp [Sec.shown]))
    body := fun i hi => (all_iff _).2 (hin i hi _ (by simp [Sec.shown]))
    force := fun i c e => (all_iff _).2 (hS i c e) } hi hp).2

/-- **C73**: the plain text of loaded documents, if other plugins make no sections or tables of contents of their own. -/
theorem C73_documents {W : World} {F : Content → Prop} (hF : W.Makes F) (hm : ∀ c, F c → c.settled = true)
    (hfs : W.fs [] = none) {n : Nat} {path : Str} {plugins : List Nat} {s s' : St} {i : Nat}
    (hr : Reach W s) (h0 : plugins.head? = some 0) (hl : loadFile W n none path plugins s = (.ok i, s')) {S : Site}
    (hS : ∀ i c, S.force i = some c → ∀ d ∈ c.parts true, d.settled = true) :
    ∃ t, t.root = i ∧ Book s'.heap t ∧ ∀ o ∈ t.ids, ∀ m txt, s'.heap.txtPage S m o = .ok txt →
      TextPage S s'.heap t o txt := by
  have hr' : Reach W s' := by
    have := Reach.load n none path plugins hr (by simp) h0
    rw [hl] at this
    exact this
  obtain ⟨t, rfl, b⟩ := C28_loaded_tree hl
  have shown := parts_shown (P := fun i c => c.noRaw = true ∧ (∀ s t x b l, c = .ref s t x b l → s = i) ∧
    (∀ j, c = .toc j → j = i) ∧ (∀ j, c ≠ .sect j)) hF hfs hr' fun _ _ _ o => origin_settled hm o
  refine ⟨t, rfl, b, fun o ho m txt hp => C73_page b ?_ ?_ ho hp⟩
  · intro i hi c hc d hd
    obtain ⟨-, -, h3, h4⟩ := shown i c hc d hd
    cases d with
    | toc j =>
      obtain rfl := h3 _ rfl
      simpa [Content.placed] using hi
    | sect j => exact (h4 j rfl).elim
    | _ => rfl
  · intro i c e d hd
    have := hS i c e d hd
    cases d <;> first | rfl | cases this

theorem ordinary_homemade {i : Nat} {c : Content} (h : c.ordinary i) : c.homemade i = true := by
  cases c with
  | sect => exact h.elim
  | lazy => exact h.elim
  | toc j => simpa [Content.homemade] using (show j = i from h)
  | styled s b x ps =>
    obtain ⟨rfl, h⟩ := h
    simp only [Content.homemade, List.isEmpty_nil, Bool.true_and, bne_iff_ne, ne_eq]
    rintro rfl
    rcases h with h | h | ⟨h, -⟩
    · exact absurd h (by decide)
    · exact absurd h (by decide)
    · exact absurd h (by decide)
  | _ => rfl

/-- **C73**: the section of a loaded document is rendered, if other plugins make nothing special, exactly when it and all
sections on its page have no style and consist of what plain text can be made of: strings, paragraphs, preformatted text,
insets, auxiliary parts, and tables of contents whose entries have such titles. -/
theorem C73_rendered {W : World} {F : Content → Prop} (hF : W.Makes F) (hm : ∀ c, F c → c.simple = true)
    (hfs : W.fs [] = none) {n : Nat} {path : Str} {plugins : List Nat} {s s' : St} {i : Nat}
    (hr : Reach W s) (h0 : plugins.head? = some 0) (hl : loadFile W n none path plugins s = (.ok i, s')) :
    ∃ t, t.root = i ∧ Book s'.heap t ∧
      ((∀ j ∈ t.ids, (s'.heap.get j).style ≠ q%"toc" ∧ (s'.heap.get j).style ≠ q%"string") → ∀ (S : Site), ∀ o ∈ t.ids,
        (∃ txt N, ∀ m, N ≤ m → s'.heap.txtPage S m o = .ok txt) ↔
        (s'.heap.get o).style = [] ∧ ∀ j, ShownWith s'.heap o j → Typable s'.heap j) := by
  have hr' : Reach W s' := by
    have := Reach.load n none path plugins hr (by simp) h0
    rw [hl] at this
    exact this
  obtain ⟨t, rfl, b⟩ := C28_loaded_tree hl
  have shown := parts_shown (P := fun i d => d.ordinary i) hF hfs hr' (fun _ _ _ o => origin_simple hm o)
  have own : ∀ i ∈ t.ids, (s'.heap.get i).title.all (Content.homemade i) = true := fun i _ =>
    (all_iff _).2 fun d hd => ordinary_homemade (shown i _ (by simp [Sec.shown]) d hd)
  have own' : ∀ i ∈ t.ids, (s'.heap.get i).body.all (Content.homemade i) = true := fun i _ =>
    (all_iff _).2 fun d hd => ordinary_homemade (shown i _ (by simp [Sec.shown]) d hd)
  refine ⟨t, rfl, b, fun hst S o ho => ⟨fun ⟨txt, N, hN⟩ => ?_, fun ⟨h1, h2⟩ => txtPage_done b own own' ho h1 h2⟩⟩
  have e := hN N (Nat.le_refl _)
  rw [Heap.txtPage] at e
  split at e
  · cases e
  rename_i hsty
  rw [Heap.pageTmpl] at e
  obtain ⟨title, -, e⟩ := Res.ok_of_bind e
  obtain ⟨x, hx, -⟩ := Res.ok_of_map e
  exact ⟨by simpa using hsty, fun j hj => (shown_typable b own own' hst ho ⟨N, x, hx⟩ hj).2.1⟩

/-! ### Cases -/

/-- The plain text of a document. -/
def plainOf (text : Str) : Option Str :=
  match loadText text with
  | (.ok i, s) =>
    match s.heap.txtPage ⟨false, fun _ => none⟩ 9 i with
    | .ok t => some t
    | _ => none
  | _ => none

/-- A document with a table of contents, an inset and two sections. -/
example : plainOf q%"\\title{A}{t}\n\nx y\nz\n\n\\inset{u}\n\n\\table-of-contents\n\n\\section{\\title{B}\n\nb\n}\n\n\\section{\\title{C}\n\nc\n}\n" =
    some q%"A\n\nAx y z\n\n    u\n\n\n\n1 B\n\n\n\n2 C\n\n\n\n\n\n\n\n1 B  b \n\n\n\n\n\n2 C  c \n\n\n\n\n\n" := by
  decide +kernel

/-- The title of a section and the beginning of its text are not kept apart: the title `In` with the text `side` is shown
as `Inside`. -/
theorem C73_false : plainOf q%"\\title{In}\n\nside\n" = some q%"In\n\nInside\n\n\n\n\n\n" := by decide +kernel

/-- Documents that can be shown as HTML and not as plain text. -/
theorem C73_needed : ∀ text ∈ [
      q%"\\title{A}\n\n\\bold{x}\n",
      q%"\\title{A}{t}\n\n\\reference{t}\n",
      q%"\\title{A}\n\n\\list{x}\n",
      q%"\\title{A}\n\n\\target{x}\n",
      q%"\\title{A}\n\n\\link{x}{y}\n",
      q%"\\title{A}\n\n\\image{x}\n",
      q%"\\title{A}\n\n\\code{x}\n"],
    (pageOf text).isSome = true ∧ plainOf text = none := by
  intro text ht
  simp only [List.mem_cons, List.not_mem_nil, or_false] at ht
  rcases ht with rfl | rfl | rfl | rfl | rfl | rfl | rfl <;> decide +kernel

end Booklit.Props
