import Verif.Lemmas.IncludesLoad
import Verif.Model.TextEngine
import Verif.Spec.Command

/-!
The pages, and the search index, of two books that differ only in which sections have files of their own.
-/

namespace Booklit

/-- If the first ends well then so does the second, in the same way. -/
def Res.To {α : Type} (r r' : Res α) : Prop := ∀ a, r = .ok a → r' = .ok a

theorem Res.To.rfl {α : Type} {r : Res α} : r.To r := fun _ h => h
theorem Res.To.of_eq {α : Type} {r r' : Res α} (h : r' = r) : r.To r' := fun _ e => h.trans e
theorem Res.To.err {α : Type} {e : Err} {r' : Res α} : (Res.err e).To r' := fun _ h => by cases h
theorem Res.To.more {α : Type} {r' : Res α} : (Res.more : Res α).To r' := fun _ h => by cases h

theorem Res.To.bind {α β : Type} {r r' : Res α} (h : r.To r') {f f' : α → Res β} (hf : ∀ a, r = .ok a → (f a).To (f' a)) :
    (r.bind f).To (r'.bind f') := by
  intro b e
  cases r with
  | ok a => rw [h a (Eq.refl _)]; exact hf a (Eq.refl _) b e
  | _ => cases e

theorem Res.To.map {α β : Type} {r r' : Res α} (h : r.To r') {f : α → β} : (r.map f).To (r'.map f) := by
  intro b e
  cases r with
  | ok a => rw [h a (Eq.refl _)]; exact e
  | _ => cases e

theorem Res.To.recover {α : Type} {r r' : Res α} (h : r.To r') : r.recover.To r'.recover := by
  intro b e
  cases r with
  | ok a => rw [h a (Eq.refl _)]; exact e
  | _ => cases e

theorem resMap_to {α β : Type} {f f' : α → Res β} {l : List α} (h : ∀ a ∈ l, (f a).To (f' a)) : (resMap f l).To (resMap f' l) := by
  induction l with
  | nil => exact .rfl
  | cons a l ih => exact (h a (by simp)).bind fun b _ => (ih fun x hx => h x (by simp [hx])).map

/-! ### Contents -/

/-- Contents that show no files when rendered: sections are rendered, but not printed. -/
abbrev Content.clear (c : Content) : Prop := c.quiet = true ∨ ∃ i, c = .sect i

theorem htmlL_to {I I' : Inner} {cs : List Content} (h : ∀ c ∈ cs, (c.html I).To (c.html I')) : (htmlL I cs).To (htmlL I' cs) := by
  induction cs with
  | nil => exact .rfl
  | cons c cs ih => exact (h c (by simp)).bind fun b _ => (ih fun x hx => h x (by simp [hx])).map

theorem html_to {I I' : Inner} (hr : ∀ s t c o l, c.quiet = true → (I.ref s t c o l).To (I'.ref s t c o l))
    (ht : ∀ i, (I.toc i).To (I'.toc i)) (hf : ∀ i, (I.force i).To (I'.force i)) (hx : ∀ c, c.quiet = true → (I.raw c).To (I'.raw c))
    (c : Content) : c.quiet = true → (c.html I).To (c.html I') := by
  induction c using Content.ind with
  | nil | str | target | image => intro _; exact .rfl
  | seq cs ih => intro h; exact (htmlL_to fun c hc => ih c hc (quiet_iff_seq.1 h c hc)).map
  | para cs ih => intro h; exact (htmlL_to fun c hc => ih c hc (quiet_iff_para.1 h c hc)).map
  | pre cs ih => intro h; exact (htmlL_to fun c hc => ih c hc (quiet_iff_pre.1 h c hc)).map
  | list cs o ih => intro h; exact (htmlL_to fun c hc => ih c hc (quiet_iff_list.1 h c hc)).map
  | ref s t c o l ih =>
    intro h
    simp only [Content.quiet, Content.all, Bool.and_eq_true] at h
    exact hr s t c o l h.2
  | sect i => intro h; cases h
  | toc i => intro _; exact ht i
  | lazy b i => intro _; exact hf i
  | styled st b c ps ih _ =>
    intro h
    simp only [Content.quiet, Content.all, Bool.and_eq_true] at h
    have hc := ih h.1.2
    rw [Content.html, Content.html]
    split
    · split
      · exact .err
      · exact hc.map
      · exact hc.map
    · split
      · exact (hx c h.1.2).recover
      · split
        · exact .err
        · exact hc.map
  | link c u ih =>
    intro h
    simp only [Content.quiet, Content.all, Bool.and_eq_true] at h
    exact (ih h.2).map
  | aux c ih =>
    intro h
    simp only [Content.quiet, Content.all, Bool.and_eq_true] at h
    exact ih h.2
  | table rs ih =>
    intro h
    replace h := quiet_iff_table.1 h
    have : (htmlR I rs).To (htmlR I' rs) := by
      induction rs with
      | nil => exact .rfl
      | cons r rs ih' =>
        exact (htmlL_to fun c hc => ih r (by simp) c hc (h r (by simp) c hc)).bind fun _ _ =>
          (ih' (fun x hx => ih x (by simp [hx])) fun x hx => h x (by simp [hx])).map
    exact this.map
  | defs ds ih =>
    intro h
    replace h := quiet_iff_defs.1 h
    have : (htmlD I ds).To (htmlD I' ds) := by
      induction ds with
      | nil => exact .rfl
      | cons p ds ih' =>
        obtain ⟨a, b⟩ := p
        have h1 := ih (a, b) (by simp)
        have h2 := h (a, b) (by simp)
        exact (h1.1 h2.1).bind fun _ _ => (h1.2 h2.2).bind fun _ _ =>
          (ih' (fun x hx => ih x (by simp [hx])) fun x hx => h x (by simp [hx])).map
    exact this.map

section
variable {h h' : Heap} (H : Twin h h') (q : h.Quiet) {S : Site} (hS : ∀ i c, S.force i = some c → c.quiet = true)
include H q

theorem text_to {b : Bool} {n : Nat} {c : Content} (hc : c.quiet = true) : (h.text b n c).To (h'.text b n c) :=
  .of_eq (heapText_twin H q b n c hc)

theorem refHtml_to {n : Nat} {f f' : Content → Res Str} (hf : ∀ c, c.quiet = true → (f c).To (f' c)) (s : Nat) (t : Str) (c : Content) (o : Bool)
    (l : Location) (hc : c.quiet = true) : (h.refHtml S n f s t c o l).To (h'.refHtml S n f' s t c o l) := by
  unfold Heap.refHtml
  rw [refTag_twin H]
  cases e : h.refTag n S.brokenOk s t o l with
  | none => exact .more
  | some x =>
    cases x with
    | tag g =>
      dsimp only
      cases g.sec with
      | none => exact .err
      | some i =>
        dsimp only
        refine .bind (.of_eq (by rw [sectionURL_twin H])) fun u _ => ?_
        cases e2 : stripAux (if c.isNil then g.title else c) with
        | none => exact .err
        | some d =>
          refine (hf d (quiet_strip ?_ e2)).map
          split
          · exact (refTag_quiet q e).1
          · exact hc
    | nothing =>
      dsimp only
      cases e2 : stripAux c with
      | none => exact .err
      | some d => exact hf d (quiet_strip hc e2)
    | unknown =>
      intro a ha
      dsimp only [Heap.unknownTag] at ha
      obtain ⟨_, _, ha⟩ := Res.ok_of_bind ha
      obtain ⟨_, _, ha⟩ := Res.ok_of_bind ha
      cases ha
    | ambiguous ls =>
      intro a ha
      dsimp only [Heap.ambiguousTag] at ha
      obtain ⟨_, _, ha⟩ := Res.ok_of_bind ha
      obtain ⟨_, _, ha⟩ := Res.ok_of_bind ha
      cases ha

theorem sectHtml_to {n : Nat} {f f' : Content → Res Str} (hf : ∀ c : Content, c.clear → (f c).To (f' c)) (i : Nat) :
    (h.sectHtml n f i).To (h'.sectHtml n f' i) := by
  unfold Heap.sectHtml
  simp only [H.style, headerDepth_twin H, number_twin H, H.parent, H.title, H.body, H.split, H.children, H.primaryTag]
  split
  · exact .err
  · refine .bind .rfl fun d _ => .bind .rfl fun num _ => .bind (hf _ (.inl (q i).title)) fun _ _ => .bind (hf _ (.inl (q i).body)) fun _ _ => .map ?_
    split
    · exact .rfl
    · exact (resMap_to fun c _ => hf _ (.inr ⟨c, rfl⟩)).map

theorem tocHtml_to {f f' : Content → Res Str} (hf : ∀ c : Content, c.quiet = true → (f c).To (f' c)) : ∀ n i,
    (h.tocHtml f n i).To (h'.tocHtml f' n i) := by
  intro n
  induction n with
  | zero => intro i; exact .more
  | succ n ih =>
    intro i
    rw [Heap.tocHtml, Heap.tocHtml]
    simp only [H.children, H.omitToc]
    split
    · exact .rfl
    · refine (resMap_to fun c _ => ?_).map
      unfold Heap.tocEntry
      simp only [H.primaryTag, sectionURL_twin H, number_twin H, H.title]
      split
      · exact .err
      · refine .bind .rfl fun _ _ => .bind .rfl fun _ _ => ?_
        cases e : stripAux (h.get c).title with
        | none => exact .err
        | some d => exact (hf d (quiet_strip (q c).title e)).bind fun _ _ => (ih c).map

include hS

theorem html_twin : ∀ n c, c.clear → (h.html S n c).To (h'.html S n c) := by
  intro n
  induction n with
  | zero =>
    rintro c (hc | ⟨i, rfl⟩)
    · exact html_to (fun _ _ _ _ _ _ => .more) (fun _ => .more) (fun _ => .more) (fun _ _ => .more) c hc
    · exact .more
  | succ n ih =>
    have ih' : ∀ c, c.quiet = true → (h.html S n c).To (h'.html S n c) := fun c hc => ih c (.inl hc)
    rintro c (hc | ⟨i, rfl⟩)
    · rw [Heap.html, Heap.html]
      refine html_to (refHtml_to H q ih') (tocHtml_to H q ih' n) (fun i => ?_) (fun c hc => text_to H q hc) c hc
      dsimp only
      cases e : S.force i with
      | none => exact .err
      | some d => exact ih' d (hS i d e)
    · rw [Heap.html, Heap.html]
      exact sectHtml_to H q ih i

theorem page_twin (n i : Nat) : (h.page S n i).To (h'.page S n i) := by
  unfold Heap.page
  rw [H.title]
  exact (text_to H q (q i).title).recover.bind fun _ _ => (html_twin H q hS n _ (.inr ⟨i, rfl⟩)).map

end

/-! ### The same for text -/

theorem txtL_to {I I' : InnerTxt} {cs : List Content} (h : ∀ c ∈ cs, (c.txt I).To (c.txt I')) : (txtL I cs).To (txtL I' cs) := by
  induction cs with
  | nil => exact .rfl
  | cons c cs ih => exact (h c (by simp)).bind fun b _ => (ih fun x hx => h x (by simp [hx])).map

theorem txt_to {I I' : InnerTxt} (ht : ∀ i, (I.toc i).To (I'.toc i)) (hf : ∀ i, (I.force i).To (I'.force i))
    (hx : ∀ c, c.quiet = true → (I.raw c).To (I'.raw c)) (c : Content) : c.quiet = true → (c.txt I).To (c.txt I') := by
  induction c using Content.ind with
  | nil | str | target | image | ref | list | link | table | defs => intro _; exact .rfl
  | seq cs ih => intro h; exact (txtL_to fun c hc => ih c hc (quiet_iff_seq.1 h c hc)).map
  | para cs ih => intro h; exact (txtL_to fun c hc => ih c hc (quiet_iff_para.1 h c hc)).map
  | pre cs ih => intro h; exact (txtL_to fun c hc => ih c hc (quiet_iff_pre.1 h c hc)).map
  | sect i => intro h; cases h
  | toc i => intro _; exact ht i
  | lazy b i => intro _; exact hf i
  | styled st b c ps ih _ =>
    intro h
    simp only [Content.quiet, Content.all, Bool.and_eq_true] at h
    rw [Content.txt, Content.txt]
    split
    · exact (ih h.1.2).map
    · split
      · exact (hx c h.1.2).recover
      · exact .err
  | aux c ih =>
    intro h
    simp only [Content.quiet, Content.all, Bool.and_eq_true] at h
    exact ih h.2

section
variable {h h' : Heap} (H : Twin h h') (q : h.Quiet) {S : Site} (hS : ∀ i c, S.force i = some c → c.quiet = true)
  (hst : ∀ i, (h.get i).style ≠ q%"string")
include H q

theorem sectTmpl_to {n : Nat} {f f' : Content → Res Str} (hf : ∀ c : Content, c.clear → (f c).To (f' c)) (i : Nat) :
    (h.sectTmpl n f i).To (h'.sectTmpl n f' i) := by
  unfold Heap.sectTmpl
  simp only [number_twin H, H.parent, H.title, H.body, H.split, H.children]
  refine .bind .rfl fun num _ => .bind (hf _ (.inl (q i).title)) fun _ _ => .bind (hf _ (.inl (q i).body)) fun _ _ => .map ?_
  split
  · exact .rfl
  · exact (resMap_to fun c _ => hf _ (.inr ⟨c, rfl⟩)).map

theorem tocTxt_to {f f' : Content → Res Str} (hf : ∀ c : Content, c.quiet = true → (f c).To (f' c)) : ∀ n i,
    (h.tocTxt f n i).To (h'.tocTxt f' n i) := by
  intro n
  induction n with
  | zero => intro i; exact .more
  | succ n ih =>
    intro i
    rw [Heap.tocTxt, Heap.tocTxt]
    simp only [H.children, H.omitToc]
    split
    · exact .rfl
    · refine (resMap_to fun c _ => ?_).map
      unfold Heap.tocLine
      simp only [number_twin H, H.title]
      refine .bind .rfl fun _ _ => ?_
      cases e : stripAux (h.get c).title with
      | none => exact .err
      | some d => exact (hf d (quiet_strip (q c).title e)).bind fun _ _ => (ih c).map

theorem pageTmpl_to {n : Nat} {f f' : Content → Res Str} (hf : ∀ c : Content, c.clear → (f c).To (f' c)) (i : Nat) :
    (h.pageTmpl S n f i).To (h'.pageTmpl S n f' i) := by
  unfold Heap.pageTmpl
  rw [H.title]
  exact (text_to H q (q i).title).recover.bind fun _ _ => (hf _ (.inr ⟨i, rfl⟩)).map

include hS hst

theorem txt_twin : ∀ n c, c.clear → (h.txt S n c).To (h'.txt S n c) := by
  intro n
  induction n with
  | zero =>
    rintro c (hc | ⟨i, rfl⟩)
    · exact txt_to (fun _ => .more) (fun _ => .more) (fun _ _ => .more) c hc
    · exact .more
  | succ n ih =>
    have ih' : ∀ c, c.quiet = true → (h.txt S n c).To (h'.txt S n c) := fun c hc => ih c (.inl hc)
    rintro c (hc | ⟨i, rfl⟩)
    · rw [Heap.txt, Heap.txt]
      refine txt_to (tocTxt_to H q ih' n) (fun i => ?_) (fun c hc => text_to H q hc) c hc
      dsimp only
      cases e : S.force i with
      | none => exact .err
      | some d => exact ih' d (hS i d e)
    · rw [Heap.txt, Heap.txt]
      show (h.sectTxt S n _ _ i).To (h'.sectTxt S n _ _ i)
      unfold Heap.sectTxt
      simp only [H.style]
      split
      · exact sectTmpl_to H q ih i
      · split
        · exact pageTmpl_to H q ih i
        · split
          · next e => exact absurd e (hst i)
          · split
            · exact tocTxt_to H q ih' n i
            · exact .err

theorem txtPage_twin (n i : Nat) : (h.txtPage S n i).To (h'.txtPage S n i) := by
  unfold Heap.txtPage
  rw [H.style]
  split
  · exact .err
  · exact pageTmpl_to H q (txt_twin H q hS hst n) i

end

end Booklit
