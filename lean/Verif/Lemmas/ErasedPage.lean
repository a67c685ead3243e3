import Verif.Lemmas.ErasedTmpl
import Verif.Model.TextEngine

/-!
The pages of the model are the same without places, up to the places in errors.
-/

namespace Booklit

section
variable {I I' : Inner}

theorem htmlL_erased {cs : List Content} (h : ∀ c ∈ cs, c.erased.html I' = (c.html I).erased id) :
    htmlL I' (cs.map Content.erased) = (htmlL I cs).erased id := by
  induction cs with
  | nil => rfl
  | cons c cs ih =>
    simp only [List.map_cons, htmlL, h c (by simp), ih fun x hx => h x (by simp [hx])]
    exact Res.bind_erased fun x => by simp only [Res.map_erased, Res.erased_map]; rfl

theorem htmlR_erased {rs : List (List Content)} (h : ∀ x ∈ rs, ∀ c ∈ x, c.erased.html I' = (c.html I).erased id) :
    htmlR I' (rs.map fun x => x.map Content.erased) = (htmlR I rs).erased id := by
  induction rs with
  | nil => rfl
  | cons x rs ih =>
    simp only [List.map_cons, htmlR, htmlL_erased (h x (by simp)), ih fun x hx => h x (by simp [hx])]
    exact Res.bind_erased fun x => by simp only [Res.map_erased, Res.erased_map]; rfl

theorem htmlD_erased {ds : List (Content × Content)}
    (h : ∀ x ∈ ds, x.1.erased.html I' = (x.1.html I).erased id ∧ x.2.erased.html I' = (x.2.html I).erased id) :
    htmlD I' (ds.map fun p => (p.1.erased, p.2.erased)) = (htmlD I ds).erased id := by
  induction ds with
  | nil => rfl
  | cons x ds ih =>
    obtain ⟨a, b⟩ := x
    have hx := h (a, b) (by simp)
    dsimp only at hx
    simp only [List.map_cons, htmlD, hx.1, hx.2, ih fun x hx => h x (by simp [hx])]
    exact Res.bind_erased fun x => Res.bind_erased fun y => by simp only [Res.map_erased, Res.erased_map]; rfl

theorem html_erased (hr : ∀ s t c o l, I'.ref s t c.erased o Location.zero = (I.ref s t c o l).erased id)
    (hs : ∀ i, I'.sect i = (I.sect i).erased id) (ht : ∀ i, I'.toc i = (I.toc i).erased id) (hf : ∀ i, I'.force i = (I.force i).erased id)
    (hx : ∀ c, I'.raw c.erased = (I.raw c).erased id) (c : Content) : c.erased.html I' = (c.html I).erased id := by
  induction c using Content.ind with
  | nil | str | target | image => rfl
  | seq cs ih | para cs ih | pre cs ih | list cs o ih =>
    simp only [Content.erased, Content.html, erasedL_eq, htmlL_erased ih, Res.map_erased, Res.erased_map]
    rfl
  | ref s t c o l ih => exact hr s t c o l
  | sect i => exact hs i
  | toc i => exact ht i
  | lazy b i => exact hf i
  | styled st b c ps ih _ =>
    simp only [Content.erased, Content.html, ih, isFlow_erased, hx, Res.map_erased, Res.erased_recover]
    split
    · split
      · rfl
      · simp only [Res.erased_map]; rfl
      · simp only [Res.erased_map]; rfl
    · split
      · rfl
      · split
        · rfl
        · simp only [Res.erased_map]; rfl
  | link c u ih =>
    simp only [Content.erased, Content.html, ih, Res.map_erased, Res.erased_map]
    rfl
  | aux c ih => simp only [Content.erased, Content.html, ih]
  | table rs ih =>
    simp only [Content.erased, Content.html, erasedR_eq, htmlR_erased ih, Res.map_erased, Res.erased_map]
    rfl
  | defs ds ih =>
    simp only [Content.erased, Content.html, erasedD_eq, htmlD_erased ih, Res.map_erased, Res.erased_map]
    rfl

end

section
variable (S : Site) {h h' : Heap} (H : ErasedTo h h')
include H

theorem refHtml_erased {n : Nat} {f f' : Content → Res Str} (hf : ∀ c, f' c.erased = (f c).erased id) (s t c o l) :
    h'.refHtml S.erased n f' s t c.erased o Location.zero = (h.refHtml S n f s t c o l).erased id := by
  unfold Heap.refHtml
  rw [refTag_erased H n S.erased.brokenOk s t o l]
  have hb : S.erased.brokenOk = S.brokenOk := rfl
  rw [hb]
  have ht := Tmpl.tagOf_erased S H n s t o l
  unfold Tmpl.Heap.tagOf at ht
  rw [refTag_erased H n S.erased.brokenOk s t o l, hb] at ht
  cases e : h.refTag n S.brokenOk s t o l with
  | none => rfl
  | some x =>
    rw [e] at ht
    cases x with
    | tag g =>
      simp only [Option.map_some, Resolved.erased, Tag.erased, erased_isNil]
      cases g.sec with
      | none => rfl
      | some i =>
        dsimp only
        rw [sectionURL_erased H]
        have hi : (if c.isNil = true then g.title.erased else c.erased) = (if c.isNil = true then g.title else c).erased := by split <;> rfl
        rw [hi, stripAux_erased]
        cases h.sectionURL htmlExt n i g.anchor with
        | none => rfl
        | some u =>
          simp only [Res.ofFuel, Res.bind]
          cases stripAux (if c.isNil = true then g.title else c) with
          | none => rfl
          | some d =>
            simp only [Option.map_some, hf, Res.map_erased, Res.erased_map]
            rfl
    | nothing =>
      simp only [Option.map_some, Resolved.erased, stripAux_erased]
      cases stripAux c with
      | none => rfl
      | some d => exact hf d
    | unknown =>
      simp only [Option.map_some, Resolved.erased, Heap.unknownTag] at ht ⊢
      generalize Res.ofFuel (h.filePath n s) = a at ht ⊢
      generalize Res.ofFuel (h.tagsUp (fun _ => true) n none s) = b at ht ⊢
      generalize Res.ofFuel (h'.filePath n s) = a' at ht ⊢
      generalize Res.ofFuel (h'.tagsUp (fun _ => true) n none s) = b' at ht ⊢
      cases a <;> cases b <;> cases a' <;> cases b' <;> simp_all [Res.bind, Res.erased]
    | ambiguous ls =>
      simp only [Option.map_some, Resolved.erased, Heap.ambiguousTag] at ht ⊢
      generalize resMap _ ls = a at ht ⊢
      generalize resMap _ (ls.map _) = a' at ht ⊢
      generalize Res.ofFuel (h.filePath n s) = b at ht ⊢
      generalize Res.ofFuel (h'.filePath n s) = b' at ht ⊢
      cases a <;> cases b <;> cases a' <;> cases b' <;> simp_all [Res.bind, Res.erased]

omit H in
theorem kids_erased {f f' : Content → Res Str} (hf : ∀ c, f' c.erased = (f c).erased id) (cs : List Nat) :
    resMap (fun c => f' (.sect c)) cs = (resMap (fun c => f (.sect c)) cs).erased id := by
  have := resMap_erased (f := fun c => f (.sect c)) (g := fun c => f' (.sect c)) (m := id) (b := id) (fun c => hf (.sect c)) cs
  rw [List.map_id] at this
  rw [this]
  simp

omit H in
theorem ite_erased {α : Type} {p : Prop} {d d' : Decidable p} {a b a' b' : Res α} (ha : p → a' = a.erased id) (hb : ¬ p → b' = b.erased id) :
    @ite _ p d' a' b' = (@ite _ p d a b).erased id := by
  by_cases h : p
  · rw [if_pos h, if_pos h]; exact ha h
  · rw [if_neg h, if_neg h]; exact hb h

omit H in
theorem Res.bind_erased' {α β γ δ : Type} {f : α → β} {g : γ → δ} {a : Res α} {b : Res β} {k : α → Res γ} {k' : β → Res δ}
    (hb : b = a.erased f) (h : ∀ x, k' (f x) = (k x).erased g) : b.bind k' = (a.bind k).erased g := by
  rw [hb]; exact Res.bind_erased h

omit H in
theorem Res.map_erased' {α γ : Type} {g : α → γ} {a b : Res α} (hb : b = a.erased id) : b.map g = (a.map g).erased id := by
  rw [hb]; cases a <;> rfl

omit H in
theorem fuel_erased {α : Type} (o : Option α) : Res.ofFuel o = (Res.ofFuel o).erased id := by cases o <;> rfl

theorem sectHtml_erased {n : Nat} {f f' : Content → Res Str} (hf : ∀ c, f' c.erased = (f c).erased id) (i : Nat) :
    h'.sectHtml n f' i = (h.sectHtml n f i).erased id := by
  unfold Heap.sectHtml
  rw [H i, headerDepth_erased H, number_erased H]
  simp only [Sec.erased, hf, kids_erased hf]
  refine ite_erased (fun _ => ?_) (fun _ => ?_)
  · rfl
  · refine Res.bind_erased' (fuel_erased _) fun d => Res.bind_erased' (f := id) ?_ fun num => Res.bind_erased' (f := id) rfl fun title =>
      Res.bind_erased' (f := id) rfl fun body => Res.map_erased' ?_
    · refine ite_erased (fun _ => ?_) (fun _ => ?_)
      · exact Res.map_erased' (fuel_erased _)
      · rfl
    · refine ite_erased (fun _ => ?_) (fun _ => ?_)
      · rfl
      · exact Res.map_erased' rfl

theorem tocHtml_erased {f f' : Content → Res Str} (hf : ∀ c, f' c.erased = (f c).erased id) : ∀ n i,
    h'.tocHtml f' n i = (h.tocHtml f n i).erased id := by
  intro n
  induction n with
  | zero => intro i; rfl
  | succ n ih =>
    intro i
    rw [Heap.tocHtml, Heap.tocHtml, H i]
    simp only [Sec.erased]
    refine ite_erased (fun _ => ?_) (fun _ => ?_)
    · rfl
    · refine Res.map_erased' ?_
      have := resMap_erased (f := h.tocEntry n f (h.tocHtml f n)) (g := h'.tocEntry n f' (h'.tocHtml f' n)) (m := id) (b := id) (fun c => ?_)
        (h.get i).children
      · rw [List.map_id] at this
        rw [this]
        simp
      · unfold Heap.tocEntry
        rw [id, H c, number_erased H]
        simp only [Sec.erased, Tag.erased, stripAux_erased]
        cases (h.get c).primaryTag.sec with
        | none => rfl
        | some j =>
          dsimp only
          rw [sectionURL_erased H]
          refine Res.bind_erased' (fuel_erased _) fun d => Res.bind_erased' (fuel_erased _) fun k => ?_
          cases stripAux (h.get c).title with
          | none => rfl
          | some d => exact Res.bind_erased' (hf d) fun t => Res.map_erased' (ih c)

theorem heapHtml_erased : ∀ n c, h'.html S.erased n c.erased = (h.html S n c).erased id := by
  intro n
  induction n with
  | zero =>
    intro c
    rw [Heap.html, Heap.html]
    exact html_erased (fun _ _ _ _ _ => rfl) (fun _ => rfl) (fun _ => rfl) (fun _ => rfl) (fun _ => rfl) c
  | succ n ih =>
    intro c
    rw [Heap.html, Heap.html]
    refine html_erased (refHtml_erased S H ih) (sectHtml_erased H ih) (tocHtml_erased H ih n) (fun i => ?_) (heapText_erased H _ n) c
    simp only [Site.erased]
    cases S.force i with
    | none => rfl
    | some d => exact ih d

theorem page_erased (n i : Nat) : h'.page S.erased n i = (h.page S n i).erased id := by
  unfold Heap.page
  rw [H i]
  refine Res.bind_erased' (f := id) ?_ fun t => Res.map_erased' (heapHtml_erased S H n (.sect i))
  rw [← Res.erased_recover]
  exact congrArg _ (heapText_erased H _ n _)

/-! ### Text -/

omit H in
theorem txtL_erased {I I' : InnerTxt} {cs : List Content} (h : ∀ c ∈ cs, c.erased.txt I' = (c.txt I).erased id) :
    txtL I' (cs.map Content.erased) = (txtL I cs).erased id := by
  induction cs with
  | nil => rfl
  | cons c cs ih =>
    simp only [List.map_cons, txtL, h c (by simp), ih fun x hx => h x (by simp [hx])]
    exact Res.bind_erased fun x => by simp only [Res.map_erased, Res.erased_map]; rfl

omit H in
theorem txt_erased {I I' : InnerTxt} (hs : ∀ i, I'.sect i = (I.sect i).erased id) (ht : ∀ i, I'.toc i = (I.toc i).erased id)
    (hf : ∀ i, I'.force i = (I.force i).erased id) (hx : ∀ c, I'.raw c.erased = (I.raw c).erased id) (c : Content) :
    c.erased.txt I' = (c.txt I).erased id := by
  induction c using Content.ind with
  | nil | str | target | image | ref | list | link | table | defs => rfl
  | seq cs ih | para cs ih | pre cs ih =>
    simp only [Content.erased, Content.txt, erasedL_eq, txtL_erased ih, Res.map_erased, Res.erased_map]
    rfl
  | sect i => exact hs i
  | toc i => exact ht i
  | lazy b i => exact hf i
  | styled st b c ps ih _ =>
    simp only [Content.erased, Content.txt, ih, hx, Res.map_erased, Res.erased_recover]
    split
    · simp only [Res.erased_map]; rfl
    · split <;> rfl
  | aux c ih => simp only [Content.erased, Content.txt, ih]

theorem sectTmpl_erased {n : Nat} {f f' : Content → Res Str} (hf : ∀ c, f' c.erased = (f c).erased id) (i : Nat) :
    h'.sectTmpl n f' i = (h.sectTmpl n f i).erased id := by
  unfold Heap.sectTmpl
  rw [H i, number_erased H]
  simp only [Sec.erased, hf, kids_erased hf]
  refine Res.bind_erased' (f := id) ?_ fun num => Res.bind_erased' (f := id) rfl fun title =>
    Res.bind_erased' (f := id) rfl fun body => Res.map_erased' ?_
  · refine ite_erased (fun _ => ?_) (fun _ => ?_)
    · exact Res.map_erased' (fuel_erased _)
    · rfl
  · refine ite_erased (fun _ => ?_) (fun _ => ?_)
    · rfl
    · exact Res.map_erased' rfl

theorem tocTxt_erased {f f' : Content → Res Str} (hf : ∀ c, f' c.erased = (f c).erased id) : ∀ n i,
    h'.tocTxt f' n i = (h.tocTxt f n i).erased id := by
  intro n
  induction n with
  | zero => intro i; rfl
  | succ n ih =>
    intro i
    rw [Heap.tocTxt, Heap.tocTxt, H i]
    simp only [Sec.erased]
    refine ite_erased (fun _ => ?_) (fun _ => ?_)
    · rfl
    · refine Res.map_erased' ?_
      have := resMap_erased (f := h.tocLine n f (h.tocTxt f n)) (g := h'.tocLine n f' (h'.tocTxt f' n)) (m := id) (b := id) (fun c => ?_)
        (h.get i).children
      · rw [List.map_id] at this
        rw [this]
        simp
      · unfold Heap.tocLine
        rw [id, H c, number_erased H]
        simp only [Sec.erased, stripAux_erased]
        refine Res.bind_erased' (fuel_erased _) fun k => ?_
        cases stripAux (h.get c).title with
        | none => rfl
        | some d => exact Res.bind_erased' (hf d) fun t => Res.map_erased' (ih c)

theorem pageTmpl_erased {n : Nat} {f f' : Content → Res Str} (hf : ∀ c, f' c.erased = (f c).erased id) (i : Nat) :
    h'.pageTmpl S.erased n f' i = (h.pageTmpl S n f i).erased id := by
  unfold Heap.pageTmpl
  rw [H i]
  refine Res.bind_erased' (f := id) ?_ fun t => Res.map_erased' (hf (.sect i))
  rw [← Res.erased_recover]
  exact congrArg _ (heapText_erased H _ n _)

theorem heapTxt_erased : ∀ n c, h'.txt S.erased n c.erased = (h.txt S n c).erased id := by
  intro n
  induction n with
  | zero =>
    intro c
    rw [Heap.txt, Heap.txt]
    exact txt_erased (fun _ => rfl) (fun _ => rfl) (fun _ => rfl) (fun _ => rfl) c
  | succ n ih =>
    intro c
    rw [Heap.txt, Heap.txt]
    refine txt_erased (fun i => ?_) (tocTxt_erased H ih n) (fun i => ?_) (heapText_erased H _ n) c
    · show h'.sectTxt S.erased n _ _ i = (h.sectTxt S n _ _ i).erased id
      unfold Heap.sectTxt
      rw [H i]
      simp only [Sec.erased]
      refine ite_erased (fun _ => ?_) (fun _ => ?_)
      · exact sectTmpl_erased H ih i
      · refine ite_erased (fun _ => ?_) (fun _ => ?_)
        · exact pageTmpl_erased S H ih i
        · refine ite_erased (fun _ => ?_) (fun _ => ?_)
          · rw [← Res.erased_recover]
            exact congrArg _ (heapText_erased H _ n (.sect i))
          · refine ite_erased (fun _ => ?_) (fun _ => ?_)
            · exact tocTxt_erased H ih n i
            · rfl
    · simp only [Site.erased]
      cases S.force i with
      | none => rfl
      | some d => exact ih d

theorem txtPage_erased (n i : Nat) : h'.txtPage S.erased n i = (h.txtPage S n i).erased id := by
  unfold Heap.txtPage
  rw [H i]
  simp only [Sec.erased]
  refine ite_erased (fun _ => ?_) (fun _ => ?_)
  · rfl
  · exact pageTmpl_erased S H (heapTxt_erased S H n) i

end

end Booklit
