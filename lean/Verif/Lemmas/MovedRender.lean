import Verif.Lemmas.MovedL

/-!
Texts and pages are the same in a moved heap.
-/

namespace Booklit

variable {d : Nat}

section
variable {r r' : Nat → Str → Bool → Location → Res Str} {q q' : Nat → Res Str}

theorem textL_moved {cs : List Content} (h : ∀ c ∈ cs, (c.moved d).text r' q' = c.text r q) :
    textL r' q' (cs.map (Content.moved d)) = textL r q cs := by
  induction cs with
  | nil => rfl
  | cons c cs ih => simp only [List.map_cons, textL, h c (by simp), ih fun x hx => h x (by simp [hx])]

theorem textR_moved {rs : List (List Content)} (h : ∀ x ∈ rs, ∀ c ∈ x, (c.moved d).text r' q' = c.text r q) :
    textR r' q' (rs.map fun x => x.map (Content.moved d)) = textR r q rs := by
  induction rs with
  | nil => rfl
  | cons x rs ih => simp only [List.map_cons, textR, textL_moved (h x (by simp)), ih fun x hx => h x (by simp [hx])]

theorem textD_moved {ds : List (Content × Content)}
    (h : ∀ x ∈ ds, (x.1.moved d).text r' q' = x.1.text r q ∧ (x.2.moved d).text r' q' = x.2.text r q) :
    textD r' q' (ds.map fun p => (p.1.moved d, p.2.moved d)) = textD r q ds := by
  induction ds with
  | nil => rfl
  | cons x ds ih =>
    obtain ⟨a, b⟩ := x
    have hx := h (a, b) (by simp)
    dsimp only at hx
    simp only [List.map_cons, textD, moved_isNil, hx.1, hx.2, ih fun x hx => h x (by simp [hx])]

theorem text_moved (hr : ∀ s t o l, r' (s + d) t o l = r s t o l) (hq : ∀ i, q' (i + d) = q i) (c : Content) :
    (c.moved d).text r' q' = c.text r q := by
  induction c using Content.ind with
  | nil | str | target | image | toc | lazy => rfl
  | seq cs ih | para cs ih | pre cs ih | list cs o ih => simp only [Content.moved, Content.text, movedL_eq, textL_moved ih]
  | ref s t c o l ih => simp only [Content.moved, Content.text, moved_isNil, hr, ih]
  | sect i => simp only [Content.moved, Content.text, hq]
  | styled st b c ps ih _ => simp only [Content.moved, Content.text, ih]
  | link c u ih | aux c ih => simp only [Content.moved, Content.text, ih]
  | table rs ih => simp only [Content.moved, Content.text, movedR_eq, textR_moved ih]
  | defs ds ih => simp only [Content.moved, Content.text, movedD_eq, textD_moved ih]

end

theorem heapText_moved {h h' : Heap} (H : MovedTo d h h') (b : Bool) : ∀ n c, h'.text b n (c.moved d) = h.text b n c := by
  intro n
  induction n with
  | zero => intro c; exact text_moved (fun _ _ _ _ => rfl) (fun _ => rfl) c
  | succ n ih =>
    intro c
    rw [Heap.text, Heap.text]
    refine text_moved (fun s t o l => ?_) (fun i => ?_) c
    · rw [refTag_moved H]
      cases h.refTag n b s t o l with
      | none => rfl
      | some x => cases x <;> first | rfl | exact ih _
    · rw [H i]
      simp only [Sec.moved, ih]

section
variable {I J : Inner}

/-- Renderers of the inner parts, the second for moved sections. -/
structure Inner.Moved (d : Nat) (I J : Inner) : Prop where
  ref : ∀ s t c o l, J.ref (s + d) t (c.moved d) o l = I.ref s t c o l
  sect : ∀ i, J.sect (i + d) = I.sect i
  toc : ∀ i, J.toc (i + d) = I.toc i
  force : ∀ i, J.force i = I.force i
  raw : ∀ c, J.raw (c.moved d) = I.raw c

theorem htmlL_moved {cs : List Content} (h : ∀ c ∈ cs, (c.moved d).html J = c.html I) :
    htmlL J (cs.map (Content.moved d)) = htmlL I cs := by
  induction cs with
  | nil => rfl
  | cons c cs ih => simp only [List.map_cons, htmlL, h c (by simp), ih fun x hx => h x (by simp [hx])]

theorem htmlR_moved {rs : List (List Content)} (h : ∀ x ∈ rs, ∀ c ∈ x, (c.moved d).html J = c.html I) :
    htmlR J (rs.map fun x => x.map (Content.moved d)) = htmlR I rs := by
  induction rs with
  | nil => rfl
  | cons x rs ih => simp only [List.map_cons, htmlR, htmlL_moved (h x (by simp)), ih fun x hx => h x (by simp [hx])]

theorem htmlD_moved {ds : List (Content × Content)}
    (h : ∀ x ∈ ds, (x.1.moved d).html J = x.1.html I ∧ (x.2.moved d).html J = x.2.html I) :
    htmlD J (ds.map fun p => (p.1.moved d, p.2.moved d)) = htmlD I ds := by
  induction ds with
  | nil => rfl
  | cons x ds ih =>
    obtain ⟨a, b⟩ := x
    have hx := h (a, b) (by simp)
    dsimp only at hx
    simp only [List.map_cons, htmlD, hx.1, hx.2, ih fun x hx => h x (by simp [hx])]

theorem html_moved (h : I.Moved d J) (c : Content) : (c.moved d).html J = c.html I := by
  induction c using Content.ind with
  | nil | str | target | image => rfl
  | seq cs ih | para cs ih | pre cs ih | list cs o ih => simp only [Content.moved, Content.html, movedL_eq, htmlL_moved ih]
  | ref s t c o l ih => exact h.ref s t c o l
  | sect i => exact h.sect i
  | toc i => exact h.toc i
  | lazy b i => exact h.force i
  | styled st b c ps ih _ => simp only [Content.moved, Content.html, ih, isFlow_moved, h.raw]
  | link c u ih | aux c ih => simp only [Content.moved, Content.html, ih]
  | table rs ih => simp only [Content.moved, Content.html, movedR_eq, htmlR_moved ih]
  | defs ds ih => simp only [Content.moved, Content.html, movedD_eq, htmlD_moved ih]

end

theorem resMap_moved {β : Type} {f g : Nat → Res β} (h : ∀ i, g (i + d) = f i) (l : List Nat) :
    resMap g (l.map (· + d)) = resMap f l := by
  induction l with
  | nil => rfl
  | cons a l ih => simp only [List.map_cons, resMap, h, ih]

/-- The same site for moved sections. -/
def Site.Moved (d : Nat) (S S' : Site) : Prop := S'.brokenOk = S.brokenOk ∧ ∀ i, S'.force i = (S.force i).map (Content.moved d)

section
variable {S S' : Site} (K : S.Moved d S') {h h' : Heap} (H : MovedTo d h h')
include H

theorem sectHtml_moved {f g : Content → Res Str} (A : ∀ c, g (c.moved d) = f c) (n i : Nat) :
    h'.sectHtml n g (i + d) = h.sectHtml n f i := by
  unfold Heap.sectHtml
  simp only [H i, Sec.moved, headerDepth_moved H, number_moved H, A, Tag.moved]
  have hp : (Option.map (· + d) (h.get i).parent).isSome = (h.get i).parent.isSome := by cases (h.get i).parent <;> rfl
  have hr := resMap_moved (f := fun c => f (.sect c)) (g := fun c => g (.sect c)) (fun i => A (.sect i)) (h.get i).children
  simp only [hp, hr]

theorem tocEntry_moved {f g : Content → Res Str} (A : ∀ c, g (c.moved d) = f c) {u v : Nat → Res Str} (B : ∀ i, v (i + d) = u i)
    (n c : Nat) : h'.tocEntry n g v (c + d) = h.tocEntry n f u c := by
  unfold Heap.tocEntry
  simp only [H c, Sec.moved, Tag.moved, number_moved H, stripAux_moved, B]
  cases (h.get c).primaryTag.sec with
  | none => rfl
  | some i =>
    simp only [Option.map_some, sectionURL_moved H]
    cases stripAux (h.get c).title with
    | none => rfl
    | some x => simp only [Option.map_some, A]

theorem tocHtml_moved {f g : Content → Res Str} (A : ∀ c, g (c.moved d) = f c) : ∀ n i,
    h'.tocHtml g n (i + d) = h.tocHtml f n i := by
  intro n
  induction n with
  | zero => intro i; rfl
  | succ n ih =>
    intro i
    rw [Heap.tocHtml, Heap.tocHtml, H i]
    have hr := resMap_moved (f := h.tocEntry n f (h.tocHtml f n)) (g := h'.tocEntry n g (h'.tocHtml g n))
      (fun c => tocEntry_moved H A ih n c) (h.get i).children
    simp only [Sec.moved, List.map_eq_nil_iff, hr]

include K

theorem refHtml_moved {f g : Content → Res Str} (A : ∀ c, g (c.moved d) = f c) (n : Nat) (s t c o l) :
    h'.refHtml S' n g (s + d) t (c.moved d) o l = h.refHtml S n f s t c o l := by
  unfold Heap.refHtml
  rw [refTag_moved H, K.1]
  cases h.refTag n S.brokenOk s t o l with
  | none => rfl
  | some x =>
    cases x with
    | tag gt =>
      simp only [Option.map_some, Resolved.moved, Tag.moved]
      cases gt.sec with
      | none => rfl
      | some i =>
        simp only [Option.map_some, sectionURL_moved H, moved_isNil]
        have : (if c.isNil = true then gt.title.moved d else c.moved d) = (if c.isNil = true then gt.title else c).moved d := by
          split <;> rfl
        rw [this, stripAux_moved]
        cases stripAux (if c.isNil = true then gt.title else c) with
        | none => rfl
        | some x => simp only [Option.map_some, A]
    | nothing =>
      simp only [Option.map_some, Resolved.moved, stripAux_moved]
      cases stripAux c with
      | none => rfl
      | some x => simp only [Option.map_some, A]
    | unknown =>
      have ht : h'.tagsUp (fun _ => true) n none (s + d) = (h.tagsUp (fun _ => true) n none s).map (List.map (Tag.moved d)) :=
        tagsUp_moved H (fun _ => true) n none s
      simp only [Option.map_some, Resolved.moved, Heap.unknownTag, filePath_moved H, ht]
      cases h.filePath n s with
      | none => rfl
      | some p =>
        cases h.tagsUp (fun _ => true) n none s with
        | none => rfl
        | some gs =>
          simp only [Option.map_some, Res.ofFuel, Res.bind, List.map_map]
          rfl
    | ambiguous ls =>
      simp only [Option.map_some, Resolved.moved, Heap.ambiguousTag, filePath_moved H]
      congr 1
      induction ls with
      | nil => rfl
      | cons x ls ih =>
        simp only [List.map_cons, resMap, ih]
        obtain ⟨a, b⟩ := x
        cases a with
        | none => rfl
        | some i => simp only [Option.map_some, filePath_moved H]

theorem heapHtml_moved : ∀ n c, h'.html S' n (c.moved d) = h.html S n c := by
  intro n
  induction n with
  | zero => intro c; exact html_moved ⟨fun _ _ _ _ _ => rfl, fun _ => rfl, fun _ => rfl, fun _ => rfl, fun _ => rfl⟩ c
  | succ n ih =>
    intro c
    rw [Heap.html, Heap.html]
    refine html_moved ⟨refHtml_moved K H ih n, sectHtml_moved H ih n, tocHtml_moved H ih n, fun i => ?_, fun c => ?_⟩ c
    · simp only [K.2]
      cases S.force i with
      | none => rfl
      | some x => exact ih x
    · rw [K.1]
      exact heapText_moved H _ n c

theorem page_moved (n i : Nat) : h'.page S' n (i + d) = h.page S n i := by
  rw [Heap.page, Heap.page, H i, K.1]
  simp only [Sec.moved, heapText_moved H]
  have := heapHtml_moved K H n (.sect i)
  simp only [Content.moved] at this
  rw [this]

end

/-! ### Plain text -/

section
variable {I J : InnerTxt}

/-- Renderers of the inner parts, the second for moved sections. -/
structure InnerTxt.Moved (d : Nat) (I J : InnerTxt) : Prop where
  sect : ∀ i, J.sect (i + d) = I.sect i
  toc : ∀ i, J.toc (i + d) = I.toc i
  force : ∀ i, J.force i = I.force i
  raw : ∀ c, J.raw (c.moved d) = I.raw c

theorem txtL_moved {cs : List Content} (h : ∀ c ∈ cs, (c.moved d).txt J = c.txt I) :
    txtL J (cs.map (Content.moved d)) = txtL I cs := by
  induction cs with
  | nil => rfl
  | cons c cs ih => simp only [List.map_cons, txtL, h c (by simp), ih fun x hx => h x (by simp [hx])]

theorem txt_moved (h : I.Moved d J) (c : Content) : (c.moved d).txt J = c.txt I := by
  induction c using Content.ind with
  | seq cs ih | para cs ih | pre cs ih => simp only [Content.moved, Content.txt, movedL_eq, txtL_moved ih]
  | sect i => exact h.sect i
  | toc i => exact h.toc i
  | lazy b i => exact h.force i
  | styled st b c ps ih _ => simp only [Content.moved, Content.txt, ih, h.raw]
  | aux c ih => simp only [Content.moved, Content.txt, ih]
  | _ => rfl

end

section
variable {S S' : Site} (K : S.Moved d S') {h h' : Heap} (H : MovedTo d h h')
include H

theorem sectTmpl_moved {f g : Content → Res Str} (A : ∀ c, g (c.moved d) = f c) (n i : Nat) :
    h'.sectTmpl n g (i + d) = h.sectTmpl n f i := by
  unfold Heap.sectTmpl
  simp only [H i, Sec.moved, number_moved H, A]
  have hp : (Option.map (· + d) (h.get i).parent).isSome = (h.get i).parent.isSome := by cases (h.get i).parent <;> rfl
  have hr := resMap_moved (f := fun c => f (.sect c)) (g := fun c => g (.sect c)) (fun i => A (.sect i)) (h.get i).children
  simp only [hp, hr]

theorem tocLine_moved {f g : Content → Res Str} (A : ∀ c, g (c.moved d) = f c) {u v : Nat → Res Str} (B : ∀ i, v (i + d) = u i)
    (n c : Nat) : h'.tocLine n g v (c + d) = h.tocLine n f u c := by
  unfold Heap.tocLine
  simp only [H c, Sec.moved, number_moved H, stripAux_moved, B]
  cases stripAux (h.get c).title with
  | none => rfl
  | some x => simp only [Option.map_some, A]

theorem tocTxt_moved {f g : Content → Res Str} (A : ∀ c, g (c.moved d) = f c) : ∀ n i,
    h'.tocTxt g n (i + d) = h.tocTxt f n i := by
  intro n
  induction n with
  | zero => intro i; rfl
  | succ n ih =>
    intro i
    rw [Heap.tocTxt, Heap.tocTxt, H i]
    have hr := resMap_moved (f := h.tocLine n f (h.tocTxt f n)) (g := h'.tocLine n g (h'.tocTxt g n))
      (fun c => tocLine_moved H A ih n c) (h.get i).children
    simp only [Sec.moved, List.map_eq_nil_iff, hr]

include K

theorem pageTmpl_moved {f g : Content → Res Str} (A : ∀ c, g (c.moved d) = f c) (n i : Nat) :
    h'.pageTmpl S' n g (i + d) = h.pageTmpl S n f i := by
  unfold Heap.pageTmpl
  have := A (.sect i)
  simp only [Content.moved] at this
  rw [H i, K.1, this]
  simp only [Sec.moved, heapText_moved H]

theorem sectTxt_moved {f g : Content → Res Str} (A : ∀ c, g (c.moved d) = f c) {u v : Nat → Res Str} (B : ∀ i, v (i + d) = u i)
    (n i : Nat) : h'.sectTxt S' n g v (i + d) = h.sectTxt S n f u i := by
  unfold Heap.sectTxt
  have ht := heapText_moved H S.brokenOk n (.sect i)
  simp only [Content.moved] at ht
  simp only [H i, Sec.moved, sectTmpl_moved H A, pageTmpl_moved K H A, B, K.1, ht]

theorem heapTxt_moved : ∀ n c, h'.txt S' n (c.moved d) = h.txt S n c := by
  intro n
  induction n with
  | zero => intro c; exact txt_moved ⟨fun _ => rfl, fun _ => rfl, fun _ => rfl, fun _ => rfl⟩ c
  | succ n ih =>
    intro c
    rw [Heap.txt, Heap.txt]
    refine txt_moved ⟨sectTxt_moved K H ih (tocTxt_moved H ih n) n, tocTxt_moved H ih n, fun i => ?_, fun c => ?_⟩ c
    · simp only [K.2]
      cases S.force i with
      | none => rfl
      | some x => exact ih x
    · rw [K.1]
      exact heapText_moved H _ n c

theorem txtPage_moved (n i : Nat) : h'.txtPage S' n (i + d) = h.txtPage S n i := by
  rw [Heap.txtPage, Heap.txtPage, H i, pageTmpl_moved K H (heapTxt_moved K H n)]
  rfl

end

theorem requested_moved {h h' : Heap} (H : MovedTo d h h') (ext : Str) (n i : Nat) (path : Str) :
    h'.requested ext n (i + d) path = (h.requested ext n i path).map (Option.map (· + d)) := by
  unfold Heap.requested
  cases requestTag ext path with
  | none => rfl
  | some name =>
    simp only [findTag_moved H]
    cases h.findTag n i name with
    | none => rfl
    | some gs => cases gs <;> rfl

end Booklit
