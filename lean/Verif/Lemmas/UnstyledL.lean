import Verif.Spec.Custom
import Verif.Lemmas.ClosedL

/-!
Parts of contents without a certain style.
-/

namespace Booklit

variable {x : List Str}

/-- Stripping brings in no style. -/
theorem strip_unstyled (c : Content) : c.unstyled x = true → ∀ c', stripAux c = some c' → c'.unstyled x = true := by
  unfold Content.unstyled
  induction c using Content.ind with
  | nil => simp [stripAux]
  | sect i => intro _ c' h; simp [stripAux] at h; subst h; rfl
  | str | toc | image | lazy => intro _ c' h; simp [stripAux] at h; subst h; rfl
  | seq cs ih | para cs ih | pre cs ih =>
    intro hs c' h
    simp only [Content.all, Bool.and_eq_true, allL_iff] at hs
    cases h1 : stripAuxSeq cs <;> simp [stripAux, h1] at h
    subst h
    simp only [Content.all]
    refine Bool.and_eq_true_iff.mpr ⟨rfl, allL_iff.mpr fun c hc => ?_⟩
    obtain ⟨d, hd, _, h'⟩ := seq_mem h1 hc
    exact ih d hd (hs.2 d hd) c h'
  | list cs o ih =>
    intro hs c' h
    simp only [Content.all, Bool.and_eq_true, allL_iff] at hs
    cases h1 : stripAuxSeq cs <;> simp [stripAux, h1] at h
    subst h
    simp only [Content.all]
    refine Bool.and_eq_true_iff.mpr ⟨rfl, allL_iff.mpr fun c hc => ?_⟩
    obtain ⟨d, hd, _, h'⟩ := seq_mem h1 hc
    exact ih d hd (hs.2 d hd) c h'
  | ref s t c o l ih =>
    intro hs c' h
    simp only [Content.all, Bool.and_eq_true] at hs
    cases h1 : stripAux c <;> simp [stripAux, h1] at h
    subst h
    simp only [Content.all, ih hs.2 _ h1]; rfl
  | styled st b c ps ih ihp =>
    intro hs c' h
    simp only [Content.all, Bool.and_eq_true, allP_iff] at hs
    cases h1 : stripAux c <;> simp [stripAux, h1] at h
    cases h2 : stripAuxPartials ps <;> simp [h2] at h
    subst h
    simp only [Content.all]
    refine Bool.and_eq_true_iff.mpr ⟨Bool.and_eq_true_iff.mpr ⟨hs.1.1, ih hs.1.2 _ h1⟩, allP_iff.mpr fun c hc => ?_⟩
    obtain ⟨d, hd, _, h'⟩ := partials_mem h2 hc
    exact ihp d hd (hs.2 d hd) _ h'
  | target t l ti c ih1 ih2 =>
    intro hs c' h
    simp only [Content.all, Bool.and_eq_true] at hs
    cases h1 : stripAux ti <;> simp [stripAux, h1] at h
    cases h2 : stripAux c <;> simp [h2] at h
    subst h
    simp only [Content.all]
    rw [ih1 hs.1.2 _ h1, ih2 hs.2 _ h2]; rfl
  | link c u ih =>
    intro hs c' h
    simp only [Content.all, Bool.and_eq_true] at hs
    cases h1 : stripAux c <;> simp [stripAux, h1] at h
    subst h
    simp only [Content.all]
    rw [ih hs.2 _ h1]; rfl
  | table rs ih =>
    intro hs c' h
    simp only [Content.all, Bool.and_eq_true, allR_iff] at hs
    cases h1 : stripAuxRows rs <;> simp [stripAux, h1] at h
    subst h
    simp only [Content.all]
    refine Bool.and_eq_true_iff.mpr ⟨rfl, allR_iff.mpr fun r hr c hc => ?_⟩
    obtain ⟨r0, hr0, h2⟩ := rows_mem h1 hr
    obtain ⟨d, hd, _, h'⟩ := seq_mem h2 hc
    exact ih r0 hr0 d hd (hs.2 r0 hr0 d hd) c h'
  | defs ds ih =>
    intro hs c' h
    simp only [Content.all, Bool.and_eq_true, allD_iff] at hs
    cases h1 : stripAuxDefs ds <;> simp [stripAux, h1] at h
    subst h
    simp only [Content.all]
    refine Bool.and_eq_true_iff.mpr ⟨rfl, allD_iff.mpr fun r hr => ?_⟩
    obtain ⟨r0, hr0, h2, h3⟩ := defs_mem h1 hr
    exact ⟨(ih r0 hr0).1 (hs.2 r0 hr0).1 _ h2, (ih r0 hr0).2 (hs.2 r0 hr0).2 _ h3⟩
  | aux c ih =>
    intro hs c' h
    simp only [Content.all, Bool.and_eq_true] at hs
    exact ih hs.2 c' (by simpa [stripAux] using h)

end Booklit
