import Verif.Lemmas.PartsL
import Verif.Spec.Tame

/-!
Contents whose text does not depend on the sections.
-/

namespace Booklit

def Content.isSect : Content → Bool
  | .sect _ => true
  | _ => false

/-- Nothing is missing, and there are no sections as content. -/
def Content.shut (c : Content) : Bool := c.all fun d => !d.isNil && !d.isSect

theorem Res.map_ok {α β : Type} (f : α → β) (a : α) : (Res.ok a).map f = .ok (f a) := rfl

/-- The same text whatever the references show. -/
def Steady (c : Content) : Prop := ∃ t, ∀ ref sect, c.text ref sect = .ok t

theorem steadyL {cs : List Content} (h : ∀ c ∈ cs, Steady c) : ∃ ts, ∀ ref sect, textL ref sect cs = .ok ts := by
  induction cs with
  | nil => exact ⟨[], fun _ _ => rfl⟩
  | cons c cs ih =>
    simp only [List.mem_cons, forall_eq_or_imp] at h
    obtain ⟨t, ht⟩ := h.1
    obtain ⟨ts, hts⟩ := ih h.2
    exact ⟨t :: ts, fun ref sect => by rw [textL, ht ref sect, hts ref sect]; rfl⟩

theorem steadyR {cs : List (List Content)} (h : ∀ r ∈ cs, ∀ c ∈ r, Steady c) : ∃ ts, ∀ ref sect, textR ref sect cs = .ok ts := by
  induction cs with
  | nil => exact ⟨[], fun _ _ => rfl⟩
  | cons c cs ih =>
    simp only [List.mem_cons, forall_eq_or_imp] at h
    obtain ⟨t, ht⟩ := steadyL h.1
    obtain ⟨ts, hts⟩ := ih h.2
    exact ⟨t :: ts, fun ref sect => by rw [textR, ht ref sect, hts ref sect]; rfl⟩

theorem steadyD {cs : List (Content × Content)} (h : ∀ d ∈ cs, Steady d.1 ∧ Steady d.2) :
    ∃ ts, ∀ ref sect, textD ref sect cs = .ok ts := by
  induction cs with
  | nil => exact ⟨[], fun _ _ => rfl⟩
  | cons d cs ih =>
    obtain ⟨a, b⟩ := d
    simp only [List.mem_cons, forall_eq_or_imp] at h
    obtain ⟨ta, hta⟩ := h.1.1
    obtain ⟨tb, htb⟩ := h.1.2
    obtain ⟨ts, hts⟩ := ih h.2
    have ha : a.isNil = false := by cases a <;> simp_all [Content.text, Content.isNil]
    have hb : b.isNil = false := by cases b <;> simp_all [Content.text, Content.isNil]
    exact ⟨_, fun ref sect => by
      rw [textD, hts ref sect]
      simp only [ha, hb, Bool.false_eq_true, if_false]
      rw [hta ref sect, htb ref sect]
      rfl⟩

theorem shut_steady (c : Content) : c.shut = true → Steady c := by
  unfold Content.shut
  induction c using Content.ind with
  | nil => intro h; cases h
  | sect i => intro h; cases h
  | str s => exact fun _ => ⟨s, fun _ _ => rfl⟩
  | toc i => exact fun _ => ⟨[], fun _ _ => rfl⟩
  | image p d => exact fun _ => ⟨_, fun _ _ => rfl⟩
  | lazy b i => exact fun _ => ⟨_, fun _ _ => rfl⟩
  | target => exact fun _ => ⟨[], fun _ _ => rfl⟩
  | seq cs ih | para cs ih | pre cs ih | list cs _ ih =>
    intro h
    simp only [Content.all, Bool.and_eq_true, allL_iff] at h
    obtain ⟨ts, hts⟩ := steadyL fun c hc => ih c hc (h.2 c hc)
    exact ⟨_, fun ref sect => by rw [Content.text, hts ref sect]; rfl⟩
  | ref s t c o l ih =>
    intro h
    simp only [Content.all, Bool.and_eq_true] at h
    obtain ⟨x, hx⟩ := ih h.2
    have hc : c.isNil = false := by have := all_self h.2; simp at this; exact this.1
    exact ⟨x, fun ref sect => by rw [Content.text, hc]; exact hx ref sect⟩
  | styled st b c ps ih _ =>
    intro h
    simp only [Content.all, Bool.and_eq_true] at h
    obtain ⟨x, hx⟩ := ih h.1.2
    exact ⟨x, hx⟩
  | link c u ih =>
    intro h
    simp only [Content.all, Bool.and_eq_true] at h
    obtain ⟨x, hx⟩ := ih h.2
    exact ⟨x, hx⟩
  | aux c ih =>
    intro h
    simp only [Content.all, Bool.and_eq_true] at h
    obtain ⟨x, hx⟩ := ih h.2
    exact ⟨x, hx⟩
  | table rs ih =>
    intro h
    simp only [Content.all, Bool.and_eq_true, allR_iff] at h
    obtain ⟨ts, hts⟩ := steadyR fun r hr c hc => ih r hr c hc (h.2 r hr c hc)
    exact ⟨_, fun ref sect => by rw [Content.text, hts ref sect]; rfl⟩
  | defs ds ih =>
    intro h
    simp only [Content.all, Bool.and_eq_true, allD_iff] at h
    obtain ⟨ts, hts⟩ := steadyD fun d hd => ⟨(ih d hd).1 (h.2 d hd).1, (ih d hd).2 (h.2 d hd).2⟩
    exact ⟨_, fun ref sect => by rw [Content.text, hts ref sect]; rfl⟩

theorem Steady.heap {c : Content} (h : Steady c) : ∃ t, ∀ (b : Bool) (hp : Heap) (k : Nat), hp.text b k c = .ok t := by
  obtain ⟨t, ht⟩ := h
  refine ⟨t, fun b hp k => ?_⟩
  cases k <;> rw [Heap.text] <;> exact ht _ _

/-- Stripping makes no sections. -/
theorem strip_noSect (c : Content) : c.all (fun d => !d.isSect) = true → ∀ c', stripAux c = some c' →
    c'.all (fun d => !d.isSect) = true := by
  induction c using Content.ind with
  | nil => simp [stripAux]
  | sect i => intro h; cases h
  | str | toc | image | lazy => intro _ c' h; simp [stripAux] at h; subst h; simp [Content.all, Content.isSect]
  | seq cs ih | para cs ih | pre cs ih =>
    intro hs c' h
    simp only [Content.all, Bool.and_eq_true, allL_iff] at hs
    cases h1 : stripAuxSeq cs <;> simp [stripAux, h1] at h
    subst h
    simp only [Content.all, Content.isSect]
    refine Bool.and_eq_true_iff.mpr ⟨rfl, allL_iff.mpr fun c hc => ?_⟩
    obtain ⟨d, hd, _, h'⟩ := seq_mem h1 hc
    exact ih d hd (hs.2 d hd) c h'
  | list cs o ih =>
    intro hs c' h
    simp only [Content.all, Bool.and_eq_true, allL_iff] at hs
    cases h1 : stripAuxSeq cs <;> simp [stripAux, h1] at h
    subst h
    simp only [Content.all, Content.isSect]
    refine Bool.and_eq_true_iff.mpr ⟨rfl, allL_iff.mpr fun c hc => ?_⟩
    obtain ⟨d, hd, _, h'⟩ := seq_mem h1 hc
    exact ih d hd (hs.2 d hd) c h'
  | ref s t c o l ih =>
    intro hs c' h
    simp only [Content.all, Bool.and_eq_true] at hs
    cases h1 : stripAux c <;> simp [stripAux, h1] at h
    subst h
    simp only [Content.all, ih hs.2 _ h1]; rfl
  | styled st b c ps ih ihp =>
    intro hs c' h
    simp only [Content.all, Bool.and_eq_true, allP_iff] at hs
    cases h1 : stripAux c <;> simp [stripAux, h1] at h
    cases h2 : stripAuxPartials ps <;> simp [h2] at h
    subst h
    simp only [Content.all]
    refine Bool.and_eq_true_iff.mpr ⟨by rw [ih hs.1.2 _ h1]; rfl, allP_iff.mpr fun c hc => ?_⟩
    obtain ⟨d, hd, _, h'⟩ := partials_mem h2 hc
    exact ihp d hd (hs.2 d hd) _ h'
  | target t l ti c ih1 ih2 =>
    intro hs c' h
    simp only [Content.all, Bool.and_eq_true] at hs
    cases h1 : stripAux ti <;> simp [stripAux, h1] at h
    cases h2 : stripAux c <;> simp [h2] at h
    subst h
    simp only [Content.all]
    rw [ih1 hs.1.2 _ h1, ih2 hs.2 _ h2]; rfl
  | link c u ih =>
    intro hs c' h
    simp only [Content.all, Bool.and_eq_true] at hs
    cases h1 : stripAux c <;> simp [stripAux, h1] at h
    subst h
    simp only [Content.all]
    rw [ih hs.2 _ h1]; rfl
  | table rs ih =>
    intro hs c' h
    simp only [Content.all, Bool.and_eq_true, allR_iff] at hs
    cases h1 : stripAuxRows rs <;> simp [stripAux, h1] at h
    subst h
    simp only [Content.all]
    refine Bool.and_eq_true_iff.mpr ⟨rfl, allR_iff.mpr fun r hr c hc => ?_⟩
    obtain ⟨r0, hr0, h2⟩ := rows_mem h1 hr
    obtain ⟨d, hd, _, h'⟩ := seq_mem h2 hc
    exact ih r0 hr0 d hd (hs.2 r0 hr0 d hd) c h'
  | defs ds ih =>
    intro hs c' h
    simp only [Content.all, Bool.and_eq_true, allD_iff] at hs
    cases h1 : stripAuxDefs ds <;> simp [stripAux, h1] at h
    subst h
    simp only [Content.all]
    refine Bool.and_eq_true_iff.mpr ⟨rfl, allD_iff.mpr fun r hr => ?_⟩
    obtain ⟨r0, hr0, h2, h3⟩ := defs_mem h1 hr
    exact ⟨(ih r0 hr0).1 (hs.2 r0 hr0).1 _ h2, (ih r0 hr0).2 (hs.2 r0 hr0).2 _ h3⟩
  | aux c ih =>
    intro hs c' h
    simp only [Content.all, Bool.and_eq_true] at hs
    exact ih hs.2 c' (by simpa [stripAux] using h)

/-- All parts satisfy both conditions, or each separately. -/
theorem all_and {p q : Content → Bool} (c : Content) : c.all (fun d => p d && q d) = (c.all p && c.all q) := by
  rw [Bool.eq_iff_iff, Bool.and_eq_true]
  induction c using Content.ind with
  | seq cs ih | para cs ih | pre cs ih | list cs _ ih =>
    simp only [Content.all, Bool.and_eq_true, allL_iff]
    constructor
    · rintro ⟨⟨h1, h2⟩, h3⟩
      exact ⟨⟨h1, fun c hc => ((ih c hc).1 (h3 c hc)).1⟩, h2, fun c hc => ((ih c hc).1 (h3 c hc)).2⟩
    · rintro ⟨⟨h1, h2⟩, h3, h4⟩
      exact ⟨⟨h1, h3⟩, fun c hc => (ih c hc).2 ⟨h2 c hc, h4 c hc⟩⟩
  | styled st b c ps ih ihp =>
    simp only [Content.all, Bool.and_eq_true, allP_iff]
    constructor
    · rintro ⟨⟨⟨h1, h2⟩, h3⟩, h4⟩
      exact ⟨⟨⟨h1, (ih.1 h3).1⟩, fun c hc => ((ihp c hc).1 (h4 c hc)).1⟩, ⟨h2, (ih.1 h3).2⟩,
        fun c hc => ((ihp c hc).1 (h4 c hc)).2⟩
    · rintro ⟨⟨⟨h1, h2⟩, h3⟩, ⟨h4, h5⟩, h6⟩
      exact ⟨⟨⟨h1, h4⟩, ih.2 ⟨h2, h5⟩⟩, fun c hc => (ihp c hc).2 ⟨h3 c hc, h6 c hc⟩⟩
  | table rs ih =>
    simp only [Content.all, Bool.and_eq_true, allR_iff]
    constructor
    · rintro ⟨⟨h1, h2⟩, h3⟩
      exact ⟨⟨h1, fun r hr c hc => ((ih r hr c hc).1 (h3 r hr c hc)).1⟩, h2, fun r hr c hc => ((ih r hr c hc).1 (h3 r hr c hc)).2⟩
    · rintro ⟨⟨h1, h2⟩, h3, h4⟩
      exact ⟨⟨h1, h3⟩, fun r hr c hc => (ih r hr c hc).2 ⟨h2 r hr c hc, h4 r hr c hc⟩⟩
  | defs ds ih =>
    simp only [Content.all, Bool.and_eq_true, allD_iff]
    constructor
    · rintro ⟨⟨h1, h2⟩, h3⟩
      exact ⟨⟨h1, fun d hd => ⟨((ih d hd).1.1 (h3 d hd).1).1, ((ih d hd).2.1 (h3 d hd).2).1⟩⟩, h2,
        fun d hd => ⟨((ih d hd).1.1 (h3 d hd).1).2, ((ih d hd).2.1 (h3 d hd).2).2⟩⟩
    · rintro ⟨⟨h1, h2⟩, h3, h4⟩
      exact ⟨⟨h1, h3⟩, fun d hd => ⟨(ih d hd).1.2 ⟨(h2 d hd).1, (h4 d hd).1⟩, (ih d hd).2.2 ⟨(h2 d hd).2, (h4 d hd).2⟩⟩⟩
  | ref s t c o l ih | link c _ ih | aux c ih =>
    simp only [Content.all, Bool.and_eq_true, ih]
    constructor
    · rintro ⟨⟨h1, h2⟩, h3, h4⟩; exact ⟨⟨h1, h3⟩, h2, h4⟩
    · rintro ⟨⟨h1, h2⟩, h3, h4⟩; exact ⟨⟨h1, h3⟩, h2, h4⟩
  | target t l ti c ih1 ih2 =>
    simp only [Content.all, Bool.and_eq_true, ih1, ih2]
    constructor
    · rintro ⟨⟨⟨h1, h2⟩, h3, h4⟩, h5, h6⟩; exact ⟨⟨⟨h1, h3⟩, h5⟩, ⟨h2, h4⟩, h6⟩
    · rintro ⟨⟨⟨h1, h3⟩, h5⟩, ⟨h2, h4⟩, h6⟩; exact ⟨⟨⟨h1, h2⟩, h3, h4⟩, h5, h6⟩
  | _ => simp [Content.all]

/-- The stripped title of a shut content has a steady text. -/
theorem shut_strip {c : Content} (h : c.shut = true) : ∃ c', stripAux c = some c' ∧ Steady c' := by
  rw [Content.shut, all_and, Bool.and_eq_true] at h
  obtain ⟨c', hc⟩ := Option.isSome_iff_exists.1 (strip_some c h.1)
  refine ⟨c', hc, shut_steady c' ?_⟩
  have h1 := strip_clean c c' hc
  have h2 := strip_noSect c h.2 c' hc
  rw [all_and, Bool.and_eq_true] at h1
  rw [Content.shut, all_and, h1.2, h2]
  rfl

/-- Contents without holes say whether they are flow. -/
theorem isFlow_some (c : Content) : c.isNil = false → c.all Content.noHoles = true → (isFlow c).isSome = true := by
  induction c using Content.ind with
  | nil => intro h; cases h
  | seq cs ih =>
    intro _ h
    simp only [Content.all, Content.noHoles, Bool.and_eq_true, allL_iff, List.all_eq_true, Bool.not_eq_true'] at h
    rw [isFlow]
    obtain ⟨h1, h2⟩ := h
    induction cs with
    | nil => rfl
    | cons c cs ih' =>
      rw [isFlowSeq]
      have := ih c (by simp) (h1 c (by simp)) (h2 c (by simp))
      cases hx : isFlow c with
      | none => rw [hx] at this; cases this
      | some b =>
        cases b with
        | false => rfl
        | true =>
          exact ih' (fun d hd => ih d (by simp [hd])) rfl (fun d hd => h1 d (by simp [hd])) (fun d hd => h2 d (by simp [hd]))
  | styled st b c ps ih _ =>
    intro _ h
    simp only [Content.all, Content.noHoles, Bool.and_eq_true, Bool.not_eq_true'] at h
    rw [isFlow]
    split
    · rfl
    · exact ih h.1.1 h.1.2
  | link c _ ih | aux c ih =>
    intro _ h
    simp only [Content.all, Content.noHoles, Bool.and_eq_true, Bool.not_eq_true'] at h
    exact ih h.1 h.2
  | _ => intros; rfl

end Booklit
