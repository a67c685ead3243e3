import Verif.Lemmas.ContentInd
import Verif.Spec.AuxText

/-! Helper lemmas about `stripAux`. -/

namespace Booklit

theorem allL_iff {p : Content → Bool} {cs : List Content} : allL p cs = true ↔ ∀ c ∈ cs, c.all p = true := by
  induction cs with
  | nil => simp [allL]
  | cons c cs ih => simp [allL, ih]

theorem allP_iff {p : Content → Bool} {cs : List (Str × Content)} : allP p cs = true ↔ ∀ c ∈ cs, c.2.all p = true := by
  induction cs with
  | nil => simp [allP]
  | cons c cs ih => obtain ⟨k, v⟩ := c; simp [allP, ih]

theorem allR_iff {p : Content → Bool} {rs : List (List Content)} : allR p rs = true ↔ ∀ r ∈ rs, ∀ c ∈ r, c.all p = true := by
  induction rs with
  | nil => simp [allR]
  | cons c cs ih => simp [allR, ih, allL_iff]

theorem allD_iff {p : Content → Bool} {ds : List (Content × Content)} :
    allD p ds = true ↔ ∀ d ∈ ds, d.1.all p = true ∧ d.2.all p = true := by
  induction ds with
  | nil => simp [allD]
  | cons d ds ih => obtain ⟨k, v⟩ := d; simp [allD, ih]

/-- The predicate holds at the content itself. -/
theorem all_self {p : Content → Bool} {c : Content} (h : c.all p = true) : p c = true := by
  cases c <;> simp [Content.all] at h <;> simp [h]

/-! Pointwise facts about lists lift to the list functions. -/

theorem seq_some {cs : List Content} (h : ∀ c ∈ cs, c.isAux = false → (stripAux c).isSome) : (stripAuxSeq cs).isSome := by
  induction cs with
  | nil => rfl
  | cons c cs ih =>
    simp only [List.mem_cons, forall_eq_or_imp] at h
    simp only [stripAuxSeq]
    split
    · exact ih h.2
    · rename_i hc
      have := h.1 (by simpa using hc)
      obtain ⟨c', hc'⟩ := Option.isSome_iff_exists.mp this
      obtain ⟨cs', hcs'⟩ := Option.isSome_iff_exists.mp (ih h.2)
      simp [hc', hcs']

theorem partials_some {cs : List (Str × Content)} (h : ∀ c ∈ cs, c.2.isNil = false → (stripAux c.2).isSome) :
    (stripAuxPartials cs).isSome := by
  induction cs with
  | nil => rfl
  | cons c cs ih =>
    obtain ⟨k, v⟩ := c
    simp only [List.mem_cons, forall_eq_or_imp] at h
    simp only [stripAuxPartials]
    split
    · exact ih h.2
    · rename_i hc
      obtain ⟨c', hc'⟩ := Option.isSome_iff_exists.mp (h.1 (by simpa using hc))
      obtain ⟨cs', hcs'⟩ := Option.isSome_iff_exists.mp (ih h.2)
      simp [hc', hcs']

theorem rows_some {rs : List (List Content)} (h : ∀ r ∈ rs, ∀ c ∈ r, c.isAux = false → (stripAux c).isSome) :
    (stripAuxRows rs).isSome := by
  induction rs with
  | nil => rfl
  | cons c cs ih =>
    simp only [List.mem_cons, forall_eq_or_imp] at h
    obtain ⟨c', hc'⟩ := Option.isSome_iff_exists.mp (seq_some h.1)
    obtain ⟨cs', hcs'⟩ := Option.isSome_iff_exists.mp (ih h.2)
    simp [stripAuxRows, hc', hcs']

theorem defs_some {ds : List (Content × Content)} (h : ∀ d ∈ ds, (stripAux d.1).isSome ∧ (stripAux d.2).isSome) :
    (stripAuxDefs ds).isSome := by
  induction ds with
  | nil => rfl
  | cons d ds ih =>
    obtain ⟨a, b⟩ := d
    simp only [List.mem_cons, forall_eq_or_imp] at h
    obtain ⟨a', ha⟩ := Option.isSome_iff_exists.mp h.1.1
    obtain ⟨b', hb⟩ := Option.isSome_iff_exists.mp h.1.2
    obtain ⟨ds', hds⟩ := Option.isSome_iff_exists.mp (ih h.2)
    simp [stripAuxDefs, ha, hb, hds]

/-- Contents all of whose parts are present can be stripped. -/
theorem strip_some (c : Content) : c.nilFree = true → (stripAux c).isSome := by
  unfold Content.nilFree
  induction c using Content.ind with
  | nil => simp [Content.all, Content.isNil]
  | str | sect | toc | image | lazy => simp [stripAux]
  | seq cs ih | para cs ih | pre cs ih =>
    intro h
    simp only [Content.all, Bool.and_eq_true, allL_iff] at h
    obtain ⟨c', hc'⟩ := Option.isSome_iff_exists.mp (seq_some fun c hc _ => ih c hc (h.2 c hc))
    simp [stripAux, hc']
  | list cs o ih =>
    intro h
    simp only [Content.all, Bool.and_eq_true, allL_iff] at h
    obtain ⟨c', hc'⟩ := Option.isSome_iff_exists.mp (seq_some fun c hc _ => ih c hc (h.2 c hc))
    simp [stripAux, hc']
  | ref s t c o l ih =>
    intro h
    simp only [Content.all, Bool.and_eq_true] at h
    obtain ⟨c', hc'⟩ := Option.isSome_iff_exists.mp (ih h.2)
    simp [stripAux, hc']
  | styled st b c ps ih ihp =>
    intro h
    simp only [Content.all, Bool.and_eq_true, allP_iff] at h
    obtain ⟨c', hc'⟩ := Option.isSome_iff_exists.mp (ih h.1.2)
    obtain ⟨ps', hps'⟩ := Option.isSome_iff_exists.mp (partials_some fun p hp _ => ihp p hp (h.2 p hp))
    simp [stripAux, hc', hps']
  | target t l ti c ih1 ih2 =>
    intro h
    simp only [Content.all, Bool.and_eq_true] at h
    obtain ⟨c', hc'⟩ := Option.isSome_iff_exists.mp (ih1 h.1.2)
    obtain ⟨ps', hps'⟩ := Option.isSome_iff_exists.mp (ih2 h.2)
    simp [stripAux, hc', hps']
  | link c u ih =>
    intro h
    simp only [Content.all, Bool.and_eq_true] at h
    obtain ⟨c', hc'⟩ := Option.isSome_iff_exists.mp (ih h.2)
    simp [stripAux, hc']
  | table rs ih =>
    intro h
    simp only [Content.all, Bool.and_eq_true, allR_iff] at h
    obtain ⟨c', hc'⟩ := Option.isSome_iff_exists.mp (rows_some fun r hr c hc _ => ih r hr c hc (h.2 r hr c hc))
    simp [stripAux, hc']
  | defs ds ih =>
    intro h
    simp only [Content.all, Bool.and_eq_true, allD_iff] at h
    obtain ⟨c', hc'⟩ := Option.isSome_iff_exists.mp (defs_some fun d hd => ⟨(ih d hd).1 (h.2 d hd).1, (ih d hd).2 (h.2 d hd).2⟩)
    simp [stripAux, hc']
  | aux c ih =>
    intro h
    simp only [Content.all, Bool.and_eq_true] at h
    simpa [stripAux] using ih h.2

/-! Where the parts of a stripped content come from. -/

theorem seq_mem {cs cs' : List Content} (h : stripAuxSeq cs = some cs') {c'} (hm : c' ∈ cs') :
    ∃ c ∈ cs, c.isAux = false ∧ stripAux c = some c' := by
  induction cs generalizing cs' with
  | nil => simp [stripAuxSeq] at h; subst h; simp at hm
  | cons c cs ih =>
    simp only [stripAuxSeq] at h
    split at h
    · obtain ⟨d, hd, h'⟩ := ih h hm
      exact ⟨d, by simp [hd], h'⟩
    · rename_i hc
      cases h1 : stripAux c <;> simp [h1] at h
      cases h2 : stripAuxSeq cs <;> simp [h2] at h
      subst h
      rcases List.mem_cons.mp hm with rfl | hm
      · exact ⟨c, by simp, by simpa using hc, h1⟩
      · obtain ⟨d, hd, h'⟩ := ih h2 hm
        exact ⟨d, by simp [hd], h'⟩

theorem partials_mem {ps ps' : List (Str × Content)} (h : stripAuxPartials ps = some ps') {p'} (hm : p' ∈ ps') :
    ∃ p ∈ ps, p.2.isNil = false ∧ stripAux p.2 = some p'.2 := by
  induction ps generalizing ps' with
  | nil => simp [stripAuxPartials] at h; subst h; simp at hm
  | cons c cs ih =>
    obtain ⟨k, v⟩ := c
    simp only [stripAuxPartials] at h
    split at h
    · obtain ⟨d, hd, h'⟩ := ih h hm
      exact ⟨d, by simp [hd], h'⟩
    · rename_i hc
      cases h1 : stripAux v <;> simp [h1] at h
      cases h2 : stripAuxPartials cs <;> simp [h2] at h
      subst h
      rcases List.mem_cons.mp hm with rfl | hm
      · exact ⟨(k, v), by simp, by simpa using hc, h1⟩
      · obtain ⟨d, hd, h'⟩ := ih h2 hm
        exact ⟨d, by simp [hd], h'⟩

theorem rows_mem {rs rs' : List (List Content)} (h : stripAuxRows rs = some rs') {r'} (hm : r' ∈ rs') :
    ∃ r ∈ rs, stripAuxSeq r = some r' := by
  induction rs generalizing rs' with
  | nil => simp [stripAuxRows] at h; subst h; simp at hm
  | cons c cs ih =>
    simp only [stripAuxRows] at h
    cases h1 : stripAuxSeq c <;> simp [h1] at h
    cases h2 : stripAuxRows cs <;> simp [h2] at h
    subst h
    rcases List.mem_cons.mp hm with rfl | hm
    · exact ⟨c, by simp, h1⟩
    · obtain ⟨d, hd, h'⟩ := ih h2 hm
      exact ⟨d, by simp [hd], h'⟩

theorem defs_mem {rs rs' : List (Content × Content)} (h : stripAuxDefs rs = some rs') {r'} (hm : r' ∈ rs') :
    ∃ r ∈ rs, stripAux r.1 = some r'.1 ∧ stripAux r.2 = some r'.2 := by
  induction rs generalizing rs' with
  | nil => simp [stripAuxDefs] at h; subst h; simp at hm
  | cons c cs ih =>
    obtain ⟨a, b⟩ := c
    simp only [stripAuxDefs] at h
    cases h1 : stripAux a <;> simp [h1] at h
    cases h3 : stripAux b <;> simp [h3] at h
    cases h2 : stripAuxDefs cs <;> simp [h2] at h
    subst h
    rcases List.mem_cons.mp hm with rfl | hm
    · exact ⟨(a, b), by simp, h1, h3⟩
    · obtain ⟨d, hd, h'⟩ := ih h2 hm
      exact ⟨d, by simp [hd], h'⟩

/-- A result of stripping contains neither auxiliary nor nil content. -/
theorem strip_clean (c : Content) : ∀ c', stripAux c = some c' → c'.all (fun d => !d.isAux && !d.isNil) = true := by
  induction c using Content.ind with
  | nil => simp [stripAux]
  | str | sect | toc | image | lazy => intro c' h; simp [stripAux] at h; subst h; simp [Content.all, Content.isAux, Content.isNil]
  | seq cs ih | para cs ih | pre cs ih =>
    intro c' h
    cases h1 : stripAuxSeq cs <;> simp [stripAux, h1] at h
    subst h
    simp only [Content.all, Content.isAux, Content.isNil]
    refine Bool.and_eq_true_iff.mpr ⟨rfl, allL_iff.mpr fun c hc => ?_⟩
    obtain ⟨d, hd, _, h'⟩ := seq_mem h1 hc
    exact ih d hd c h'
  | list cs o ih =>
    intro c' h
    cases h1 : stripAuxSeq cs <;> simp [stripAux, h1] at h
    subst h
    simp only [Content.all, Content.isAux, Content.isNil]
    refine Bool.and_eq_true_iff.mpr ⟨rfl, allL_iff.mpr fun c hc => ?_⟩
    obtain ⟨d, hd, _, h'⟩ := seq_mem h1 hc
    exact ih d hd c h'
  | ref s t c o l ih =>
    intro c' h
    cases h1 : stripAux c <;> simp [stripAux, h1] at h
    subst h
    simp [Content.all, Content.isAux, Content.isNil] at ih ⊢
    exact ih _ h1
  | styled st b c ps ih ihp =>
    intro c' h
    cases h1 : stripAux c <;> simp [stripAux, h1] at h
    cases h2 : stripAuxPartials ps <;> simp [h2] at h
    subst h
    simp only [Content.all]
    refine Bool.and_eq_true_iff.mpr ⟨by rw [ih _ h1]; rfl, allP_iff.mpr fun c hc => ?_⟩
    obtain ⟨d, hd, _, h'⟩ := partials_mem h2 hc
    exact ihp d hd _ h'
  | target t l ti c ih1 ih2 =>
    intro c' h
    cases h1 : stripAux ti <;> simp [stripAux, h1] at h
    cases h2 : stripAux c <;> simp [h2] at h
    subst h
    simp only [Content.all]
    rw [ih1 _ h1, ih2 _ h2]; rfl
  | link c u ih =>
    intro c' h
    cases h1 : stripAux c <;> simp [stripAux, h1] at h
    subst h
    simp only [Content.all]
    rw [ih _ h1]; rfl
  | table rs ih =>
    intro c' h
    cases h1 : stripAuxRows rs <;> simp [stripAux, h1] at h
    subst h
    simp only [Content.all]
    refine Bool.and_eq_true_iff.mpr ⟨rfl, allR_iff.mpr fun r hr c hc => ?_⟩
    obtain ⟨r0, hr0, h2⟩ := rows_mem h1 hr
    obtain ⟨d, hd, _, h'⟩ := seq_mem h2 hc
    exact ih r0 hr0 d hd c h'
  | defs ds ih =>
    intro c' h
    cases h1 : stripAuxDefs ds <;> simp [stripAux, h1] at h
    subst h
    simp only [Content.all]
    refine Bool.and_eq_true_iff.mpr ⟨rfl, allD_iff.mpr fun r hr => ?_⟩
    obtain ⟨r0, hr0, h2, h3⟩ := defs_mem h1 hr
    exact ⟨(ih r0 hr0).1 _ h2, (ih r0 hr0).2 _ h3⟩
  | aux c ih => intro c' h; exact ih c' (by simpa [stripAux] using h)

theorem seq_id {cs : List Content} (h : ∀ c ∈ cs, c.isAux = false ∧ stripAux c = some c) : stripAuxSeq cs = some cs := by
  induction cs with
  | nil => rfl
  | cons c cs ih =>
    simp only [List.mem_cons, forall_eq_or_imp] at h
    simp [stripAuxSeq, h.1.1, h.1.2, ih h.2]

theorem partials_id {cs : List (Str × Content)} (h : ∀ c ∈ cs, c.2.isNil = false ∧ stripAux c.2 = some c.2) :
    stripAuxPartials cs = some cs := by
  induction cs with
  | nil => rfl
  | cons c cs ih =>
    obtain ⟨k, v⟩ := c
    simp only [List.mem_cons, forall_eq_or_imp] at h
    simp [stripAuxPartials, h.1.1, h.1.2, ih h.2]

theorem rows_id {rs : List (List Content)} (h : ∀ r ∈ rs, ∀ c ∈ r, c.isAux = false ∧ stripAux c = some c) :
    stripAuxRows rs = some rs := by
  induction rs with
  | nil => rfl
  | cons c cs ih =>
    simp only [List.mem_cons, forall_eq_or_imp] at h
    simp [stripAuxRows, seq_id h.1, ih h.2]

theorem defs_id {rs : List (Content × Content)} (h : ∀ r ∈ rs, stripAux r.1 = some r.1 ∧ stripAux r.2 = some r.2) :
    stripAuxDefs rs = some rs := by
  induction rs with
  | nil => rfl
  | cons c cs ih =>
    obtain ⟨a, b⟩ := c
    simp only [List.mem_cons, forall_eq_or_imp] at h
    simp [stripAuxDefs, h.1.1, h.1.2, ih h.2]

/-- Contents without auxiliary or nil parts are left alone. -/
theorem strip_id (c : Content) : c.all (fun d => !d.isAux && !d.isNil) = true → stripAux c = some c := by
  have self : ∀ {c : Content}, c.all (fun d => !d.isAux && !d.isNil) = true → c.isAux = false ∧ c.isNil = false := by
    intro c h; have := all_self h; simpa using this
  induction c using Content.ind with
  | nil => simp [Content.all, Content.isNil]
  | str | sect | toc | image | lazy => simp [stripAux]
  | seq cs ih | para cs ih | pre cs ih =>
    intro h
    simp only [Content.all, Bool.and_eq_true, allL_iff] at h
    simp [stripAux, seq_id fun c hc => ⟨(self (h.2 c hc)).1, ih c hc (h.2 c hc)⟩]
  | list cs o ih =>
    intro h
    simp only [Content.all, Bool.and_eq_true, allL_iff] at h
    simp [stripAux, seq_id fun c hc => ⟨(self (h.2 c hc)).1, ih c hc (h.2 c hc)⟩]
  | ref s t c o l ih =>
    intro h
    simp only [Content.all, Bool.and_eq_true] at h
    simp [stripAux, ih (by simpa using h.2)]
  | styled st b c ps ih ihp =>
    intro h
    rw [Content.all, Bool.and_eq_true, Bool.and_eq_true, allP_iff] at h
    simp [stripAux, ih h.1.2, partials_id fun c hc => ⟨(self (h.2 c hc)).2, ihp c hc (h.2 c hc)⟩]
  | target t l ti c ih1 ih2 =>
    intro h
    rw [Content.all, Bool.and_eq_true, Bool.and_eq_true] at h
    simp [stripAux, ih1 h.1.2, ih2 h.2]
  | link c u ih =>
    intro h
    rw [Content.all, Bool.and_eq_true] at h
    simp [stripAux, ih h.2]
  | table rs ih =>
    intro h
    rw [Content.all, Bool.and_eq_true, allR_iff] at h
    simp [stripAux, rows_id fun r hr c hc => ⟨(self (h.2 r hr c hc)).1, ih r hr c hc (h.2 r hr c hc)⟩]
  | defs ds ih =>
    intro h
    rw [Content.all, Bool.and_eq_true, allD_iff] at h
    simp [stripAux, defs_id fun d hd => ⟨(ih d hd).1 (h.2 d hd).1, (ih d hd).2 (h.2 d hd).2⟩]
  | aux c ih => simp [Content.all, Content.isAux]

/-! Texts. -/

theorem aux_texts {c : Content} (h : c.isAux = true) : c.texts false = [] := by
  cases c <;> simp [Content.isAux] at h
  simp [Content.texts]

theorem seq_texts {cs cs' : List Content} (h : stripAuxSeq cs = some cs')
    (hp : ∀ c ∈ cs, c.isAux = false → ∀ c', stripAux c = some c' → c'.texts true = c.texts false) :
    textsL true cs' = textsL false cs := by
  induction cs generalizing cs' with
  | nil => simp [stripAuxSeq] at h; subst h; rfl
  | cons c cs ih =>
    simp only [List.mem_cons, forall_eq_or_imp] at hp
    simp only [stripAuxSeq] at h
    split at h
    · rename_i hc; simp [textsL, aux_texts hc, ih h hp.2]
    · rename_i hc
      cases h1 : stripAux c <;> simp [h1] at h
      cases h2 : stripAuxSeq cs <;> simp [h2] at h
      subst h
      simp [textsL, ih h2 hp.2, hp.1 (by simpa using hc) _ h1]

theorem partials_texts {cs cs' : List (Str × Content)} (h : stripAuxPartials cs = some cs')
    (hp : ∀ c ∈ cs, ∀ c', stripAux c.2 = some c' → c'.texts true = c.2.texts false) :
    textsP true cs' = textsP false cs := by
  induction cs generalizing cs' with
  | nil => simp [stripAuxPartials] at h; subst h; rfl
  | cons c cs ih =>
    obtain ⟨k, v⟩ := c
    simp only [List.mem_cons, forall_eq_or_imp] at hp
    simp only [stripAuxPartials] at h
    split at h
    · rename_i hc
      have : v.texts false = [] := by cases v <;> simp [Content.isNil] at hc; rfl
      simp [textsP, this, ih h hp.2]
    · rename_i hc
      cases h1 : stripAux v <;> simp [h1] at h
      cases h2 : stripAuxPartials cs <;> simp [h2] at h
      subst h
      simp [textsP, ih h2 hp.2, hp.1 _ h1]

theorem rows_texts {cs cs' : List (List Content)} (h : stripAuxRows cs = some cs')
    (hp : ∀ r ∈ cs, ∀ c ∈ r, c.isAux = false → ∀ c', stripAux c = some c' → c'.texts true = c.texts false) :
    textsR true cs' = textsR false cs := by
  induction cs generalizing cs' with
  | nil => simp [stripAuxRows] at h; subst h; rfl
  | cons c cs ih =>
    simp only [List.mem_cons, forall_eq_or_imp] at hp
    simp only [stripAuxRows] at h
    cases h1 : stripAuxSeq c <;> simp [h1] at h
    cases h2 : stripAuxRows cs <;> simp [h2] at h
    subst h
    simp [textsR, ih h2 hp.2, seq_texts h1 hp.1]

theorem defs_texts {cs cs' : List (Content × Content)} (h : stripAuxDefs cs = some cs')
    (hp : ∀ r ∈ cs, (∀ c', stripAux r.1 = some c' → c'.texts true = r.1.texts false) ∧
      ∀ c', stripAux r.2 = some c' → c'.texts true = r.2.texts false) :
    textsD true cs' = textsD false cs := by
  induction cs generalizing cs' with
  | nil => simp [stripAuxDefs] at h; subst h; rfl
  | cons c cs ih =>
    obtain ⟨a, b⟩ := c
    simp only [List.mem_cons, forall_eq_or_imp] at hp
    simp only [stripAuxDefs] at h
    cases h1 : stripAux a <;> simp [h1] at h
    cases h3 : stripAux b <;> simp [h3] at h
    cases h2 : stripAuxDefs cs <;> simp [h2] at h
    subst h
    simp [textsD, ih h2 hp.2, hp.1.1 _ h1, hp.1.2 _ h3]

/-- The texts that remain. -/
theorem strip_texts (c : Content) : c.isAux = false → c.auxInside = true → ∀ c', stripAux c = some c' → c'.texts true = c.texts false := by
  unfold Content.auxInside
  induction c using Content.ind with
  | nil => simp [stripAux]
  | str | sect | toc | image | lazy => intro _ _ c' h; simp [stripAux] at h; subst h; simp [Content.texts]
  | seq cs ih | para cs ih | pre cs ih =>
    intro _ ha c' h
    rw [Content.all, Bool.and_eq_true, allL_iff] at ha
    cases h1 : stripAuxSeq cs <;> simp [stripAux, h1] at h
    subst h
    simp only [Content.texts]
    exact seq_texts h1 fun c hc hx => ih c hc hx (ha.2 c hc)
  | list cs o ih =>
    intro _ ha c' h
    rw [Content.all, Bool.and_eq_true, allL_iff] at ha
    cases h1 : stripAuxSeq cs <;> simp [stripAux, h1] at h
    subst h
    simp only [Content.texts]
    exact seq_texts h1 fun c hc hx => ih c hc hx (ha.2 c hc)
  | ref s t c o l ih =>
    intro _ ha c' h
    rw [Content.all, Bool.and_eq_true] at ha
    cases h1 : stripAux c <;> simp [stripAux, h1] at h
    subst h
    simp only [Content.texts]
    exact ih (by simpa using ha.1) ha.2 _ h1
  | styled st b c ps ih ihp =>
    intro _ ha c' h
    rw [Content.all, Bool.and_eq_true, Bool.and_eq_true, allP_iff] at ha
    cases h1 : stripAux c <;> simp [stripAux, h1] at h
    cases h2 : stripAuxPartials ps <;> simp [h2] at h
    subst h
    simp only [Bool.and_eq_true, List.all_eq_true, Bool.not_eq_true'] at ha
    simp only [Content.texts]
    rw [ih ha.1.1.1 ha.1.2 _ h1, partials_texts h2 fun p hp => ihp p hp (ha.1.1.2 p hp) (ha.2 p hp)]
  | target t l ti c ih1 ih2 =>
    intro _ ha c' h
    rw [Content.all, Bool.and_eq_true, Bool.and_eq_true] at ha
    cases h1 : stripAux ti <;> simp [stripAux, h1] at h
    cases h2 : stripAux c <;> simp [h2] at h
    subst h
    simp only [Bool.and_eq_true, Bool.not_eq_true'] at ha
    simp only [Content.texts]
    rw [ih1 ha.1.1.1 ha.1.2 _ h1, ih2 ha.1.1.2 ha.2 _ h2]
  | link c u ih =>
    intro _ ha c' h
    rw [Content.all, Bool.and_eq_true] at ha
    cases h1 : stripAux c <;> simp [stripAux, h1] at h
    subst h
    simp only [Content.texts]
    exact ih (by simpa using ha.1) ha.2 _ h1
  | table rs ih =>
    intro _ ha c' h
    rw [Content.all, Bool.and_eq_true, allR_iff] at ha
    cases h1 : stripAuxRows rs <;> simp [stripAux, h1] at h
    subst h
    simp only [Content.texts]
    exact rows_texts h1 fun r hr c hc hx => ih r hr c hc hx (ha.2 r hr c hc)
  | defs ds ih =>
    intro _ ha c' h
    rw [Content.all, Bool.and_eq_true, allD_iff] at ha
    cases h1 : stripAuxDefs ds <;> simp [stripAux, h1] at h
    subst h
    simp only [Bool.and_eq_true, List.all_eq_true, Bool.not_eq_true'] at ha
    simp only [Content.texts]
    exact defs_texts h1 fun d hd => ⟨(ih d hd).1 (ha.1 d hd).1 (ha.2 d hd).1, (ih d hd).2 (ha.1 d hd).2 (ha.2 d hd).2⟩
  | aux c ih => simp [Content.isAux]

end Booklit
