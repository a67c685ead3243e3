import Verif.Lemmas.AuxL

/-!
Properties of content operations: C13 (appending), C14-C16 (stripping auxiliary content).
-/

namespace Booklit.Props

open Booklit

/-- The contents joined, nil ones left out. -/
def present (cs : List Content) : List Content := cs.filter fun d => !d.isNil

/-- **C13 (part).** Appending at most one further (non-nil) content to anything keeps everything in order; nil
contents are skipped wherever they stand. Missing: two or more further contents, see `C13_false`. -/
theorem C13_append_partial (first : Content) (rest : List Content) (h : (present (first :: rest)).length ≤ 2) :
    (append first rest).elems = match present (first :: rest) with
      | [] => []
      | c :: cs => c.elems ++ cs := by
  induction rest generalizing first with
  | nil => cases first <;> simp [append, present, Content.isNil, Content.elems]
  | cons c rest ih =>
    by_cases hc : c.isNil = true
    · simp only [append, hc, if_true]
      have : present (first :: c :: rest) = present (first :: rest) := by simp [present, List.filter_cons, hc]
      rw [this] at h ⊢
      exact ih first h
    · simp only [append, hc]
      have hc' : c.isNil = false := by simpa using hc
      by_cases hf : first.isNil = true
      · have e : first = .nil := by cases first <;> simp [Content.isNil] at hf; rfl
        subst e
        have : present (.nil :: c :: rest) = present (c :: rest) := by simp [present, Content.isNil]
        rw [this] at h ⊢
        exact ih c h
      · have hf' : first.isNil = false := by simpa using hf
        have e : present (first :: c :: rest) = first :: c :: present rest := by simp [present, hc', hf']
        rw [e] at h ⊢
        have : present rest = [] := by cases hp : present rest <;> simp [hp] at h ⊢
        rw [this]
        cases first <;> simp [Content.isNil] at hf' <;> simp [Content.elems]

/-- **C13 (part).** The way documents are evaluated, one append at a time, loses nothing: the result has the
elements of the first content followed by all the others. -/
theorem C13_append_one_by_one_partial (c : Content) (cs : List Content) (hc : c.isNil = false) :
    (cs.foldl (fun acc d => append acc [d]) c).elems = c.elems ++ present cs := by
  suffices ∀ acc : Content, acc.isNil = false →
      (cs.foldl (fun acc d => append acc [d]) acc).elems = acc.elems ++ present cs from this c hc
  induction cs with
  | nil => intro acc _; simp [present]
  | cons d cs ih =>
    intro acc ha
    have hnil : (append acc [d]).isNil = false := by
      simp only [append]; split
      · exact ha
      · cases acc <;> simp [Content.isNil] at ha ⊢
    rw [List.foldl_cons, ih _ hnil]
    have := C13_append_partial acc [d] (by
      have := List.length_filter_le (fun d : Content => !d.isNil) [acc, d]; simpa [present] using this)
    rw [this]
    by_cases hd : d.isNil = true
    · simp [present, ha, hd]
    · simp [present, ha, hd]

/-- **C13 fails** for two or more further contents: the third of three words is lost. -/
theorem C13_false : (append (.str q%"a") [.str q%"b", .str q%"c"]).elems = [.str q%"a", .str q%"b"] := by rfl

example : (append .nil [.nil, .seq [.str q%"a"], .str q%"b"]).elems = [.str q%"a", .str q%"b"] ∧
    (present [.nil, .nil, .seq [.str q%"a"], .str q%"b"]).length ≤ 2 := ⟨rfl, by decide⟩

/-- A title with an auxiliary part, a styled part and a reference. -/
def sampleTitle : Content := .seq [.str q%"Foo", .aux (.str q%": the start"),
  .styled q%"italic" false (.seq [.aux (.styled q%"bold" false (.str q%"x") []), .str q%"bar"]) [(q%"P", .nil)],
  .ref 0 q%"tag" (.seq [.str q%"r", .aux (.str q%"aux")]) false Location.zero]

/-- **C14.** What `StripAux` returns contains no auxiliary content; stripping it again changes nothing; and a
content with nothing auxiliary (and nothing missing) in it is returned unchanged. -/
theorem C14_strip_complete_idempotent (c : Content) :
    (∀ c', stripAux c = some c' → c'.auxFree = true ∧ stripAux c' = some c') ∧
    (c.auxFree = true → c.nilFree = true → stripAux c = some c) := by
  have split : ∀ c : Content, c.all (fun d => !d.isAux && !d.isNil) = true ↔ c.auxFree = true ∧ c.nilFree = true := by
    intro c
    unfold Content.auxFree Content.nilFree
    induction c using Content.ind with
    | nil | str | sect | toc | image | lazy => simp [Content.all, Content.isAux, Content.isNil]
    | seq cs ih | para cs ih | pre cs ih =>
      simp only [Content.all, Bool.and_eq_true, allL_iff, Content.isAux, Content.isNil]
      constructor
      · intro h
        exact ⟨⟨rfl, fun c hc => ((ih c hc).mp (h.2 c hc)).1⟩, rfl, fun c hc => ((ih c hc).mp (h.2 c hc)).2⟩
      · intro h
        exact ⟨⟨rfl, rfl⟩, fun c hc => (ih c hc).mpr ⟨h.1.2 c hc, h.2.2 c hc⟩⟩
    | list cs o ih =>
      simp only [Content.all, Bool.and_eq_true, allL_iff, Content.isAux, Content.isNil]
      constructor
      · intro h
        exact ⟨⟨rfl, fun c hc => ((ih c hc).mp (h.2 c hc)).1⟩, rfl, fun c hc => ((ih c hc).mp (h.2 c hc)).2⟩
      · intro h
        exact ⟨⟨rfl, rfl⟩, fun c hc => (ih c hc).mpr ⟨h.1.2 c hc, h.2.2 c hc⟩⟩
    | ref s t c o l ih => simp [Content.all, Content.isAux, Content.isNil] at ih ⊢; exact ih
    | link c u ih => simp [Content.all, Content.isAux, Content.isNil] at ih ⊢; exact ih
    | aux c ih => simp [Content.all, Content.isAux]
    | styled st b c ps ih ihp =>
      rw [Content.all, Content.all, Content.all]
      simp only [Bool.and_eq_true, allP_iff, Content.isAux, Content.isNil] at ih ⊢
      constructor
      · intro h
        exact ⟨⟨⟨rfl, (ih.mp h.1.2).1⟩, fun c hc => ((ihp c hc).mp (h.2 c hc)).1⟩, ⟨rfl, (ih.mp h.1.2).2⟩,
          fun c hc => ((ihp c hc).mp (h.2 c hc)).2⟩
      · intro h
        exact ⟨⟨⟨rfl, rfl⟩, ih.mpr ⟨h.1.1.2, h.2.1.2⟩⟩, fun c hc => (ihp c hc).mpr ⟨h.1.2 c hc, h.2.2 c hc⟩⟩
    | target t l ti c ih1 ih2 =>
      rw [Content.all, Content.all, Content.all]
      simp only [Bool.and_eq_true, Content.isAux, Content.isNil] at ih1 ih2 ⊢
      constructor
      · intro h
        exact ⟨⟨⟨rfl, (ih1.mp h.1.2).1⟩, (ih2.mp h.2).1⟩, ⟨rfl, (ih1.mp h.1.2).2⟩, (ih2.mp h.2).2⟩
      · intro h
        exact ⟨⟨⟨rfl, rfl⟩, ih1.mpr ⟨h.1.1.2, h.2.1.2⟩⟩, ih2.mpr ⟨h.1.2, h.2.2⟩⟩
    | table rs ih =>
      rw [Content.all, Content.all, Content.all]
      simp only [Bool.and_eq_true, allR_iff, Content.isAux, Content.isNil] at ih ⊢
      constructor
      · intro h
        exact ⟨⟨rfl, fun r hr c hc => ((ih r hr c hc).mp (h.2 r hr c hc)).1⟩, rfl,
          fun r hr c hc => ((ih r hr c hc).mp (h.2 r hr c hc)).2⟩
      · intro h
        exact ⟨⟨rfl, rfl⟩, fun r hr c hc => (ih r hr c hc).mpr ⟨h.1.2 r hr c hc, h.2.2 r hr c hc⟩⟩
    | defs ds ih =>
      rw [Content.all, Content.all, Content.all]
      simp only [Bool.and_eq_true, allD_iff, Content.isAux, Content.isNil] at ih ⊢
      constructor
      · intro h
        exact ⟨⟨rfl, fun d hd => ⟨((ih d hd).1.mp (h.2 d hd).1).1, ((ih d hd).2.mp (h.2 d hd).2).1⟩⟩, rfl,
          fun d hd => ⟨((ih d hd).1.mp (h.2 d hd).1).2, ((ih d hd).2.mp (h.2 d hd).2).2⟩⟩
      · intro h
        exact ⟨⟨rfl, rfl⟩, fun d hd => ⟨(ih d hd).1.mpr ⟨(h.1.2 d hd).1, (h.2.2 d hd).1⟩,
          (ih d hd).2.mpr ⟨(h.1.2 d hd).2, (h.2.2 d hd).2⟩⟩⟩
  refine ⟨fun c' h => ?_, fun h h' => strip_id c ((split c).mpr ⟨h, h'⟩)⟩
  have := strip_clean c c' h
  exact ⟨((split c').mp this).1, strip_id c' this⟩

example : (stripAux sampleTitle).map (fun c => (c.texts true, c.auxFree)) = some ([q%"Foo", q%"bar", q%"r"], true) := by decide

/-- **C15 (part).** `StripAux` returns for every content without nil parts. Missing: references without display
content and targets without content, which documents produce freely, see `C15_false`. -/
theorem C15_strip_returns_partial (c : Content) (h : c.nilFree = true) : ∃ c', stripAux c = some c' :=
  Option.isSome_iff_exists.mp (strip_some c h)

/-- **C15 fails**: stripping a reference without display content, or a target without content, crashes. -/
theorem C15_false : stripAux (.ref 0 q%"tag" .nil false Location.zero) = none ∧
    stripAux (.target q%"tag" Location.zero (.str q%"tag") .nil) = none := ⟨rfl, rfl⟩

/-- **C16 (part).** The texts left by `StripAux` are, in order, exactly the texts outside auxiliary content,
provided auxiliary content stands directly in a sequence, paragraph, preformatted block, list or table.
Missing: auxiliary content that is the whole argument of another element, see `C16_false`. -/
theorem C16_strip_exact_partial (c c' : Content) (h : stripAux c = some c') (h1 : c.isAux = false) (h2 : c.auxInside = true) :
    c'.texts true = c.texts false := strip_texts c h1 h2 c' h

/-- **C16 fails** in general: of `\italic{\aux{x}}` the auxiliary text stays. -/
theorem C16_false : (stripAux (.styled q%"italic" false (.aux (.str q%"x")) [])).map (Content.texts true) = some [q%"x"] ∧
    (Content.styled q%"italic" false (.aux (.str q%"x")) []).texts false = [] := by decide

example : sampleTitle.isAux = false ∧ sampleTitle.auxInside = true ∧ (stripAux sampleTitle).isSome = true ∧
    sampleTitle.texts false ≠ sampleTitle.texts true := by decide

end Booklit.Props
