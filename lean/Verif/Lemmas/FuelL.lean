import Verif.Lemmas.LooksL

/-!
Rendering with more fuel gives the same results.
-/

namespace Booklit

/-- The same result, or none yet. -/
def Res.Le {α : Type} (x y : Res α) : Prop := x = .more ∨ x = y

theorem Res.Le.rfl {α : Type} {x : Res α} : x.Le x := .inr (Eq.refl x)

theorem Res.Le.bind {α β : Type} {x y : Res α} {f g : α → Res β} (h : x.Le y) (hf : ∀ a, x = .ok a → (f a).Le (g a)) :
    (x.bind f).Le (y.bind g) := by
  rcases h with rfl | rfl
  · exact .inl (Eq.refl _)
  · cases x with
    | ok a => exact hf a (Eq.refl _)
    | _ => exact .rfl

theorem Res.Le.map {α β : Type} {x y : Res α} {f : α → β} (h : x.Le y) : (x.map f).Le (y.map f) := by
  rcases h with rfl | rfl
  · exact .inl (Eq.refl _)
  · exact .rfl

theorem Res.Le.recover {α : Type} {x y : Res α} (h : x.Le y) : x.recover.Le y.recover := by
  rcases h with rfl | rfl
  · exact .inl (Eq.refl _)
  · exact .rfl

theorem Res.Le.ofFuel {α : Type} {x y : Option α} (h : ∀ a, x = some a → y = some a) : (Res.ofFuel x).Le (Res.ofFuel y) := by
  cases x with
  | none => exact .inl (Eq.refl _)
  | some a => rw [h a (Eq.refl _)]; exact .rfl

theorem Res.Le.resMap {α β : Type} {f g : α → Res β} {l : List α} (h : ∀ a ∈ l, (f a).Le (g a)) :
    (Booklit.resMap f l).Le (Booklit.resMap g l) := by
  induction l with
  | nil => exact .rfl
  | cons a l ih =>
    exact (h a (by simp)).bind fun b _ => (ih fun c hc => h c (by simp [hc])).map

theorem Res.Le.ok {α : Type} {x y : Res α} {a : α} (h : x.Le y) (e : x = .ok a) : y = .ok a := by
  rcases h with rfl | rfl
  · cases e
  · exact e

/-- Renderers of the inner parts, the second with more fuel. -/
structure Inner.Le (I J : Inner) : Prop where
  ref : ∀ s t c o l, (I.ref s t c o l).Le (J.ref s t c o l)
  sect : ∀ i, (I.sect i).Le (J.sect i)
  toc : ∀ i, (I.toc i).Le (J.toc i)
  force : ∀ i, (I.force i).Le (J.force i)
  raw : ∀ c, (I.raw c).Le (J.raw c)

theorem htmlL_le {I J : Inner} {cs : List Content} (h : ∀ c ∈ cs, (c.html I).Le (c.html J)) : (htmlL I cs).Le (htmlL J cs) := by
  induction cs with
  | nil => exact .rfl
  | cons c cs ih => exact (h c (by simp)).bind fun _ _ => (ih fun d hd => h d (by simp [hd])).map

theorem htmlR_le {I J : Inner} {rs : List (List Content)} (h : ∀ r ∈ rs, ∀ c ∈ r, (c.html I).Le (c.html J)) :
    (htmlR I rs).Le (htmlR J rs) := by
  induction rs with
  | nil => exact .rfl
  | cons r rs ih => exact (htmlL_le (h r (by simp))).bind fun _ _ => (ih fun d hd => h d (by simp [hd])).map

theorem htmlD_le {I J : Inner} {ds : List (Content × Content)}
    (h : ∀ d ∈ ds, (d.1.html I).Le (d.1.html J) ∧ (d.2.html I).Le (d.2.html J)) : (htmlD I ds).Le (htmlD J ds) := by
  induction ds with
  | nil => exact .rfl
  | cons d ds ih =>
    obtain ⟨a, b⟩ := d
    exact (h (a, b) (by simp)).1.bind fun _ _ => (h (a, b) (by simp)).2.bind fun _ _ =>
      (ih fun d hd => h d (by simp [hd])).map

theorem html_le {I J : Inner} (h : I.Le J) (c : Content) : (c.html I).Le (c.html J) := by
  induction c using Content.ind with
  | nil | str | target | image => exact .rfl
  | seq cs ih | para cs ih | pre cs ih | list cs o ih => exact (htmlL_le ih).map
  | ref s t c o l _ => exact h.ref s t c o l
  | sect i => exact h.sect i
  | toc i => exact h.toc i
  | styled st b c ps ih _ =>
    rw [Content.html, Content.html]
    split
    · cases (if b = true then some false else isFlow c) with
      | none => exact .rfl
      | some v => cases v <;> exact ih.map
    · split
      · exact (h.raw c).recover
      · cases styleTags st with
        | none => exact .rfl
        | some p => exact ih.map
  | link c u ih => exact ih.map
  | table rs ih => exact (htmlR_le ih).map
  | defs ds ih => exact (htmlD_le ih).map
  | lazy b i => exact h.force i
  | aux c ih => exact ih

theorem textL_le {r r' : Nat → Str → Bool → Location → Res Str} {q q' : Nat → Res Str} {cs : List Content}
    (h : ∀ c ∈ cs, (c.text r q).Le (c.text r' q')) : (textL r q cs).Le (textL r' q' cs) := by
  induction cs with
  | nil => exact .rfl
  | cons c cs ih => exact (h c (by simp)).bind fun _ _ => (ih fun d hd => h d (by simp [hd])).map

theorem textR_le {r r' : Nat → Str → Bool → Location → Res Str} {q q' : Nat → Res Str} {rs : List (List Content)}
    (h : ∀ x ∈ rs, ∀ c ∈ x, (c.text r q).Le (c.text r' q')) : (textR r q rs).Le (textR r' q' rs) := by
  induction rs with
  | nil => exact .rfl
  | cons x rs ih => exact (textL_le (h x (by simp))).bind fun _ _ => (ih fun d hd => h d (by simp [hd])).map

theorem textD_le {r r' : Nat → Str → Bool → Location → Res Str} {q q' : Nat → Res Str} {ds : List (Content × Content)}
    (h : ∀ d ∈ ds, (d.1.text r q).Le (d.1.text r' q') ∧ (d.2.text r q).Le (d.2.text r' q')) :
    (textD r q ds).Le (textD r' q' ds) := by
  induction ds with
  | nil => exact .rfl
  | cons d ds ih =>
    obtain ⟨a, b⟩ := d
    have h0 := h (a, b) (by simp)
    rw [textD, textD]
    refine Res.Le.bind ?_ fun _ _ => Res.Le.bind ?_ fun _ _ => (ih fun d hd => h d (by simp [hd])).map
    · split
      · exact .rfl
      · exact h0.1
    · split
      · exact .rfl
      · exact h0.2

theorem text_le {r r' : Nat → Str → Bool → Location → Res Str} {q q' : Nat → Res Str}
    (hr : ∀ s t o l, (r s t o l).Le (r' s t o l)) (hq : ∀ i, (q i).Le (q' i)) (c : Content) : (c.text r q).Le (c.text r' q') := by
  induction c using Content.ind with
  | nil | str | target | image | toc | lazy => exact .rfl
  | seq cs ih | para cs ih | pre cs ih | list cs o ih => exact (textL_le ih).map
  | ref s t c o l ih =>
    rw [Content.text, Content.text]
    split
    · exact hr s t o l
    · exact ih
  | sect i => exact hq i
  | styled st b c ps ih _ => exact ih
  | link c u ih => exact ih
  | table rs ih => exact (textR_le ih).map
  | defs ds ih => exact (textD_le ih).map
  | aux c ih => exact ih

theorem refTag_mono {h : Heap} {b : Bool} {i : Nat} {t : Str} {o : Bool} {l : Location} {r : Resolved} {n m : Nat} (hm : n ≤ m)
    (e : h.refTag n b i t o l = some r) : h.refTag m b i t o l = some r := by
  rw [Heap.refTag, Heap.resolve] at e ⊢
  cases hf : h.findTag n i t with
  | none => rw [hf] at e; cases e
  | some gs =>
    rw [hf] at e
    have : h.findTag m i t = some gs := tagsUp_mono _ _ _ _ hf m hm
    rw [this]
    exact e

theorem heapText_le {h : Heap} {b : Bool} : ∀ {n m : Nat}, n ≤ m → ∀ c, (h.text b n c).Le (h.text b m c) := by
  intro n
  induction n with
  | zero =>
    intro m _ c
    cases m with
    | zero => exact .rfl
    | succ m =>
      rw [Heap.text, Heap.text]
      exact text_le (fun _ _ _ _ => .inl rfl) (fun _ => .inl rfl) c
  | succ n ih =>
    intro m hm c
    obtain ⟨m, rfl⟩ : ∃ k, m = k + 1 := ⟨m - 1, by omega⟩
    rw [Heap.text, Heap.text]
    refine text_le (fun s t o l => ?_) (fun i => (ih (by omega) _).map) c
    cases hr : h.refTag n b s t o l with
    | none => exact .inl rfl
    | some r =>
      rw [refTag_mono (by omega) hr]
      cases r with
      | tag g => exact ih (by omega) _
      | _ => exact .rfl

theorem headerDepth_mono {h : Heap} {n m i d : Nat} (hm : n ≤ m) (e : h.headerDepth n i = some d) :
    h.headerDepth m i = some d := by
  rw [Heap.headerDepth] at e ⊢
  cases hp : h.pageDepth n i with
  | none => rw [hp] at e; cases e
  | some k => rw [hp] at e; rw [pageDepth_mono hm hp]; exact e

theorem filePath_up {h : Heap} : ∀ {n m i : Nat} {p : Str}, n ≤ m → h.filePath n i = some p → h.filePath m i = some p := by
  intro n
  induction n with
  | zero => intro m i p _ e; cases e
  | succ n ih =>
    intro m i p hm e
    obtain ⟨m, rfl⟩ : ∃ k, m = k + 1 := ⟨m - 1, by omega⟩
    rw [Heap.filePath] at e ⊢
    by_cases hp : (h.get i).path ≠ []
    · rw [if_pos hp] at e ⊢
      exact e
    · rw [if_neg hp] at e ⊢
      cases hq : (h.get i).parent with
      | none => rw [hq] at e; exact e
      | some q => rw [hq] at e; exact ih (by omega) e

section
variable {S : Site} {h : Heap}

theorem refHtml_le {f g : Content → Res Str} (A : ∀ c, (f c).Le (g c)) {n m : Nat} (hm : n ≤ m) (s t c o l) :
    (h.refHtml S n f s t c o l).Le (h.refHtml S m g s t c o l) := by
  rw [Heap.refHtml, Heap.refHtml]
  cases hr : h.refTag n S.brokenOk s t o l with
  | none => exact .inl rfl
  | some r =>
    rw [refTag_mono hm hr]
    cases r with
    | tag x =>
      dsimp only
      cases x.sec with
      | none => exact .rfl
      | some i =>
        dsimp only
        refine Res.Le.bind (.ofFuel fun a e => sectionURL_mono hm e) fun u _ => ?_
        cases stripAux (if c.isNil = true then x.title else c) with
        | none => exact .rfl
        | some d => exact (A d).map
    | nothing =>
      dsimp only
      cases stripAux c with
      | none => exact .rfl
      | some d => exact A d
    | unknown =>
      dsimp only
      rw [Heap.unknownTag, Heap.unknownTag]
      exact Res.Le.bind (.ofFuel fun a e => filePath_up hm e) fun p _ =>
        Res.Le.bind (.ofFuel fun a e => tagsUp_mono _ _ _ _ e _ hm) fun gs _ => .rfl
    | ambiguous ls =>
      dsimp only
      rw [Heap.ambiguousTag, Heap.ambiguousTag]
      refine Res.Le.bind (Res.Le.resMap fun x _ => ?_) fun ds _ => Res.Le.bind (.ofFuel fun a e => filePath_up hm e) fun p _ => .rfl
      cases x.1 with
      | none => exact .rfl
      | some i => exact Res.Le.map (.ofFuel fun a e => filePath_up hm e)

theorem sectHtml_le {f g : Content → Res Str} (A : ∀ c, (f c).Le (g c)) {n m : Nat} (hm : n ≤ m) (i) :
    (h.sectHtml n f i).Le (h.sectHtml m g i) := by
  rw [Heap.sectHtml, Heap.sectHtml]
  split
  · exact .rfl
  · refine Res.Le.bind (.ofFuel fun a e => headerDepth_mono hm e) fun d _ => ?_
    refine Res.Le.bind ?_ fun num _ => (A _).bind fun title _ => (A _).bind fun body _ => Res.Le.map ?_
    · split
      · exact Res.Le.map (.ofFuel fun a e => number_mono hm e)
      · exact .rfl
    · split
      · exact .rfl
      · exact (Res.Le.resMap fun c _ => A _).map

theorem tocHtml_le {f g : Content → Res Str} (A : ∀ c, (f c).Le (g c)) : ∀ {n m : Nat}, n ≤ m → ∀ i,
    (h.tocHtml f n i).Le (h.tocHtml g m i) := by
  intro n
  induction n with
  | zero => intro m _ i; exact .inl rfl
  | succ n ih =>
    intro m hm i
    obtain ⟨m, rfl⟩ : ∃ k, m = k + 1 := ⟨m - 1, by omega⟩
    rw [Heap.tocHtml, Heap.tocHtml]
    split
    · exact .rfl
    · refine (Res.Le.resMap fun c _ => ?_).map
      rw [Heap.tocEntry, Heap.tocEntry]
      cases (h.get c).primaryTag.sec with
      | none => exact .rfl
      | some j =>
        dsimp only
        refine Res.Le.bind (.ofFuel fun a e => sectionURL_mono (by omega) e) fun u _ => ?_
        refine Res.Le.bind (.ofFuel fun a e => number_mono (by omega) e) fun k _ => ?_
        cases stripAux (h.get c).title with
        | none => exact .rfl
        | some d => exact (A d).bind fun title _ => (ih (by omega) c).map

theorem heapHtml_le : ∀ {n m : Nat}, n ≤ m → ∀ c, (h.html S n c).Le (h.html S m c) := by
  intro n
  induction n with
  | zero =>
    intro m _ c
    cases m with
    | zero => exact .rfl
    | succ m =>
      rw [Heap.html, Heap.html]
      exact html_le ⟨fun _ _ _ _ _ => .inl rfl, fun _ => .inl rfl, fun _ => .inl rfl, fun _ => .inl rfl, fun _ => .inl rfl⟩ c
  | succ n ih =>
    intro m hm c
    obtain ⟨m, rfl⟩ : ∃ k, m = k + 1 := ⟨m - 1, by omega⟩
    rw [Heap.html, Heap.html]
    refine html_le ⟨?_, ?_, ?_, ?_, ?_⟩ c
    · exact refHtml_le (ih (by omega)) (by omega)
    · exact sectHtml_le (ih (by omega)) (by omega)
    · exact tocHtml_le (ih (by omega)) (by omega)
    · intro i
      dsimp only
      cases S.force i with
      | none => exact .rfl
      | some d => exact ih (by omega) d
    · exact heapText_le (by omega)

/-- A page does not depend on the fuel. -/
theorem page_le {n m : Nat} (hm : n ≤ m) (i : Nat) : (h.page S n i).Le (h.page S m i) := by
  rw [Heap.page, Heap.page]
  exact (heapText_le hm _).recover.bind fun title _ => (heapHtml_le hm _).map

end

end Booklit
