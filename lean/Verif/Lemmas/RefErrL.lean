import Verif.Lemmas.LinksL

/-!
The errors of rendering: those of templates, which have no place, and those of references.
-/

namespace Booklit

/-- Errors, if there are any, satisfy `Q`. -/
def ErrOnly {α : Type} (Q : Err → Prop) (x : Res α) : Prop := ∀ e, x = .err e → Q e

theorem ErrOnly.ok {α : Type} {Q : Err → Prop} {a : α} : ErrOnly Q (.ok a) := fun _ h => by cases h

theorem ErrOnly.more {α : Type} {Q : Err → Prop} : ErrOnly Q (.more : Res α) := fun _ h => by cases h

theorem ErrOnly.ofFuel {α : Type} {Q : Err → Prop} {x : Option α} : ErrOnly Q (Res.ofFuel x) := by
  cases x <;> intro _ h <;> cases h

theorem ErrOnly.map {α β : Type} {Q : Err → Prop} {x : Res α} {f : α → β} (h : ErrOnly Q x) : ErrOnly Q (x.map f) := by
  cases x with
  | err e => intro e' he; cases he; exact h e rfl
  | _ => intro e' he; cases he

theorem ErrOnly.bind {α β : Type} {Q : Err → Prop} {x : Res α} {f : α → Res β} (h : ErrOnly Q x) (hf : ∀ a, x = .ok a → ErrOnly Q (f a)) :
    ErrOnly Q (x.bind f) := by
  cases x with
  | ok a => exact hf a rfl
  | err e => intro e' he; cases he; exact h e rfl
  | _ => intro e' he; cases he

theorem ErrOnly.recover {α : Type} {Q : Err → Prop} (hq : ∀ w, Q (.plain w)) {x : Res α} (h : ErrOnly Q x) : ErrOnly Q x.recover := by
  cases x with
  | err e => exact h
  | panic => intro e' he; cases he; exact hq _
  | _ => intro e' he; cases he

theorem ErrOnly.resMap {α β : Type} {Q : Err → Prop} {f : α → Res β} {l : List α} (h : ∀ a ∈ l, ErrOnly Q (f a)) :
    ErrOnly Q (resMap f l) := by
  induction l with
  | nil => exact .ok
  | cons a l ih => exact (h a (by simp)).bind fun x _ => (ih fun b hb => h b (by simp [hb])).map

theorem ErrOnly.tmpl {α : Type} {Q : Err → Prop} (hq : ∀ w, Q (.plain w)) : ErrOnly Q (Booklit.tmplErr : Res α) := by
  intro e h; cases h; exact hq _

/-! Texts never fail with an error: broken references are shown. -/

theorem text_noerr {ref sect} (h1 : ∀ s t o l, ErrOnly (fun _ => False) (ref s t o l)) (h2 : ∀ i, ErrOnly (fun _ => False) (sect i))
    (c : Content) : ErrOnly (fun _ => False) (c.text ref sect) := by
  have seqs : ∀ {cs : List Content}, (∀ c ∈ cs, ErrOnly (fun _ => False) (c.text ref sect)) → ErrOnly (fun _ => False) (textL ref sect cs) := by
    intro cs h
    induction cs with
    | nil => rw [textL]; exact .ok
    | cons c cs ih => rw [textL]; exact (h c (by simp)).bind fun _ _ => (ih fun b hb => h b (by simp [hb])).map
  induction c using Content.ind with
  | nil => rw [Content.text]; intro e h; cases h
  | str => rw [Content.text]; exact .ok
  | seq cs ih | para cs ih | pre cs ih | list cs o ih => rw [Content.text]; exact (seqs ih).map
  | ref s t c o l ih =>
    rw [Content.text]
    split
    · exact h1 s t o l
    · exact ih
  | sect i => rw [Content.text]; exact h2 i
  | toc | target | image | lazy => rw [Content.text]; exact .ok
  | styled st b c ps ih _ => rw [Content.text]; exact ih
  | link c u ih => rw [Content.text]; exact ih
  | table rs ih =>
    rw [Content.text]
    refine ErrOnly.map ?_
    induction rs with
    | nil => rw [textR]; exact .ok
    | cons r rs ihr =>
      rw [textR]
      exact (seqs (ih r (by simp))).bind fun _ _ => (ihr fun r' hr => ih r' (by simp [hr])).map
  | defs ds ih =>
    rw [Content.text]
    refine ErrOnly.map ?_
    induction ds with
    | nil => rw [textD]; exact .ok
    | cons d ds ihd =>
      obtain ⟨a, b⟩ := d
      rw [textD]
      have h := ih (a, b) (by simp)
      refine ErrOnly.bind ?_ fun _ _ => ErrOnly.bind ?_ fun _ _ => (ihd fun r' hr => ih r' (by simp [hr])).map
      · split
        · exact .ok
        · exact h.1
      · split
        · exact .ok
        · exact h.2
  | aux c ih => rw [Content.text]; exact ih

theorem heapText_noerr {b : Bool} {h : Heap} : ∀ (n : Nat) (c : Content), ErrOnly (fun _ => False) (h.text b n c) := by
  intro n
  induction n with
  | zero => intro c; rw [Heap.text]; exact text_noerr (fun _ _ _ _ => .more) (fun _ => .more) c
  | succ n ih =>
    intro c
    rw [Heap.text]
    refine text_noerr (fun s t o l => ?_) (fun i => (ih _).map) c
    cases h.refTag n b s t o l with
    | none => exact .more
    | some r =>
      cases r with
      | tag g => exact ih _
      | nothing => intro e h; cases h
      | unknown => exact .ok
      | ambiguous ls => exact .ok

theorem ErrOnly.weaken {α : Type} {Q Q' : Err → Prop} {x : Res α} (h : ErrOnly Q x) (hq : ∀ e, Q e → Q' e) : ErrOnly Q' x :=
  fun e he => hq e (h e he)

/-! Rendering. -/

structure InnerErrs (Q : Err → Prop) (ok : Content → Bool) (I : Inner) : Prop where
  ref : ∀ s t c o l, (Content.ref s t c o l).all ok = true → ErrOnly Q (I.ref s t c o l)
  sect : ∀ i, ok (.sect i) = true → ErrOnly Q (I.sect i)
  toc : ∀ i, ok (.toc i) = true → ErrOnly Q (I.toc i)
  force : ∀ b i, ok (.lazy b i) = true → ErrOnly Q (I.force i)
  raw : ∀ c, ErrOnly Q (I.raw c)

theorem html_errs {Q : Err → Prop} (hq : ∀ w, Q (.plain w)) {ok : Content → Bool} {I : Inner} (hI : InnerErrs Q ok I) (c : Content) :
    c.all ok = true → ErrOnly Q (c.html I) := by
  have seqs : ∀ {cs : List Content}, (∀ c ∈ cs, c.all ok = true → ErrOnly Q (c.html I)) → allL ok cs = true → ErrOnly Q (htmlL I cs) := by
    intro cs h hc
    induction cs with
    | nil => rw [htmlL]; exact .ok
    | cons c cs ih =>
      rw [allL, Bool.and_eq_true] at hc
      rw [htmlL]
      exact (h c (by simp) hc.1).bind fun _ _ => (ih (fun b hb => h b (by simp [hb])) hc.2).map
  induction c using Content.ind with
  | nil => intro _; rw [Content.html]; exact .tmpl hq
  | str => intro _; rw [Content.html]; exact .ok
  | seq cs ih | para cs ih | pre cs ih | list cs o ih =>
    intro hc
    rw [Content.all, Bool.and_eq_true] at hc
    rw [Content.html]
    exact (seqs ih hc.2).map
  | ref s t c o l ih => intro hc; rw [Content.html]; exact hI.ref s t c o l hc
  | sect i => intro hc; rw [Content.html]; exact hI.sect i hc
  | toc i => intro hc; rw [Content.html]; exact hI.toc i hc
  | styled st b c ps ih ihp =>
    intro hc
    rw [Content.all, Bool.and_eq_true, Bool.and_eq_true] at hc
    have ih := ih hc.1.2
    rw [Content.html]
    split
    · split
      · exact .tmpl hq
      · exact ih.map
      · exact ih.map
    · split
      · exact (hI.raw c).recover hq
      · split
        · exact .tmpl hq
        · exact ih.map
  | target t l ti c _ _ => intro _; rw [Content.html]; exact .ok
  | image p d => intro _; rw [Content.html]; exact .ok
  | link c u ih =>
    intro hc
    rw [Content.all, Bool.and_eq_true] at hc
    rw [Content.html]
    exact (ih hc.2).map
  | table rs ih =>
    intro hc
    rw [Content.all, Bool.and_eq_true] at hc
    replace hc := hc.2
    rw [Content.html]
    refine ErrOnly.map ?_
    induction rs with
    | nil => rw [htmlR]; exact .ok
    | cons r rs ihr =>
      rw [allR, Bool.and_eq_true] at hc
      rw [htmlR]
      exact (seqs (ih r (by simp)) hc.1).bind fun _ _ => (ihr (fun r' hr => ih r' (by simp [hr])) hc.2).map
  | defs ds ih =>
    intro hc
    rw [Content.all, Bool.and_eq_true] at hc
    replace hc := hc.2
    rw [Content.html]
    refine ErrOnly.map ?_
    induction ds with
    | nil => rw [htmlD]; exact .ok
    | cons d ds ihd =>
      obtain ⟨a, b⟩ := d
      simp only [allD, Bool.and_eq_true] at hc
      rw [htmlD]
      have h := ih (a, b) (by simp)
      exact (h.1 hc.1.1).bind fun _ _ => (h.2 hc.1.2).bind fun _ _ => (ihd (fun r' hr => ih r' (by simp [hr])) hc.2).map
  | lazy b i => intro hc; rw [Content.html]; exact hI.force b i hc
  | aux c ih =>
    intro hc
    rw [Content.all, Bool.and_eq_true] at hc
    rw [Content.html]
    exact ih hc.2

/-- The sections `T` are all that is looked at, and what is shown of them satisfies `ok`. -/
structure ShownWithin (T : Nat → Prop) (ok : Content → Bool) (S : Site) (h : Heap) : Prop where
  title : ∀ i, T i → (h.get i).title.all ok = true
  body : ∀ i, T i → (h.get i).body.all ok = true
  tags : ∀ i, T i → ∀ g ∈ (h.get i).tags, g.title.all ok = true
  force : ∀ b i c, ok (.lazy b i) = true → S.force i = some c → c.all ok = true
  sect : ∀ i, ok (.sect i) = true ↔ T i
  toc : ∀ i, ok (.toc i) = true → T i
  ref : ∀ s t c o l, ok (.ref s t c o l) = true → T s
  kids : ∀ i, T i → ∀ c ∈ (h.get i).children, T c
  parent : ∀ i p, T i → (h.get i).parent = some p → T p
  str : ∀ s, ok (.str s) = true
  strip : ∀ c c', c.isAux = false → stripAux c = some c' → ok c = true → ok c' = true

/-- What an error of a reference may be: the tags that are looked at are tags of the sections. -/
structure RefErrs (Q : Err → Prop) (T : Nat → Prop) (ok : Content → Bool) (h : Heap) : Prop where
  plain : ∀ w, Q (.plain w)
  unknown : ∀ n s t c o l p gs, ok (.ref s t c o l) = true → h.filePath n s = some p → h.findTag n s t = some [] →
    h.tagsUp (fun _ => true) n none s = some gs → Q (.unknownTag t (gs.map Tag.name) p l)
  ambiguous : ∀ n s t c o l p ds gs, ok (.ref s t c o l) = true → h.filePath n s = some p → h.findTag n s t = some gs →
    2 ≤ gs.length → ds.map (·.2) = gs.map Tag.loc →
    (∀ d ∈ ds, ∃ j g i, T j ∧ g ∈ (h.get j).tags ∧ g.name = t ∧ g.sec = some i ∧ g.loc = d.2 ∧ h.filePath n i = some d.1) →
    Q (.ambiguous t ds p l)

theorem resMap_from {α β : Type} {f : α → Res β} : ∀ {l : List α} {bs : List β}, resMap f l = .ok bs →
    ∀ b ∈ bs, ∃ a ∈ l, f a = .ok b
  | [], bs, h, b, hb => by cases h; cases hb
  | a :: l, bs, h, b, hb => by
    rw [Booklit.resMap] at h
    cases ha : f a with
    | ok x =>
      rw [ha] at h
      cases hl : Booklit.resMap f l with
      | ok xs =>
        rw [Res.bind, hl] at h
        cases h
        rcases List.mem_cons.1 hb with rfl | hb
        · exact ⟨a, by simp, ha⟩
        · obtain ⟨a', h1, h2⟩ := resMap_from hl b hb
          exact ⟨a', by simp [h1], h2⟩
      | _ => rw [Res.bind, hl] at h; cases h
    | _ => rw [ha] at h; cases h

theorem tags_filter (h : Heap) (m : Str → Bool) : ∀ n : Nat,
    (∀ i, h.tagsDown m n i = (h.tagsDown (fun _ => true) n i).map (List.filter fun g => m g.name)) ∧
    ∀ ex is, h.tagsDownAll m n ex is = (h.tagsDownAll (fun _ => true) n ex is).map (List.filter fun g => m g.name) := by
  intro n
  induction n with
  | zero =>
    refine ⟨fun i => rfl, fun ex is => ?_⟩
    cases is <;> rfl
  | succ n ih =>
    refine ⟨fun i => ?_, fun ex is => ?_⟩
    · simp only [Heap.tagsDown, ih.2]
      cases h.tagsDownAll (fun _ => true) n none (h.get i).children <;> simp
    · cases is with
      | nil => rfl
      | cons c cs =>
        rw [Heap.tagsDownAll, Heap.tagsDownAll, ih.1, ih.2]
        split
        · rfl
        · cases h.tagsDown (fun _ => true) n c <;> cases h.tagsDownAll (fun _ => true) n ex cs <;> simp

/-- Looking for tags with a property is choosing among all of them. -/
theorem tagsUp_filter (h : Heap) (m : Str → Bool) : ∀ (n : Nat) (ex : Option Nat) (i : Nat),
    h.tagsUp m n ex i = (h.tagsUp (fun _ => true) n ex i).map (List.filter fun g => m g.name) := by
  intro n
  induction n with
  | zero => intro ex i; rfl
  | succ n ih =>
    intro ex i
    simp only [Heap.tagsUp, (tags_filter h m n).2, ih]
    cases h.tagsDownAll (fun _ => true) n ex (h.get i).children with
    | none => rfl
    | some below =>
      cases (h.get i).parent with
      | none => simp
      | some q => simp only [Option.bind_eq_bind, Option.map_some, Option.bind_some]; cases h.tagsUp (fun _ => true) n (some i) q <;> simp

theorem tagsUp_named {h : Heap} {t : Str} {n : Nat} {i : Nat} {ts : List Tag} (e : h.findTag n i t = some ts) :
    ∀ g ∈ ts, g.name = t := by
  rw [Heap.findTag, tagsUp_filter] at e
  obtain ⟨gs, _, rfl⟩ := Option.map_eq_some_iff.1 e
  intro g hg
  simpa using (List.mem_filter.1 hg).2

theorem resMap_image {α β γ : Type} {f : α → Res β} {g : β → γ} {k : α → γ} (hk : ∀ a b, f a = .ok b → g b = k a) :
    ∀ {l : List α} {bs : List β}, resMap f l = .ok bs → bs.map g = l.map k
  | [], bs, h => by cases h; rfl
  | a :: l, bs, h => by
    rw [Booklit.resMap] at h
    cases ha : f a with
    | ok x =>
      rw [ha] at h
      cases hl : Booklit.resMap f l with
      | ok xs =>
        rw [Res.bind, hl] at h
        cases h
        rw [List.map_cons, List.map_cons, resMap_image hk hl, hk a x ha]
      | _ => rw [Res.bind, hl] at h; cases h
    | _ => rw [ha] at h; cases h

theorem unknown_from {h : Heap} {n s : Nat} {b : Bool} {t : Str} {o : Bool} {l : Location}
    (e : h.refTag n b s t o l = some .unknown) : h.findTag n s t = some [] := by
  rw [Heap.refTag, Heap.resolve] at e
  cases hf : h.findTag n s t with
  | none => rw [hf] at e; cases e
  | some ts =>
    rw [hf] at e
    match ts with
    | [] => rfl
    | [x] => simp at e
    | x :: y :: r => cases b <;> simp at e

theorem ambiguous_from {h : Heap} {T : Nat → Prop} (hk : ∀ i, T i → ∀ c ∈ (h.get i).children, T c)
    (hp : ∀ i p, T i → (h.get i).parent = some p → T p) {n s : Nat} {b : Bool} {t : Str} {o : Bool} {l : Location} {ls : List (Option Nat × Location)}
    (hs : T s) (e : h.refTag n b s t o l = some (.ambiguous ls)) :
    (∃ gs, h.findTag n s t = some gs ∧ 2 ≤ gs.length ∧ ls = gs.map fun g => (g.sec, g.loc)) ∧
    ∀ x ∈ ls, ∃ j g, T j ∧ g ∈ (h.get j).tags ∧ g.name = t ∧ x = (g.sec, g.loc) := by
  rw [Heap.refTag, Heap.resolve] at e
  cases hf : h.findTag n s t with
  | none => rw [hf] at e; cases e
  | some ts =>
    rw [hf] at e
    have hm := tagsUp_mem h T hk hp _ _ _ _ _ hs hf
    have hn := tagsUp_named hf
    match ts, hm, hn with
    | [], _, _ => cases o <;> cases b <;> simp at e
    | [x], _, _ => simp at e
    | x :: y :: r, hm, hn =>
      cases b <;> simp at e
      subst e
      refine ⟨⟨_, rfl, by simp, rfl⟩, ?_⟩
      intro z hz
      have : ∃ g ∈ x :: y :: r, z = (g.sec, g.loc) := by
        simp only [List.mem_cons, List.mem_map] at hz
        rcases hz with rfl | rfl | ⟨g, hg, rfl⟩
        · exact ⟨x, by simp, rfl⟩
        · exact ⟨y, by simp, rfl⟩
        · exact ⟨g, by simp [hg], rfl⟩
      obtain ⟨g, hg, rfl⟩ := this
      obtain ⟨j, ht, hj⟩ := hm g hg
      exact ⟨j, g, ht, hj, hn g hg, rfl⟩

/-- Whether a part is as told. -/
noncomputable def partOk (T : Nat → Prop) (R : Nat → Str → Location → Prop) : Content → Bool
  | .ref s t _ _ l => @decide (T s ∧ R s t l) (Classical.propDecidable _)
  | .sect i => @decide (T i) (Classical.propDecidable _)
  | .toc i => @decide (T i) (Classical.propDecidable _)
  | _ => true

theorem partOk_strip (T : Nat → Prop) (R : Nat → Str → Location → Prop) (c c' : Content) (_ : c.isAux = false) (e : stripAux c = some c')
    (h : partOk T R c = true) : partOk T R c' = true := by
  cases c with
  | ref s t x o l =>
    rw [stripAux] at e
    cases hx : stripAux x with
    | none => rw [hx] at e; cases e
    | some x' => rw [hx] at e; cases e; exact h
  | aux => contradiction
  | nil => cases e
  | str => cases e; rfl
  | sect => cases e; exact h
  | toc => cases e; exact h
  | image => cases e; rfl
  | «lazy» => cases e; rfl
  | seq cs | para cs | pre cs | list cs o =>
    rw [stripAux] at e
    cases hx : stripAuxSeq cs with
    | none => rw [hx] at e; cases e
    | some x' => rw [hx] at e; cases e; rfl
  | link x u =>
    rw [stripAux] at e
    cases hx : stripAux x with
    | none => rw [hx] at e; cases e
    | some x' => rw [hx] at e; cases e; rfl
  | styled st b x ps =>
    simp only [stripAux, Option.bind_eq_bind, Option.bind_eq_some_iff] at e
    obtain ⟨_, _, _, _, e⟩ := e
    cases e
    rfl
  | target t l ti x =>
    simp only [stripAux, Option.bind_eq_bind, Option.bind_eq_some_iff] at e
    obtain ⟨_, _, _, _, e⟩ := e
    cases e
    rfl
  | table rs =>
    rw [stripAux] at e
    cases hx : stripAuxRows rs with
    | none => rw [hx] at e; cases e
    | some x' => rw [hx] at e; cases e; rfl
  | defs ds =>
    rw [stripAux] at e
    cases hx : stripAuxDefs ds with
    | none => rw [hx] at e; cases e
    | some x' => rw [hx] at e; cases e; rfl

theorem ref_errs {Q : Err → Prop} {T : Nat → Prop} {ok : Content → Bool} {S : Site} {h : Heap} (hR : RefErrs Q T ok h)
    (H : ShownWithin T ok S h) {f : Content → Res Str} (A : ∀ c, c.all (ok) = true → ErrOnly Q (f c)) (n : Nat) (s t c o l)
    (hc : (Content.ref s t c o l).all (ok) = true) : ErrOnly Q (h.refHtml S n f s t c o l) := by
  rw [Content.all, Bool.and_eq_true] at hc
  have hr := hc.1
  have hT := H.ref s t c o l hr
  rw [Heap.refHtml]
  cases e : h.refTag n S.brokenOk s t o l with
  | none => exact .more
  | some r =>
    cases r with
    | unknown =>
      intro x hx
      have e0 := e
      rcases unknownTag_fails (α := Str) h n s t l with e | ⟨p, gs, h1, h2, e⟩
      · dsimp only at hx; rw [e] at hx; cases hx
      · dsimp only at hx; rw [e] at hx; cases hx; exact hR.unknown n s t c o l p gs hr h1 (unknown_from e0) h2
    | ambiguous ls =>
      dsimp only
      rw [Heap.ambiguousTag]
      refine ErrOnly.bind (.resMap fun x _ => ?_) fun ds hd => ?_
      · cases x.1 with
        | none => exact .tmpl hR.plain
        | some i => exact ErrOnly.ofFuel.map
      · cases hp : h.filePath n s with
        | none => exact .more
        | some p =>
          intro x hx
          cases hx
          obtain ⟨⟨gs, hgs, h2, hls⟩, hfrom⟩ := ambiguous_from H.kids H.parent hT e
          refine hR.ambiguous n s t c o l p ds gs hr hp hgs h2 ?_ fun d hm => ?_
          · rw [resMap_image (k := fun x => x.2) (fun a b hab => ?_) hd, hls, List.map_map]
            · rfl
            · cases ha : a.1 with
              | none => rw [ha] at hab; cases hab
              | some i =>
                rw [ha] at hab
                dsimp only at hab
                cases hq : h.filePath n i with
                | none => rw [hq] at hab; cases hab
                | some q => rw [hq] at hab; cases hab; rfl
          obtain ⟨a, ha, hfa⟩ := resMap_from hd d hm
          obtain ⟨j, g, htj, hg, hn, rfl⟩ := hfrom a ha
          dsimp only at hfa
          cases hi : g.sec with
          | none => rw [hi] at hfa; cases hfa
          | some i =>
            rw [hi] at hfa
            dsimp only at hfa
            cases hq : h.filePath n i with
            | none => rw [hq] at hfa; cases hfa
            | some q =>
              rw [hq] at hfa
              cases hfa
              exact ⟨j, g, i, htj, hg, hn, hi, rfl, hq⟩
    | nothing =>
      dsimp only
      cases hs : stripAux c with
      | none => exact .tmpl hR.plain
      | some d => exact A d (strip_all H.strip c d hs hc.2)
    | tag x =>
      dsimp only
      cases hx : x.sec with
      | none => exact .tmpl hR.plain
      | some i =>
        refine ErrOnly.ofFuel.bind fun u _ => ?_
        have ht : (if c.isNil = true then x.title else c).all (ok) = true := by
          split
          · rcases refTag_mem H.kids H.parent hT e with ⟨j, htj, hj⟩ | ⟨_, hj⟩
            · exact H.tags j htj x hj
            · rw [hj]
              exact H.str _
          · exact hc.2
        cases hs : stripAux (if c.isNil = true then x.title else c) with
        | none => exact .tmpl hR.plain
        | some d => exact (A d (strip_all H.strip _ d hs ht)).map

theorem sect_errs {Q : Err → Prop} (hq : ∀ w, Q (.plain w)) {T : Nat → Prop} {ok : Content → Bool} {S : Site} {h : Heap} (H : ShownWithin T ok S h)
    {f : Content → Res Str} (A : ∀ c, c.all ok = true → ErrOnly Q (f c)) (n i : Nat) (hi : T i) : ErrOnly Q (h.sectHtml n f i) := by
  rw [Heap.sectHtml]
  split
  · exact .tmpl hq
  · refine ErrOnly.ofFuel.bind fun d _ => ErrOnly.bind ?_ fun num _ => (A _ (H.title i hi)).bind fun title _ =>
      (A _ (H.body i hi)).bind fun body _ => ErrOnly.map ?_
    · split
      · exact ErrOnly.ofFuel.map
      · exact .ok
    · split
      · exact .ok
      · exact ErrOnly.map (.resMap fun c hc => A (.sect c) (by rw [Content.all]; exact (H.sect c).2 (H.kids i hi c hc)))

theorem toc_errs {Q : Err → Prop} (hq : ∀ w, Q (.plain w)) {T : Nat → Prop} {ok : Content → Bool} {S : Site} {h : Heap} (H : ShownWithin T ok S h)
    {f : Content → Res Str} (A : ∀ c, c.all ok = true → ErrOnly Q (f c)) (n : Nat) : ∀ i, T i → ErrOnly Q (h.tocHtml f n i) := by
  induction n with
  | zero => intro i _; exact .more
  | succ n ih =>
    intro i hi
    rw [Heap.tocHtml]
    split
    · exact .ok
    · refine ErrOnly.map (.resMap fun c hc => ?_)
      have hc := H.kids i hi c hc
      rw [Heap.tocEntry]
      cases hs : (h.get c).primaryTag.sec with
      | none => exact .tmpl hq
      | some j =>
        dsimp only
        refine ErrOnly.ofFuel.bind fun u _ => ErrOnly.ofFuel.bind fun k _ => ?_
        cases hd : stripAux (h.get c).title with
        | none => exact .tmpl hq
        | some d => exact (A d (strip_all H.strip _ d hd (H.title c hc))).bind fun title _ => (ih c hc).map

theorem heap_errs {Q : Err → Prop} {T : Nat → Prop} {ok : Content → Bool} {S : Site} {h : Heap} (hR : RefErrs Q T ok h)
    (H : ShownWithin T ok S h) (n : Nat) : ∀ c : Content, c.all (ok) = true → ErrOnly Q (h.html S n c) := by
  induction n with
  | zero =>
    intro c hc
    rw [Heap.html]
    exact html_errs hR.plain (ok := ok) ⟨fun _ _ _ _ _ _ => .more, fun _ _ => .more, fun _ _ => .more, fun _ _ _ => .more,
      fun _ => .more⟩ c hc
  | succ n ih =>
    intro c hc
    rw [Heap.html]
    refine html_errs hR.plain (ok := ok) ⟨fun s t c o l h' => ref_errs hR H ih n s t c o l h', fun i hi => sect_errs hR.plain H ih n i ((H.sect i).1 hi),
      fun i hi => toc_errs hR.plain H ih n i (H.toc i hi), fun b i hb => ?_, fun c => (heapText_noerr n c).weaken fun _ h => h.elim⟩ c hc
    dsimp only
    cases hf : S.force i with
    | none => exact .tmpl hR.plain
    | some d => exact ih d (H.force b i d hb hf)

/-- The errors of pages. -/
theorem page_errs {Q : Err → Prop} {T : Nat → Prop} {ok : Content → Bool} {S : Site} {h : Heap} (hR : RefErrs Q T ok h)
    (H : ShownWithin T ok S h) (n i : Nat) (hi : T i) : ErrOnly Q (h.page S n i) := by
  rw [Heap.page]
  refine ErrOnly.bind (((heapText_noerr n _).weaken fun _ h => h.elim).recover hR.plain) fun _ _ => ?_
  exact (heap_errs hR H n (.sect i) ((H.sect i).2 hi)).map

end Booklit
