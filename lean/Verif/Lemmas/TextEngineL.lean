import Verif.Spec.TextLooks
import Verif.Lemmas.LooksL
import Verif.Lemmas.RendersL

/-!
The text engine shows what `Verif.Spec.TextLooks` says.
-/

namespace Booklit

open Tree

/-! ### Lines -/

theorem splitNl_lines (s : Str) : ∀ cur, splitNl cur s = match srcLines s with
    | [] => [cur]
    | l :: ls => (cur ++ l) :: ls := by
  induction s with
  | nil => intro cur; simp [splitNl, srcLines]
  | cons c s ih =>
    intro cur
    rw [splitNl, srcLines]
    split
    · rw [ih]
      cases h : srcLines s with
      | nil => cases s <;> simp [srcLines] at h <;> (split at h; simp at h; split at h <;> simp at h)
      | cons l ls => simp
    · rw [ih]
      cases h : srcLines s with
      | nil => simp
      | cons l ls => simp

theorem srcLines_ne (s : Str) : srcLines s ≠ [] := by
  cases s with
  | nil => simp [srcLines]
  | cons c s => rw [srcLines]; split; simp; split <;> simp

theorem split_src (s : Str) : splitNl [] s = srcLines s := by
  rw [splitNl_lines]
  cases h : srcLines s with
  | nil => exact absurd h (srcLines_ne s)
  | cons l ls => rfl

theorem joinWith_intercalate (sep : Str) (l : List Str) : joinWith sep l = sep.intercalate l := by
  induction l with
  | nil => simp [joinWith, List.intercalate]
  | cons a l ih =>
    cases l with
    | nil => simp [joinWith, List.intercalate]
    | cons b l =>
      rw [joinWith, ih]
      · simp [List.intercalate, List.intersperse]
      · simp

theorem indent_join (w : Str) (l : List Str) (hl : l ≠ []) :
    w ++ joinWith ('\n' :: w) l = joinWith ['\n'] (l.map (w ++ ·)) := by
  induction l with
  | nil => exact absurd rfl hl
  | cons a l ih =>
    cases l with
    | nil => simp [joinWith]
    | cons b l =>
      have := ih (by simp)
      have e1 : joinWith ('\n' :: w) (a :: b :: l) = a ++ '\n' :: w ++ joinWith ('\n' :: w) (b :: l) := by
        rw [joinWith]
        simp
      have e2 : joinWith ['\n'] ((a :: b :: l).map (w ++ ·)) =
          (w ++ a) ++ ['\n'] ++ joinWith ['\n'] ((b :: l).map (w ++ ·)) := by
        rw [List.map_cons, List.map_cons, joinWith]
        simp
      rw [e1, e2, ← this]
      simp

theorem inset_indented (s : Str) : Indented s (q%"    " ++ joinLines q%"    " s) := by
  refine ⟨4, by decide, ?_⟩
  rw [joinLines, split_src, indent_join _ _ (srcLines_ne s), joinWith_intercalate]
  rfl

theorem brk {w : Str} (h : (w.contains '\n' && w.all fun c => c == ' ' || c == '\n') = true) : LineBreak w := by
  rw [Bool.and_eq_true] at h
  refine ⟨by simpa using h.1, fun c hc => ?_⟩
  have := List.all_eq_true.1 h.2 c hc
  simpa using this

theorem LineBreak.append {a b : Str} (ha : LineBreak a) (hb : LineBreak b) : LineBreak (a ++ b) :=
  ⟨by simp [ha.1], fun c hc => (List.mem_append.1 hc).elim (ha.2 c) (hb.2 c)⟩

theorem OwnLines.brk {w s : Str} {ps : List Str} (hw : LineBreak w) (h : OwnLines ps s) : OwnLines ps (w ++ s) := by
  cases h with
  | done hv => exact .done (hw.append hv)
  | text hv h =>
    rw [← List.append_assoc, ← List.append_assoc]
    exact .text (hw.append hv) h

/-- Every text between new lines. -/
theorem OwnLines.each {ts : List Str} {e : Str} (he : LineBreak e) :
    OwnLines ts ((ts.flatMap fun t => q%"\n" ++ t ++ q%"\n") ++ e) := by
  induction ts with
  | nil => exact .done he
  | cons t ts ih =>
    rw [List.flatMap_cons, show (q%"\n" ++ t ++ q%"\n") ++ (ts.flatMap fun t => q%"\n" ++ t ++ q%"\n") ++ e =
      q%"\n" ++ t ++ (q%"\n" ++ ((ts.flatMap fun t => q%"\n" ++ t ++ q%"\n") ++ e)) by simp]
    exact .text (Booklit.brk rfl) (ih.brk (Booklit.brk rfl))

/-! ### Contents -/

theorem txtL_all2 {I : InnerTxt} {cs : List Content} {ts : List Str} (h : txtL I cs = .ok ts) :
    All2 (fun c t => c.txt I = .ok t) cs ts := by
  induction cs generalizing ts with
  | nil => cases h; exact .nil
  | cons a l ih =>
    rw [txtL] at h
    obtain ⟨b, h1, h⟩ := Res.ok_of_bind h
    obtain ⟨bs', h2, rfl⟩ := Res.ok_of_map h
    exact .cons h1 (ih h2)

theorem recover_ok {α : Type} {r : Res α} {a : α} (h : r.recover = .ok a) : r = .ok a := by
  cases r <;> cases h
  rfl

theorem ofFuel_ok {α : Type} {r : Option α} {a : α} (h : Res.ofFuel r = .ok a) : r = some a := by
  cases r <;> cases h
  rfl

section
variable {S : Site} {h : Heap} {t : Tree}

theorem txt_looks {J : InnerTxt}
    (hsect : ∀ i, (Content.sect i).placed t = true → ∀ x, J.sect i = .ok x → TextLooks S h t (.sect i) x)
    (htoc : ∀ i, (Content.toc i).placed t = true → ∀ x, J.toc i = .ok x → TextLooks S h t (.toc i) x)
    (hforce : ∀ b i x, J.force i = .ok x → TextLooks S h t (.lazy b i) x)
    (hraw : ∀ c x, J.raw c = .ok x → c.saysText S h x) (c : Content) :
    c.all (Content.placed t) = true → ∀ x, c.txt J = .ok x → TextLooks S h t c x := by
  induction c using Content.ind with
  | nil => intro _ x e; cases e
  | str s => intro _ x e; cases e; exact .str
  | seq cs ih =>
    intro hc x e
    rw [Content.all, Bool.and_eq_true] at hc
    obtain ⟨ts, h1, rfl⟩ := Res.ok_of_map e
    exact .seq ((txtL_all2 h1).imp fun c hm d hd => ih c hm (allL_iff.1 hc.2 c hm) d hd)
  | para cs ih =>
    intro hc x e
    rw [Content.all, Bool.and_eq_true] at hc
    obtain ⟨ts, h1, rfl⟩ := Res.ok_of_map e
    rw [joinWith_intercalate]
    exact .para ((txtL_all2 h1).imp fun c hm d hd => ih c hm (allL_iff.1 hc.2 c hm) d hd)
  | pre cs ih =>
    intro hc x e
    rw [Content.all, Bool.and_eq_true] at hc
    obtain ⟨ts, h1, rfl⟩ := Res.ok_of_map e
    rw [joinWith_intercalate]
    exact .pre ((txtL_all2 h1).imp fun c hm d hd => ih c hm (allL_iff.1 hc.2 c hm) d hd)
  | sect i => intro hc x e; exact hsect i hc x e
  | toc i => intro hc x e; exact htoc i hc x e
  | styled st b c ps ih ihp =>
    intro hc x e
    rw [Content.all, Bool.and_eq_true, Bool.and_eq_true] at hc
    rw [Content.txt] at e
    split at e
    · rename_i hv
      subst hv
      obtain ⟨y, hy, rfl⟩ := Res.ok_of_map e
      exact .inset (ih hc.1.2 y hy) (inset_indented y)
    · split at e
      · rename_i hv
        subst hv
        exact .said (hraw c x (recover_ok e))
      · cases e
  | lazy b i => intro hc x e; exact hforce b i x e
  | aux c ih =>
    intro hc x e
    rw [Content.all, Bool.and_eq_true] at hc
    exact .aux (ih hc.2 x e)
  | _ => intro _ x e; cases e

theorem placed_strip (t : Tree) (c c' : Content) (_ : c.isAux = false) (e : stripAux c = some c')
    (hc : c.placed t = true) : c'.placed t = true := by
  cases c <;> simp_all [stripAux, Option.bind_eq_some_iff, Content.isAux]
  all_goals first | (subst e; first | rfl | exact hc) | skip
  all_goals try (obtain ⟨x, -, rfl⟩ := e; first | rfl | exact hc)
  all_goals (obtain ⟨x, -, y, -, rfl⟩ := e; first | rfl | exact hc)

/-- The contents of the sections of a book are parts of it. -/
structure TextOk (S : Site) (h : Heap) (t : Tree) : Prop where
  book : Book h t
  title : ∀ i ∈ t.ids, (h.get i).title.all (Content.placed t) = true
  body : ∀ i ∈ t.ids, (h.get i).body.all (Content.placed t) = true
  force : ∀ i c, S.force i = some c → c.all (Content.placed t) = true

theorem sectTmpl_looks (H : TextOk S h t) {g : Content → Res Str}
    (A : ∀ c, c.all (Content.placed t) = true → ∀ x, g c = .ok x → TextLooks S h t c x) (n i : Nat)
    (hi : i ∈ t.ids) (hst : (h.get i).style = [] ∨ (h.get i).style = q%"section") (x : Str)
    (e : h.sectTmpl n g i = .ok x) : TextLooks S h t (.sect i) x := by
  obtain ⟨s, ⟨ks, hs⟩, rfl⟩ := mem_ids.1 hi
  rw [Heap.sectTmpl] at e
  obtain ⟨num, hnum, e⟩ := Res.ok_of_bind e
  obtain ⟨title, ht, e⟩ := Res.ok_of_bind e
  obtain ⟨body, hb, e⟩ := Res.ok_of_bind e
  obtain ⟨kids, hk, rfl⟩ := Res.ok_of_map e
  have hnum : num = (if ks = [] then [] else dotted (ks.map (· + 1)) ++ [' ']) := by
    by_cases hks : ks = []
    · rw [if_neg (fun hh => (parent_at H.book hs).1 hh hks)] at hnum
      cases hnum
      rw [if_pos hks]
    · rw [if_pos ((parent_at H.book hs).2 hks)] at hnum
      obtain ⟨k, hk, rfl⟩ := Res.ok_of_map hnum
      rw [if_neg hks, number_in H.book hs (ofFuel_ok hk)]
  have hkids : ∃ kss, All2 (TextLooks S h t) (if (h.get s.root).split then [] else s.kids.map fun k => .sect k.root) kss ∧
      OwnLines kss (q%"\n\n" ++ kids) := by
    cases hsp : (h.get s.root).split with
    | true =>
      rw [hsp, if_pos rfl] at hk
      cases hk
      exact ⟨[], .nil, .done (brk rfl)⟩
    | false =>
      rw [hsp] at hk
      obtain ⟨ts, h1, rfl⟩ := Res.ok_of_map hk
      refine ⟨ts, ?_, ?_⟩
      · have h2 := resMap_all2 h1
        rw [H.book.children s ⟨_, hs⟩] at h2
        have h3 : All2 (fun c b => TextLooks S h t (.sect c) b) (s.kids.map Tree.root) ts := h2.imp fun c hc x hx => by
          obtain ⟨k, hk, rfl⟩ := List.mem_map.1 hc
          refine A (.sect k.root) ?_ x hx
          simp only [Content.all, Content.placed, List.contains_iff_mem]
          exact mem_ids.2 ⟨k, Sub.kid ⟨_, hs⟩ hk, rfl⟩
        have := h3.map_left
        rw [List.map_map] at this
        exact this
      · rw [List.append_assoc]
        exact ((OwnLines.each (brk rfl)).brk (brk rfl)).brk (brk rfl)
  obtain ⟨kss, h1, h2⟩ := hkids
  rw [show num ++ title ++ body ++ q%"\n\n" ++ kids = num ++ title ++ body ++ (q%"\n\n" ++ kids) by simp]
  exact .sect hs hst hnum (A _ (H.title _ hi) _ ht) (A _ (H.body _ hi) _ hb) h1 h2

theorem tocTxt_looks (H : TextOk S h t) {g : Content → Res Str}
    (A : ∀ c, c.all (Content.placed t) = true → ∀ x, g c = .ok x → TextLooks S h t c x) (n : Nat) :
    ∀ i ∈ t.ids, ∀ x, h.tocTxt g n i = .ok x → TextLooks S h t (.toc i) x := by
  induction n with
  | zero => intro i _ x e; cases e
  | succ n ih =>
    intro i hi x e
    obtain ⟨s, hs, rfl⟩ := mem_ids.1 hi
    rw [Heap.tocTxt] at e
    have hch := H.book.children s hs
    split at e
    · rename_i hc
      cases e
      refine .noToc hs ?_
      rw [hch] at hc
      simpa using hc
    · rename_i hc
      rw [hch] at hc
      simp only [List.map_eq_nil_iff, not_or, Bool.not_eq_true] at hc
      obtain ⟨ts, h1, rfl⟩ := Res.ok_of_map e
      have h2 := resMap_all2 h1
      rw [hch] at h2
      have h3 : ∃ es, All2 (TextEntry S h t) (s.kids.map Tree.root) es ∧ OwnLines es (ts.flatten ++ q%"\n") := by
        have hm : ∀ c ∈ s.kids.map Tree.root, c ∈ t.ids := by
          intro c hc
          obtain ⟨k, hk, rfl⟩ := List.mem_map.1 hc
          exact mem_ids.2 ⟨k, hs.kid hk, rfl⟩
        clear h1 hch hc e
        generalize s.kids.map Tree.root = cs at h2 hm ⊢
        induction h2 with
        | nil => exact ⟨[], .nil, .done (brk rfl)⟩
        | @cons c x cs xs hcx _ ih2 =>
          obtain ⟨es, l1, l2⟩ := ih2 fun c hc => hm c (by simp [hc])
          have hcid := hm c (by simp)
          obtain ⟨w, ⟨ks, hw⟩, rfl⟩ := mem_ids.1 hcid
          rw [Heap.tocLine] at hcx
          obtain ⟨k, hk, hcx⟩ := Res.ok_of_bind hcx
          cases hst : stripAux (h.get w.root).title with
          | none => simp only [hst] at hcx; cases hcx
          | some d =>
            simp only [hst] at hcx
            obtain ⟨title, ht, hcx⟩ := Res.ok_of_bind hcx
            obtain ⟨below, hb, rfl⟩ := Res.ok_of_map hcx
            obtain rfl := number_in H.book hw (ofFuel_ok hk)
            refine ⟨_ :: es, .cons (.entry hw hst (A d (strip_all (placed_strip t) _ d hst (H.title _ hcid)) title ht)
              (ih w.root hcid below hb) (x := q%"\n\n" ++ below ++ q%"\n") (.text (brk rfl) (.done (brk rfl)))) l1, ?_⟩
            rw [List.flatten_cons, show (q%"\n" ++ dotted (ks.map (· + 1)) ++ q%" " ++ title ++ q%"\n\n" ++ below ++ q%"\n")
                ++ xs.flatten ++ q%"\n" = q%"\n" ++ (dotted (ks.map (· + 1)) ++ [' '] ++ title ++ (q%"\n\n" ++ below ++ q%"\n"))
                ++ (xs.flatten ++ q%"\n") by simp]
            exact .text (brk rfl) l2
      obtain ⟨es, l1, l2⟩ := h3
      rw [List.append_assoc]
      exact .toc hs hc.1 hc.2 l1 (l2.brk (brk rfl))

/-- page.tmpl as the template of a section goes on forever. -/
theorem page_style (S : Site) (h : Heap) {i : Nat} (hi : (h.get i).style = q%"page") : ∀ n x, h.txt S n (.sect i) ≠ .ok x := by
  intro n
  induction n with
  | zero => intro x e; cases e
  | succ n ih =>
    intro x e
    rw [Heap.txt, Content.txt] at e
    unfold Heap.sectTxt at e
    dsimp only at e
    rw [hi] at e
    have e : h.pageTmpl S n (h.txt S n) i = .ok x := e
    rw [Heap.pageTmpl] at e
    obtain ⟨title, -, e⟩ := Res.ok_of_bind e
    obtain ⟨y, hy, -⟩ := Res.ok_of_map e
    exact ih y hy

theorem heap_text_looks (H : TextOk S h t) (n : Nat) :
    ∀ c, c.all (Content.placed t) = true → ∀ x, h.txt S n c = .ok x → TextLooks S h t c x := by
  induction n with
  | zero =>
    intro c hc
    rw [Heap.txt]
    refine txt_looks ?_ ?_ ?_ ?_ c hc
    all_goals (intros; rename_i e; cases e)
  | succ n ih =>
    intro c hc
    rw [Heap.txt]
    refine txt_looks ?_ ?_ ?_ ?_ c hc
    · intro i hi x e
      have hi' : i ∈ t.ids := by simpa [Content.placed] using hi
      have e0 : h.txt S (n + 1) (.sect i) = .ok x := by rw [Heap.txt, Content.txt]; exact e
      unfold Heap.sectTxt at e
      dsimp only at e
      split at e
      · rename_i hst
        exact sectTmpl_looks H ih n i hi' hst x e
      · split at e
        · rename_i hst
          exact absurd e0 (page_style S h hst _ _)
        · split at e
          · rename_i hst
            exact .sectSaid hst ⟨n, recover_ok e⟩
          · split at e
            · rename_i hst
              exact .sectToc hst (tocTxt_looks H ih n i hi' x e)
            · cases e
    · intro i hi x e
      exact tocTxt_looks H ih n i (by simpa [Content.placed] using hi) x e
    · intro b i x e
      dsimp only at e
      cases hf : S.force i with
      | none => rw [hf] at e; cases e
      | some d => rw [hf] at e; exact .lazy hf (ih d (H.force i d hf) x e)
    · intro c x e
      exact ⟨n, e⟩

theorem txtPage_looks (H : TextOk S h t) {n i : Nat} (hi : i ∈ t.ids) {page : Str} (e : h.txtPage S n i = .ok page) :
    (h.get i).style = [] ∧ TextPage S h t i page := by
  rw [Heap.txtPage] at e
  split at e
  · cases e
  rename_i hst
  rw [Heap.pageTmpl] at e
  obtain ⟨title, h1, e⟩ := Res.ok_of_bind e
  obtain ⟨x, h2, rfl⟩ := Res.ok_of_map e
  exact ⟨by simpa using hst, title, q%"\n\n", x, ⟨n, recover_ok h1⟩, brk rfl,
    heap_text_looks H n (.sect i) (by simpa [Content.all, Content.placed] using hi) x h2, rfl⟩

end

end Booklit
