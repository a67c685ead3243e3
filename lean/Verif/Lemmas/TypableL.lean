import Verif.Lemmas.TextEngineL

/-!
What the text engine can render, and what it cannot.
-/

namespace Booklit

open Tree

/-! ### More fuel changes nothing -/

/-- The parts that need the sections, with less and with more fuel. -/
structure InnerTxt.Le (I J : InnerTxt) : Prop where
  sect : ∀ i, (I.sect i).Le (J.sect i)
  toc : ∀ i, (I.toc i).Le (J.toc i)
  force : ∀ i, (I.force i).Le (J.force i)
  raw : ∀ c, (I.raw c).Le (J.raw c)

theorem txtL_le {I J : InnerTxt} {cs : List Content} (h : ∀ c ∈ cs, (c.txt I).Le (c.txt J)) : (txtL I cs).Le (txtL J cs) := by
  induction cs with
  | nil => exact .rfl
  | cons c cs ih => exact (h c (by simp)).bind fun _ _ => (ih fun d hd => h d (by simp [hd])).map

theorem txt_le {I J : InnerTxt} (h : I.Le J) (c : Content) : (c.txt I).Le (c.txt J) := by
  induction c using Content.ind with
  | seq cs ih | para cs ih | pre cs ih => exact (txtL_le ih).map
  | sect i => exact h.sect i
  | toc i => exact h.toc i
  | styled st b c ps ih _ =>
    rw [Content.txt, Content.txt]
    split
    · exact ih.map
    · split
      · exact (h.raw c).recover
      · exact .rfl
  | lazy b i => exact h.force i
  | aux c ih => exact ih
  | _ => exact .rfl

section
variable {S : Site} {h : Heap} {t : Tree}

theorem sectTmpl_le {f g : Content → Res Str} (A : ∀ c, (f c).Le (g c)) {n m : Nat} (hm : n ≤ m) (i) :
    (h.sectTmpl n f i).Le (h.sectTmpl m g i) := by
  rw [Heap.sectTmpl, Heap.sectTmpl]
  refine Res.Le.bind ?_ fun num _ => (A _).bind fun title _ => (A _).bind fun body _ => Res.Le.map ?_
  · split
    · exact Res.Le.map (.ofFuel fun a e => number_mono hm e)
    · exact .rfl
  · split
    · exact .rfl
    · exact (Res.Le.resMap fun c _ => A _).map

theorem tocTxt_le {f g : Content → Res Str} (A : ∀ c, (f c).Le (g c)) : ∀ {n m : Nat}, n ≤ m → ∀ i,
    (h.tocTxt f n i).Le (h.tocTxt g m i) := by
  intro n
  induction n with
  | zero => intro m _ i; exact .inl rfl
  | succ n ih =>
    intro m hm i
    obtain ⟨m, rfl⟩ : ∃ k, m = k + 1 := ⟨m - 1, by omega⟩
    rw [Heap.tocTxt, Heap.tocTxt]
    split
    · exact .rfl
    · refine (Res.Le.resMap fun c _ => ?_).map
      rw [Heap.tocLine, Heap.tocLine]
      refine Res.Le.bind (.ofFuel fun a e => number_mono (by omega) e) fun k _ => ?_
      cases stripAux (h.get c).title with
      | none => exact .rfl
      | some d => exact (A d).bind fun title _ => (ih (by omega) c).map

theorem pageTmpl_le {f g : Content → Res Str} (A : ∀ c, (f c).Le (g c)) {n m : Nat} (hm : n ≤ m) (i) :
    (h.pageTmpl S n f i).Le (h.pageTmpl S m g i) := by
  rw [Heap.pageTmpl, Heap.pageTmpl]
  exact (heapText_le hm _).recover.bind fun title _ => (A _).map

theorem heapTxt_le : ∀ {n m : Nat}, n ≤ m → ∀ c, (h.txt S n c).Le (h.txt S m c) := by
  intro n
  induction n with
  | zero =>
    intro m _ c
    cases m with
    | zero => exact .rfl
    | succ m =>
      rw [Heap.txt, Heap.txt]
      exact txt_le ⟨fun _ => .inl rfl, fun _ => .inl rfl, fun _ => .inl rfl, fun _ => .inl rfl⟩ c
  | succ n ih =>
    intro m hm c
    obtain ⟨m, rfl⟩ : ∃ k, m = k + 1 := ⟨m - 1, by omega⟩
    rw [Heap.txt, Heap.txt]
    refine txt_le ⟨?_, ?_, ?_, ?_⟩ c
    · intro i
      unfold Heap.sectTxt
      dsimp only
      split
      · exact sectTmpl_le (ih (by omega)) (by omega) i
      · split
        · exact pageTmpl_le (ih (by omega)) (by omega) i
        · split
          · exact (heapText_le (by omega) _).recover
          · split
            · exact tocTxt_le (ih (by omega)) (by omega) i
            · exact .rfl
    · exact tocTxt_le (ih (by omega)) (by omega)
    · intro i
      dsimp only
      cases S.force i with
      | none => exact .rfl
      | some d => exact ih (by omega) d
    · exact heapText_le (by omega)

/-- A page does not depend on the fuel. -/
theorem txtPage_le {n m : Nat} (hm : n ≤ m) (i : Nat) : (h.txtPage S n i).Le (h.txtPage S m i) := by
  rw [Heap.txtPage, Heap.txtPage]
  split
  · exact .rfl
  · exact pageTmpl_le (heapTxt_le hm) hm i

/-! ### What is rendered -/

/-- The content is rendered, with enough fuel. -/
def TextDone (S : Site) (h : Heap) (c : Content) : Prop := ∃ n x, h.txt S n c = .ok x

theorem TextDone.at {c : Content} (d : TextDone S h c) : ∃ N, ∀ n, N ≤ n → ∃ x, h.txt S n c = .ok x := by
  obtain ⟨N, x, e⟩ := d
  exact ⟨N, fun n hn => ⟨x, (heapTxt_le hn c).ok e⟩⟩

theorem txt_inner (S : Site) (h : Heap) (n : Nat) : ∃ I, ∀ c, h.txt S n c = c.txt I := by
  cases n with
  | zero => exact ⟨_, fun c => by rw [Heap.txt]⟩
  | succ n => exact ⟨_, fun c => by rw [Heap.txt]⟩

theorem txtL_ok {I : InnerTxt} {cs : List Content} (hd : ∀ c ∈ cs, ∃ x, c.txt I = .ok x) : ∃ ts, txtL I cs = .ok ts := by
  induction cs with
  | nil => exact ⟨[], rfl⟩
  | cons c cs ih => exact Res.bind_oks (hd c (by simp)) fun _ => Res.map_oks (ih fun d hc => hd d (by simp [hc]))

theorem textDone_of {cs : List Content} (hd : ∀ c ∈ cs, TextDone S h c) {c : Content}
    (hc : ∀ I : InnerTxt, (∀ c ∈ cs, ∃ x, c.txt I = .ok x) → ∃ x, c.txt I = .ok x) : TextDone S h c := by
  obtain ⟨N, hN⟩ := common (P := fun c n => ∃ x, h.txt S n c = .ok x) fun c hc => (hd c hc).at
  obtain ⟨I, hI⟩ := txt_inner S h N
  refine ⟨N, ?_⟩
  rw [hI]
  exact hc I fun c hc => by rw [← hI]; exact hN N (Nat.le_refl _) c hc

theorem typable_done {c : Content} (htoc : ∀ j, .toc j ∈ c.parts true → TextDone S h (.toc j)) :
    (∀ d ∈ c.parts true, d.typable = true) → TextDone S h c := by
  induction c using Content.ind with
  | str s => exact fun _ => ⟨0, s, rfl⟩
  | toc i => exact fun _ => htoc i (by simp [Content.parts])
  | seq cs ih | para cs ih | pre cs ih =>
    intro hc
    have sub : ∀ c ∈ cs, ∀ d ∈ c.parts true, d ∈ partsL true cs := fun c hc d hd => mem_partsL.2 ⟨c, hc, hd⟩
    simp only [Content.parts, List.mem_cons] at htoc hc
    exact textDone_of (fun c h1 => ih c h1 (fun j hj => htoc j (.inr (sub c h1 _ hj))) fun d hd => hc d (.inr (sub c h1 d hd)))
      fun I hI => Res.map_oks (txtL_ok hI)
  | styled st b c ps ih _ =>
    intro hc
    simp only [Content.parts, List.mem_cons, List.mem_append] at htoc hc
    have hst := hc _ (.inl rfl)
    simp only [Content.typable, beq_iff_eq] at hst
    refine textDone_of (cs := [c]) (fun d hd => ?_) fun I hI => ?_
    · cases List.mem_singleton.1 hd
      exact ih (fun j hj => htoc j (.inr (.inl hj))) fun d hd => hc d (.inr (.inl hd))
    · rw [Content.txt, if_pos hst]
      exact Res.map_oks (hI c (by simp))
  | aux c ih =>
    intro hc
    simp only [Content.parts, List.mem_cons] at htoc hc
    refine textDone_of (cs := [c]) (fun d hd => ?_) fun I hI => hI c (by simp)
    cases List.mem_singleton.1 hd
    exact ih (fun j hj => htoc j (.inr hj)) fun d hd => hc d (.inr hd)
  | _ => exact fun hc => by have := hc _ (by rw [Content.parts]; first | exact List.mem_cons_self | exact List.mem_singleton.2 rfl); cases this

/-- What documents are made of: no sections and nothing deferred, no partials, and tables of contents of the section
itself. -/
def Content.homemade (i : Nat) : Content → Bool
  | .sect _ => false
  | .lazy _ _ => false
  | .toc j => j == i
  | .styled s _ _ ps => ps.isEmpty && s != q%"string"
  | _ => true

theorem homemade_strip (i : Nat) (c c' : Content) (_ : c.isAux = false) (e : stripAux c = some c')
    (hc : c.homemade i = true) : c'.homemade i = true := by
  cases c with
  | styled s b x ps =>
    simp only [Content.homemade, Bool.and_eq_true, List.isEmpty_iff] at hc
    obtain ⟨rfl, hs⟩ := hc
    simp only [stripAux, stripAuxPartials, Option.bind_eq_bind, Option.bind_eq_some_iff] at e
    obtain ⟨x', -, _, hp, e⟩ := e
    cases hp
    cases e
    simpa [Content.homemade] using hs
  | _ =>
    simp_all [stripAux, Option.bind_eq_some_iff, Content.isAux, Content.homemade]
    try first
      | (subst e; first | rfl | exact hc | (simp; done))
      | (obtain ⟨x, -, rfl⟩ := e; first | rfl | exact hc)
      | (obtain ⟨x, -, y, -, rfl⟩ := e; first | rfl | exact hc)

theorem ListedIn.trans {i j k : Nat} (h1 : ListedIn h i j) (h2 : ListedIn h j k) : ListedIn h i k := by
  induction h2 with
  | child ho hk => exact .deeper h1 ho hk
  | deeper _ ho hk ih => exact .deeper ih ho hk

/-- Titles that are listed. -/
def Listable (h : Heap) (k : Nat) : Prop := ∃ d, stripAux (h.get k).title = some d ∧ ∀ e ∈ d.parts true, e.typable = true

theorem txt_toc (n i : Nat) : h.txt S (n + 1) (.toc i) = h.tocTxt (h.txt S n) n i := by rw [Heap.txt, Content.txt]

theorem tocTxt_done (b : Book h t) (own : ∀ i ∈ t.ids, (h.get i).title.all (Content.homemade i) = true) {s : Tree}
    (hs : t.Sub s) : (∀ k, ListedIn h s.root k → Listable h k) → TextDone S h (.toc s.root) := by
  induction s using Tree.ind with
  | h i ks ih =>
    intro hl
    have hch : (h.get i).children = ks.map Tree.root := b.children _ hs
    by_cases ho : (h.get i).children = [] ∨ (h.get i).omitToc = true
    · refine ⟨2, [], ?_⟩
      rw [root, txt_toc, Heap.tocTxt, if_pos ho]
    · simp only [not_or, Bool.not_eq_true] at ho
      have key : ∀ k ∈ ks, ∃ N, ∀ n, N ≤ n → ∃ x, h.tocLine n (h.txt S n) (h.tocTxt (h.txt S n) n) k.root = .ok x := by
        intro k hk
        have hks := hs.kid hk
        have hid : k.root ∈ t.ids := mem_ids.2 ⟨k, hks, rfl⟩
        have hkl : ListedIn h i k.root := .child ho.2 (by rw [hch]; exact List.mem_map.2 ⟨k, hk, rfl⟩)
        have hbelow := ih k hk hks fun j hj => hl j (hkl.trans hj)
        obtain ⟨d, hd, hty⟩ := hl k.root hkl
        have hown : d.all (Content.homemade k.root) = true := strip_all (homemade_strip k.root) _ d hd (own _ hid)
        have htitle : TextDone S h d := typable_done (fun j hj => by
          have := (all_iff d).1 hown _ hj
          simp only [Content.homemade, beq_iff_eq] at this
          rw [this]
          exact hbelow) hty
        obtain ⟨N1, h1⟩ := hbelow.at
        obtain ⟨w, N3, h3⟩ := number_at b hid
        obtain ⟨N5, h5⟩ := htitle.at
        refine ⟨max N1 (max N3 N5), fun n hn => ?_⟩
        obtain ⟨x, e1⟩ := h1 (n + 1) (by omega)
        rw [txt_toc] at e1
        obtain ⟨y, e5⟩ := h5 n (by omega)
        have e3 := h3 n (by omega)
        simp only at e3
        rw [Heap.tocLine]
        simp only [e1, e3, hd, e5, Res.ofFuel, Res.bind, Res.map]
        exact ⟨_, rfl⟩
      obtain ⟨N, hN⟩ := common key
      have : ∃ x, h.tocTxt (h.txt S N) (N + 1) i = .ok x := by
        rw [Heap.tocTxt]
        split
        · exact ⟨_, rfl⟩
        · refine Res.map_oks (resMap_oks fun a ha => ?_)
          rw [hch] at ha
          obtain ⟨k, hk, rfl⟩ := List.mem_map.1 ha
          exact hN N (Nat.le_refl _) k hk
      obtain ⟨x, e⟩ := this
      refine ⟨N + 2, x, ?_⟩
      rw [root, txt_toc]
      exact (tocTxt_le (heapTxt_le (Nat.le_succ N)) (Nat.le_refl _) i).ok e

theorem ShownWith.trans {i j k : Nat} (h1 : ShownWith h i j) (h2 : ShownWith h j k) : ShownWith h i k := by
  induction h2 with
  | self => exact h1
  | deeper _ ho hk ih => exact .deeper ih ho hk

theorem sectTxt_done (b : Book h t) (own : ∀ i ∈ t.ids, (h.get i).title.all (Content.homemade i) = true)
    (own' : ∀ i ∈ t.ids, (h.get i).body.all (Content.homemade i) = true) {s : Tree} (hs : t.Sub s) :
    (∀ k, ShownWith h s.root k → Typable h k) → TextDone S h (.sect s.root) := by
  induction s using Tree.ind with
  | h i ks ih =>
    intro hall
    have hi := hall i .self
    have hid : i ∈ t.ids := mem_ids.2 ⟨_, hs, rfl⟩
    have htocs : ∀ j, .toc j ∈ (h.get i).title.parts true ++ (h.get i).body.parts true → TextDone S h (.toc j) := by
      intro j hj
      have : j = i := by
        have h1 : (Content.toc j).homemade i = true := (List.mem_append.1 hj).elim
          (fun hj => (all_iff _).1 (own i hid) _ hj) (fun hj => (all_iff _).1 (own' i hid) _ hj)
        simpa [Content.homemade] using h1
      subst this
      exact tocTxt_done b own hs (hi.toc j hj)
    have hch : (h.get i).children = ks.map Tree.root := b.children _ hs
    obtain ⟨w, N2, h2⟩ := number_at b hid
    obtain ⟨N3, h3⟩ := (typable_done (fun j hj => htocs j (by simp [hj])) hi.title).at
    obtain ⟨N4, h4⟩ := (typable_done (fun j hj => htocs j (by simp [hj])) hi.body).at
    have kids : ∃ N, ∀ n, N ≤ n → (h.get i).split = false → ∃ z, resMap (fun c => h.txt S n (.sect c)) (h.get i).children = .ok z := by
      cases hsp : (h.get i).split with
      | true => exact ⟨0, fun _ _ e => by cases e⟩
      | false =>
        obtain ⟨N, hN⟩ := common (l := ks) (P := fun k n => ∃ x, h.txt S n (.sect k.root) = .ok x)
          fun k hk => (ih k hk (hs.kid hk) fun j hj => hall j (ShownWith.trans
            (.deeper .self hsp (by rw [root, hch]; exact List.mem_map.2 ⟨k, hk, rfl⟩)) hj)).at
        refine ⟨N, fun n hn _ => resMap_oks fun a ha => ?_⟩
        rw [hch] at ha
        obtain ⟨k, hk, rfl⟩ := List.mem_map.1 ha
        exact hN n hn k hk
    obtain ⟨N5, h5⟩ := kids
    refine ⟨N2 + N3 + N4 + N5 + 1, ?_⟩
    generalize hn : N2 + N3 + N4 + N5 = n
    have e2 := h2 n (by omega)
    obtain ⟨x, e3⟩ := h3 n (by omega)
    obtain ⟨y, e4⟩ := h4 n (by omega)
    have e5 := h5 n (by omega)
    simp only at e2
    rw [root, Heap.txt, Content.txt]
    unfold Heap.sectTxt
    dsimp only
    rw [if_pos hi.style, Heap.sectTmpl]
    simp only [e2, e3, e4, Res.ofFuel, Res.bind, Res.map]
    cases hsp : (h.get i).split with
    | true => cases (h.get i).parent.isSome <;> exact ⟨_, rfl⟩
    | false =>
      obtain ⟨z, hz⟩ := e5 hsp
      rw [hz]
      cases (h.get i).parent.isSome <;> exact ⟨_, rfl⟩

theorem typable_text {c : Content} (ref sect) : (∀ d ∈ c.parts true, d.typable = true) → ∃ x, c.text ref sect = .ok x := by
  induction c using Content.ind with
  | str | toc => exact fun _ => ⟨_, rfl⟩
  | seq cs ih | para cs ih | pre cs ih =>
    intro hc
    refine Res.map_oks ?_
    have hcs : ∀ c ∈ cs, ∃ x, c.text ref sect = .ok x := fun c h1 => ih c h1 fun d hd => hc d (by
      rw [Content.parts]; exact List.mem_cons_of_mem _ (mem_partsL.2 ⟨c, h1, hd⟩))
    clear ih hc
    induction cs with
    | nil => exact ⟨[], rfl⟩
    | cons c cs ih => exact Res.bind_oks (hcs c (by simp)) fun _ => Res.map_oks (ih fun d hc => hcs d (by simp [hc]))
  | styled st k c ps ih ihp =>
    exact fun hc => ih fun d hd => hc d (by
      rw [Content.parts]; exact List.mem_cons_of_mem _ (List.mem_append_left _ hd))
  | aux c ih => exact fun hc => ih fun d hd => hc d (by rw [Content.parts]; exact List.mem_cons_of_mem _ hd)
  | _ => exact fun hc => by have := hc _ (by rw [Content.parts]; first | exact List.mem_cons_self | exact List.mem_singleton.2 rfl); cases this

theorem txtPage_done (b : Book h t) (own : ∀ i ∈ t.ids, (h.get i).title.all (Content.homemade i) = true)
    (own' : ∀ i ∈ t.ids, (h.get i).body.all (Content.homemade i) = true) {i : Nat} (hi : i ∈ t.ids)
    (hst : (h.get i).style = []) (hall : ∀ k, ShownWith h i k → Typable h k) :
    ∃ txt N, ∀ n, N ≤ n → h.txtPage S n i = .ok txt := by
  obtain ⟨s, hs, rfl⟩ := mem_ids.1 hi
  obtain ⟨N, x, e⟩ := sectTxt_done (S := S) b own own' hs hall
  obtain ⟨y, e2⟩ : ∃ y, h.text S.brokenOk N (h.get s.root).title = .ok y := by
    cases N with
    | zero => rw [Heap.text]; exact typable_text _ _ (hall _ .self).title
    | succ n => rw [Heap.text]; exact typable_text _ _ (hall _ .self).title
  have : ∃ txt, h.txtPage S N s.root = .ok txt := by
    rw [Heap.txtPage, if_neg (by simp [hst]), Heap.pageTmpl, e, e2]
    exact ⟨_, rfl⟩
  obtain ⟨txt, e3⟩ := this
  exact ⟨txt, N, fun n hn => (txtPage_le hn s.root).ok e3⟩

/-! ### What is not rendered -/

theorem txtL_mem {I : InnerTxt} {cs : List Content} {ts : List Str} (e : txtL I cs = .ok ts) :
    ∀ c ∈ cs, ∃ x, c.txt I = .ok x := by
  induction cs generalizing ts with
  | nil => intro c hc; cases hc
  | cons a l ih =>
    rw [txtL] at e
    obtain ⟨b, h1, e⟩ := Res.ok_of_bind e
    obtain ⟨bs', h2, rfl⟩ := Res.ok_of_map e
    intro c hc
    rcases List.mem_cons.1 hc with rfl | hc
    · exact ⟨b, h1⟩
    · exact ih h2 c hc

/-- All parts of what is rendered are rendered. -/
theorem parts_txt {I : InnerTxt} {i : Nat} {c : Content} : c.all (Content.homemade i) = true →
    ∀ x, c.txt I = .ok x → ∀ d ∈ c.parts true, d.typable = true ∧ ∃ y, d.txt I = .ok y := by
  induction c using Content.ind with
  | str s => intro _ x e d hd; cases List.mem_singleton.1 hd; exact ⟨rfl, x, e⟩
  | toc i => intro _ x e d hd; cases List.mem_singleton.1 hd; exact ⟨rfl, x, e⟩
  | seq cs ih | para cs ih | pre cs ih =>
    intro hc x e d hd
    rw [Content.all, Bool.and_eq_true] at hc
    rcases List.mem_cons.1 hd with rfl | hd
    · exact ⟨rfl, x, e⟩
    · obtain ⟨c, h1, h2⟩ := mem_partsL.1 hd
      obtain ⟨ts, h3, -⟩ := Res.ok_of_map e
      obtain ⟨y, h4⟩ := txtL_mem h3 c h1
      exact ih c h1 (allL_iff.1 hc.2 c h1) y h4 d h2
  | styled st b c ps ih _ =>
    intro hc x e d hd
    rw [Content.all, Bool.and_eq_true, Bool.and_eq_true] at hc
    have hh := hc.1.1
    simp only [Content.homemade, Bool.and_eq_true, List.isEmpty_iff, bne_iff_ne] at hh
    obtain ⟨rfl, hs⟩ := hh
    have e' := e
    rw [Content.txt] at e
    split at e
    · rename_i hst
      rcases List.mem_cons.1 hd with rfl | hd
      · exact ⟨by simpa [Content.typable] using hst, x, e'⟩
      · rcases List.mem_append.1 hd with hd | hd
        · obtain ⟨y, hy, -⟩ := Res.ok_of_map e
          exact ih hc.1.2 y hy d hd
        · cases hd
    · cases e
  | aux c ih =>
    intro hc x e d hd
    rw [Content.all, Bool.and_eq_true] at hc
    rcases List.mem_cons.1 hd with rfl | hd
    · exact ⟨rfl, x, e⟩
    · exact ih hc.2 x e d hd
  | sect i => intro hc; cases hc
  | lazy i => intro hc; cases hc
  | _ => intro _ x e; cases e

theorem resMap_mem {α β : Type} {f : α → Res β} {l : List α} {bs : List β} (e : resMap f l = .ok bs) :
    ∀ a ∈ l, ∃ b, f a = .ok b := by
  induction l generalizing bs with
  | nil => intro a ha; cases ha
  | cons a l ih =>
    rw [resMap] at e
    obtain ⟨b, h1, e⟩ := Res.ok_of_bind e
    obtain ⟨bs', h2, -⟩ := Res.ok_of_map e
    intro c hc
    rcases List.mem_cons.1 hc with rfl | hc
    · exact ⟨b, h1⟩
    · exact ih h2 c hc

/-- Everything that is listed can be. -/
theorem listed_txt (b : Book h t) (own : ∀ i ∈ t.ids, (h.get i).title.all (Content.homemade i) = true) {f : Content → Res Str}
    (hf : ∃ I, ∀ c, f c = c.txt I) {i : Nat} (hi : i ∈ t.ids) {n : Nat} {x : Str} (e : h.tocTxt f n i = .ok x) {k : Nat}
    (hk : ListedIn h i k) : k ∈ t.ids ∧ Listable h k ∧ ∃ m y, h.tocTxt f m k = .ok y := by
  have step : ∀ {j n x k}, j ∈ t.ids → h.tocTxt f n j = .ok x → (h.get j).omitToc = false → k ∈ (h.get j).children →
      k ∈ t.ids ∧ Listable h k ∧ ∃ m y, h.tocTxt f m k = .ok y := by
    intro j n x k hj e ho hk
    obtain ⟨s, hs, rfl⟩ := mem_ids.1 hj
    have hkid : k ∈ t.ids := by
      rw [b.children s hs] at hk
      obtain ⟨q, hq, rfl⟩ := List.mem_map.1 hk
      exact mem_ids.2 ⟨q, hs.kid hq, rfl⟩
    cases n with
    | zero => cases e
    | succ n =>
      rw [Heap.tocTxt, if_neg (by rintro (h1 | h1) <;> simp_all)] at e
      obtain ⟨ts, h1, -⟩ := Res.ok_of_map e
      obtain ⟨y, h2⟩ := resMap_mem h1 k hk
      rw [Heap.tocLine] at h2
      obtain ⟨num, -, h2⟩ := Res.ok_of_bind h2
      cases hst : stripAux (h.get k).title with
      | none => rw [hst] at h2; cases h2
      | some d =>
        rw [hst] at h2
        obtain ⟨title, h3, h2⟩ := Res.ok_of_bind h2
        obtain ⟨below, h4, -⟩ := Res.ok_of_map h2
        obtain ⟨I, hI⟩ := hf
        rw [hI] at h3
        exact ⟨hkid, ⟨d, hst, fun e he => (parts_txt (strip_all (homemade_strip k) _ d hst (own k hkid)) _ h3 e he).1⟩,
          n, below, h4⟩
  induction hk with
  | child ho hk => exact step hi e ho hk
  | deeper _ ho hk ih =>
    obtain ⟨h1, -, m, y, h2⟩ := ih
    exact step h1 h2 ho hk

theorem shown_typable (b : Book h t) (own : ∀ i ∈ t.ids, (h.get i).title.all (Content.homemade i) = true)
    (own' : ∀ i ∈ t.ids, (h.get i).body.all (Content.homemade i) = true)
    (hst : ∀ i ∈ t.ids, (h.get i).style ≠ q%"toc" ∧ (h.get i).style ≠ q%"string") {i : Nat} (hi : i ∈ t.ids)
    (hd : TextDone S h (.sect i)) {k : Nat} (hk : ShownWith h i k) : k ∈ t.ids ∧ Typable h k ∧ TextDone S h (.sect k) := by
  have look : ∀ {j}, j ∈ t.ids → TextDone S h (.sect j) →
      Typable h j ∧ ((h.get j).split = false → ∀ k ∈ (h.get j).children, TextDone S h (.sect k)) := by
    rintro j hj ⟨n, x, e⟩
    cases n with
    | zero => cases e
    | succ n =>
      have e0 := e
      rw [Heap.txt, Content.txt] at e
      unfold Heap.sectTxt at e
      dsimp only at e
      split at e
      · rename_i hstyle
        rw [Heap.sectTmpl] at e
        obtain ⟨num, -, e⟩ := Res.ok_of_bind e
        obtain ⟨title, ht, e⟩ := Res.ok_of_bind e
        obtain ⟨body, hb, e⟩ := Res.ok_of_bind e
        obtain ⟨kids, hkids, -⟩ := Res.ok_of_map e
        obtain ⟨I, hI⟩ := txt_inner S h n
        have ht' := ht
        have hb' := hb
        rw [hI] at ht' hb'
        have p1 := parts_txt (own j hj) _ ht'
        have p2 := parts_txt (own' j hj) _ hb'
        refine ⟨⟨hstyle, fun d hd => (p1 d hd).1, fun d hd => (p2 d hd).1, fun q hq k hk => ?_⟩, fun hsp k hk => ?_⟩
        · obtain rfl : q = j := by
            have h1 : (Content.toc q).homemade j = true := (List.mem_append.1 hq).elim
              (fun hj' => (all_iff _).1 (own j hj) _ hj') (fun hj' => (all_iff _).1 (own' j hj) _ hj')
            simpa [Content.homemade] using h1
          obtain ⟨y, hy⟩ : ∃ y, h.txt S n (.toc q) = .ok y := by
            rw [hI]
            exact (List.mem_append.1 hq).elim (fun hq => (p1 _ hq).2) (fun hq => (p2 _ hq).2)
          cases n with
          | zero => cases hy
          | succ n =>
            rw [txt_toc] at hy
            exact (listed_txt b own (txt_inner S h n) hj hy hk).2.1
        · rw [hsp] at hkids
          obtain ⟨ts, h1, -⟩ := Res.ok_of_map hkids
          obtain ⟨y, hy⟩ := resMap_mem h1 k hk
          exact ⟨n, y, hy⟩
      · split at e
        · rename_i hp
          exact absurd e0 (page_style S h hp _ _)
        · rw [if_neg (hst j hj).2, if_neg (hst j hj).1] at e
          cases e
  induction hk with
  | self => exact ⟨hi, (look hi hd).1, hd⟩
  | deeper _ ho hk ih =>
    obtain ⟨h1, -, h2⟩ := ih
    obtain ⟨s, hs, rfl⟩ := mem_ids.1 h1
    have h3 := (look h1 h2).2 ho _ hk
    have hkid := hk
    rw [b.children s hs] at hkid
    obtain ⟨q, hq, rfl⟩ := List.mem_map.1 hkid
    have h4 : q.root ∈ t.ids := mem_ids.2 ⟨q, hs.kid hq, rfl⟩
    exact ⟨h4, (look h4 h3).1, h3⟩

end

end Booklit
