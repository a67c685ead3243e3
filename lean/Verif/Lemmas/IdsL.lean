import Verif.Spec.Visible
import Verif.Lemmas.HarmlessL

/-!
Anchors on pages.
-/

namespace Booklit

theorem mem_surfaceL {cs : List Content} {d : Content} : d ∈ surfaceL cs ↔ ∃ c ∈ cs, d ∈ c.surface := by
  induction cs with
  | nil => simp [surfaceL]
  | cons c cs ih => simp [surfaceL, ih]

theorem mem_surfaceR {rs : List (List Content)} {d : Content} : d ∈ surfaceR rs ↔ ∃ r ∈ rs, ∃ c ∈ r, d ∈ c.surface := by
  induction rs with
  | nil => simp [surfaceR]
  | cons c cs ih => simp [surfaceR, ih, mem_surfaceL]

theorem mem_surfaceD {ds : List (Content × Content)} {d : Content} :
    d ∈ surfaceD ds ↔ ∃ x ∈ ds, d ∈ x.1.surface ∨ d ∈ x.2.surface := by
  induction ds with
  | nil => simp [surfaceD]
  | cons c cs ih => obtain ⟨x, y⟩ := c; simp [surfaceD, ih, or_assoc]

theorem Within.cons {d : Dom} {n : Str} {as : List (Str × Str)} {ks l : List Dom} :
    Within d (.elem n as ks :: l) ↔ (d = .elem n as ks ∨ Within d ks) ∨ Within d l := by
  rw [← Within.elem, ← Within.append]; rfl

/-- A result that succeeds is like this. -/
theorem Res.ok_of_map {α β : Type} {f : α → β} {x : Res α} {b : β} (h : x.map f = .ok b) : ∃ a, x = .ok a ∧ f a = b := by
  cases x <;> cases h
  exact ⟨_, rfl, rfl⟩

theorem Res.ok_of_bind {α β : Type} {f : α → Res β} {x : Res α} {b : β} (h : x.bind f = .ok b) : ∃ a, x = .ok a ∧ f a = .ok b := by
  cases x <;> first | exact ⟨_, rfl, h⟩ | cases h

theorem resMap_ok {α β : Type} {f : α → Res β} {l : List α} {bs : List β} (h : resMap f l = .ok bs) {a : α} (ha : a ∈ l) :
    ∃ b ∈ bs, f a = .ok b := by
  induction l generalizing bs with
  | nil => cases ha
  | cons x l ih =>
    obtain ⟨b, h1, h2⟩ := Res.ok_of_bind h
    obtain ⟨bs', h3, rfl⟩ := Res.ok_of_map h2
    rcases List.mem_cons.1 ha with rfl | ha
    · exact ⟨b, by simp, h1⟩
    · obtain ⟨y, hy, e⟩ := ih h3 ha
      exact ⟨y, by simp [hy], e⟩

theorem domL_ok {J : InnerDom} {cs : List Content} {ts : List (List Dom)} (h : domL J cs = .ok ts) {c : Content}
    (hc : c ∈ cs) : ∃ t ∈ ts, c.dom J = .ok t := by
  induction cs generalizing ts with
  | nil => cases hc
  | cons x l ih =>
    obtain ⟨b, h1, h2⟩ := Res.ok_of_bind h
    obtain ⟨bs', h3, rfl⟩ := Res.ok_of_map h2
    rcases List.mem_cons.1 hc with rfl | hc
    · exact ⟨b, by simp, h1⟩
    · obtain ⟨y, hy, e⟩ := ih h3 hc
      exact ⟨y, by simp [hy], e⟩

theorem domR_ok {J : InnerDom} {rs : List (List Content)} {ts : List (List (List Dom))} (h : domR J rs = .ok ts)
    {r : List Content} (hr : r ∈ rs) : ∃ t ∈ ts, domL J r = .ok t := by
  induction rs generalizing ts with
  | nil => cases hr
  | cons x l ih =>
    obtain ⟨b, h1, h2⟩ := Res.ok_of_bind h
    obtain ⟨bs', h3, rfl⟩ := Res.ok_of_map h2
    rcases List.mem_cons.1 hr with rfl | hr
    · exact ⟨b, by simp, h1⟩
    · obtain ⟨y, hy, e⟩ := ih h3 hr
      exact ⟨y, by simp [hy], e⟩

theorem domD_ok {J : InnerDom} {ds : List (Content × Content)} {ts : List (List Dom × List Dom)} (h : domD J ds = .ok ts)
    {d : Content × Content} (hd : d ∈ ds) : ∃ t ∈ ts, d.1.dom J = .ok t.1 ∧ d.2.dom J = .ok t.2 := by
  induction ds generalizing ts with
  | nil => cases hd
  | cons x l ih =>
    obtain ⟨a, b⟩ := x
    obtain ⟨u, h1, h2⟩ := Res.ok_of_bind h
    obtain ⟨v, h3, h4⟩ := Res.ok_of_bind h2
    obtain ⟨bs', h5, rfl⟩ := Res.ok_of_map h4
    rcases List.mem_cons.1 hd with rfl | hd
    · exact ⟨(u, v), by simp, h1, h3⟩
    · obtain ⟨y, hy, e⟩ := ih h5 hd
      exact ⟨y, by simp [hy], e⟩

/-- The targets on the surface of a content become anchors. -/
theorem dom_anchors {J : InnerDom} {t : Str} {l : Location} {a b : Content} (c : Content) :
    ∀ ds, c.dom J = .ok ds → .target t l a b ∈ c.surface → Within (.elem q%"a" [(q%"id", t.map arriving)] []) ds := by
  induction c using Content.ind with
  | nil => intro ds h; cases h
  | str s => intro ds _ hm; simp [Content.surface] at hm
  | ref | sect | toc | lazy | image => intro ds _ hm; simp [Content.surface] at hm
  | seq cs ih =>
    intro ds h hm
    obtain ⟨ts, h1, rfl⟩ := Res.ok_of_map h
    rw [Content.surface] at hm
    obtain ⟨c, hc, hm⟩ := mem_surfaceL.1 ((List.mem_cons.1 hm).resolve_left (by simp))
    obtain ⟨x, hx, e⟩ := domL_ok h1 hc
    exact Within.flatten.2 ⟨x, hx, ih c hc x e hm⟩
  | para cs ih =>
    intro ds h hm
    obtain ⟨ts, h1, rfl⟩ := Res.ok_of_map h
    rw [Content.surface] at hm
    obtain ⟨c, hc, hm⟩ := mem_surfaceL.1 ((List.mem_cons.1 hm).resolve_left (by simp))
    obtain ⟨x, hx, e⟩ := domL_ok h1 hc
    exact Within.elem.2 (.inr (.join_of hx (ih c hc x e hm)))
  | pre cs ih =>
    intro ds h hm
    obtain ⟨ts, h1, rfl⟩ := Res.ok_of_map h
    rw [Content.surface] at hm
    obtain ⟨c, hc, hm⟩ := mem_surfaceL.1 ((List.mem_cons.1 hm).resolve_left (by simp))
    obtain ⟨x, hx, e⟩ := domL_ok h1 hc
    exact .join_of hx (ih c hc x e hm)
  | styled st b c ps ih ihp =>
    intro ds h hm
    rw [Content.surface] at hm
    have hm := (List.mem_cons.1 hm).resolve_left (by simp)
    split at hm
    · cases hm
    · rename_i hraw
      rw [Content.dom] at h
      split at h
      · revert h
        cases (if b = true then some false else isFlow c) with
        | none => intro h; cases h
        | some v =>
          cases v with
          | true =>
            intro h
            obtain ⟨x, h1, rfl⟩ := Res.ok_of_map h
            exact Within.elem.2 (.inr (ih x h1 hm))
          | false =>
            intro h
            obtain ⟨x, h1, rfl⟩ := Res.ok_of_map h
            exact Within.elem.2 (.inr (ih x h1 hm))
      · revert h
        cases styleElem st with
        | none => intro h; cases h
        | some q =>
          intro h
          obtain ⟨x, h1, rfl⟩ := Res.ok_of_map h
          exact Within.elem.2 (.inr (ih x h1 hm))
  | target t' l' ti c _ _ =>
    intro ds h hm
    simp only [Content.surface, List.mem_singleton] at hm
    cases hm
    cases h
    exact Within.elem.2 (.inl rfl)
  | list cs o ih =>
    intro ds h hm
    obtain ⟨ts, h1, rfl⟩ := Res.ok_of_map h
    rw [Content.surface] at hm
    obtain ⟨c, hc, hm⟩ := mem_surfaceL.1 ((List.mem_cons.1 hm).resolve_left (by simp))
    obtain ⟨x, hx, e⟩ := domL_ok h1 hc
    refine Within.elem.2 (.inr (Within.append.2 (.inl (Within.append.2 (.inr (Within.flatMap.2 ⟨x, hx, ?_⟩))))))
    exact Within.append.2 (.inl (Within.append.2 (.inr (Within.elem.2 (.inr (ih c hc x e hm))))))
  | link c u ih =>
    intro ds h hm
    rw [Content.surface] at hm
    have hm := (List.mem_cons.1 hm).resolve_left (by simp)
    obtain ⟨x, h1, rfl⟩ := Res.ok_of_map h
    exact Within.elem.2 (.inr (ih x h1 hm))
  | table rs ih =>
    intro ds h hm
    obtain ⟨ts, h1, rfl⟩ := Res.ok_of_map h
    rw [Content.surface] at hm
    obtain ⟨r, hr, c, hc, hm⟩ := mem_surfaceR.1 ((List.mem_cons.1 hm).resolve_left (by simp))
    obtain ⟨row, hrow, h2⟩ := domR_ok h1 hr
    obtain ⟨x, hx, e⟩ := domL_ok h2 hc
    refine Within.elem.2 (.inr (Within.append.2 (.inl (Within.append.2 (.inr (Within.flatMap.2 ⟨row, hrow, ?_⟩))))))
    refine Within.append.2 (.inl (Within.append.2 (.inr (Within.elem.2 (.inr ?_)))))
    refine Within.append.2 (.inl (Within.append.2 (.inr (Within.flatMap.2 ⟨x, hx, ?_⟩))))
    exact Within.append.2 (.inl (Within.append.2 (.inr (Within.elem.2 (.inr (ih r hr c hc x e hm))))))
  | defs ds' ih =>
    intro ds h hm
    obtain ⟨ts, h1, rfl⟩ := Res.ok_of_map h
    rw [Content.surface] at hm
    obtain ⟨d, hd, hm⟩ := mem_surfaceD.1 ((List.mem_cons.1 hm).resolve_left (by simp))
    obtain ⟨x, hx, e1, e2⟩ := domD_ok h1 hd
    refine Within.elem.2 (.inr (Within.append.2 (.inl (Within.append.2 (.inr (Within.flatMap.2 ⟨x, hx, ?_⟩))))))
    rcases hm with hm | hm
    · exact Within.append.2 (.inl (Within.append.2 (.inl (Within.append.2 (.inl (Within.append.2 (.inr
        (Within.elem.2 (.inr ((ih d hd).1 _ e1 hm))))))))))
    · exact Within.append.2 (.inl (Within.append.2 (.inr (Within.elem.2 (.inr ((ih d hd).2 _ e2 hm))))))
  | aux c ih =>
    intro ds h hm
    rw [Content.surface] at hm
    exact ih ds h ((List.mem_cons.1 hm).resolve_left (by simp))

/-- What a rendered section is made of. -/
theorem sectDom_ok {h : Heap} {n : Nat} {g : Content → Res (List Dom)} {i : Nat} {ds : List Dom}
    (e : h.sectDom n g i = .ok ds) :
    HasAnchor ds ((h.get i).primaryTag.name.map arriving) ∧
    (∃ x, g (h.get i).title = .ok x ∧ ∀ d, Within d x → Within d ds) ∧
    (∃ x, g (h.get i).body = .ok x ∧ ∀ d, Within d x → Within d ds) ∧
    ((h.get i).split = false → ∀ c ∈ (h.get i).children, ∃ x, g (.sect c) = .ok x ∧ ∀ d, Within d x → Within d ds) := by
  rw [Heap.sectDom] at e
  split at e
  · cases e
  · obtain ⟨d, _, e⟩ := Res.ok_of_bind e
    obtain ⟨num, _, e⟩ := Res.ok_of_bind e
    obtain ⟨title, ht, e⟩ := Res.ok_of_bind e
    obtain ⟨body, hb, e⟩ := Res.ok_of_bind e
    obtain ⟨kids, hk, rfl⟩ := Res.ok_of_map e
    refine ⟨⟨[], ?_⟩, ⟨title, ht, fun d hd => ?_⟩, ⟨body, hb, fun d hd => ?_⟩, fun hs c hc => ?_⟩
    · simp [Within.append, Within.cons]
    · simp [Within.append, Within.cons, hd]
    · simp [Within.append, Within.cons, hd]
    · rw [hs] at hk
      obtain ⟨ts, h1, rfl⟩ := Res.ok_of_map hk
      obtain ⟨x, hx, hg⟩ := resMap_ok h1 hc
      refine ⟨x, hg, fun d hd => ?_⟩
      refine Within.append.2 (.inr (Within.append.2 (.inl (Within.append.2 (.inr (Within.flatMap.2 ⟨x, hx, ?_⟩))))))
      exact Within.append.2 (.inl (Within.append.2 (.inr hd)))

/-- Everything on the surface of the sections shown is on the page. -/
theorem shown_anchors {S : Site} {h : Heap} {raw : Content → Res (List Dom)} {i j : Nat} (hs : ShownIn h i j) :
    ∀ (n : Nat) (ds : List Dom), h.dom S raw n (.sect i) = .ok ds →
      HasAnchor ds ((h.get j).primaryTag.name.map arriving) ∧
      ∀ t l a b, .target t l a b ∈ (h.get j).title.surface ++ (h.get j).body.surface → HasAnchor ds (t.map arriving) := by
  induction hs with
  | @self i =>
    intro n ds e
    cases n with
    | zero => cases e
    | succ n =>
      rw [Heap.dom] at e
      obtain ⟨h1, ⟨x, hx, h2⟩, ⟨y, hy, h3⟩, -⟩ := sectDom_ok (show h.sectDom n (h.dom S raw n) i = .ok ds from e)
      refine ⟨h1, fun t l a b hm => ⟨[], ?_⟩⟩
      rcases List.mem_append.1 hm with hm | hm
      · refine h2 _ ?_
        cases n with
        | zero => rw [Heap.dom] at hx; exact dom_anchors _ _ hx hm
        | succ n => rw [Heap.dom] at hx; exact dom_anchors _ _ hx hm
      · refine h3 _ ?_
        cases n with
        | zero => rw [Heap.dom] at hy; exact dom_anchors _ _ hy hm
        | succ n => rw [Heap.dom] at hy; exact dom_anchors _ _ hy hm
  | @child i c j h1 h2 _ ih =>
    intro n ds e
    cases n with
    | zero => cases e
    | succ n =>
      rw [Heap.dom] at e
      obtain ⟨-, -, -, h3⟩ := sectDom_ok (show h.sectDom n (h.dom S raw n) i = .ok ds from e)
      obtain ⟨x, hx, h4⟩ := h3 h1 c h2
      obtain ⟨⟨ks, a1⟩, a2⟩ := ih n x hx
      refine ⟨⟨ks, h4 _ a1⟩, fun t l a b hm => ?_⟩
      obtain ⟨ks, a3⟩ := a2 t l a b hm
      exact ⟨ks, h4 _ a3⟩

theorem shown_in {h : Heap} : ∀ (n : Nat),
    (∀ i js, h.shown n i = some js → ∀ j ∈ js, ShownIn h i j) ∧
    (∀ is js, h.shownAll n is = some js → ∀ j ∈ js, ∃ c ∈ is, ShownIn h c j) := by
  intro n
  induction n with
  | zero =>
    refine ⟨fun i js e => by simp [Heap.shown] at e, fun is js e j hj => ?_⟩
    cases is with
    | nil => simp [Heap.shownAll] at e; subst e; cases hj
    | cons c cs => simp [Heap.shownAll] at e
  | succ n ih =>
    refine ⟨fun i js e j hj => ?_, fun is js e j hj => ?_⟩
    · rw [Heap.shown] at e
      split at e
      · cases e
        rw [List.mem_singleton] at hj
        subst hj
        exact .self
      · rename_i hs
        cases h1 : h.shownAll n (h.get i).children <;> simp [h1] at e
        subst e
        rcases List.mem_cons.1 hj with rfl | hj
        · exact .self
        · obtain ⟨c, hc, h2⟩ := ih.2 _ _ h1 j hj
          exact .child (by simpa using hs) hc h2
    · cases is with
      | nil => simp [Heap.shownAll] at e; subst e; cases hj
      | cons c cs =>
        simp only [Heap.shownAll] at e
        cases h1 : h.shown n c <;> simp [h1] at e
        cases h2 : h.shownAll n cs <;> simp [h2] at e
        subst e
        rcases List.mem_append.1 hj with hj | hj
        · exact ⟨c, by simp, ih.1 _ _ h1 j hj⟩
        · obtain ⟨x, hx, h3⟩ := ih.2 _ _ h2 j hj
          exact ⟨x, by simp [hx], h3⟩

/-! ### Pages -/

/-- A page as a tree. -/
def pageDom (title : Str) (t : List Dom) : List Dom :=
  chars q%"\n" ++ [.elem q%"html" [] (chars q%"\n  " ++ [.elem q%"head" [] (chars q%"\n    "
    ++ [.elem q%"meta" [(q%"http-equiv", q%"content-type"), (q%"content", q%"text/html; charset=utf-8")] []]
    ++ chars q%"\n    " ++ [.elem q%"title" [] (arrives title)] ++ chars q%"\n  ")] ++ chars q%"\n  "
    ++ [.elem q%"body" [] (chars q%"\n    " ++ t ++ chars q%"\n  ")] ++ chars q%"\n")]

theorem page_ok {ok : Content → Bool} {S : Site} {h : Heap} (H : ShownOk ok S h) {raw : Content → Res (List Dom)}
    (hraw : ∀ n st b c ps, st = q%"raw-html" → (Content.styled st b c ps).all ok = true →
      RSim Reads (h.text S.brokenOk n c) (raw c)) {n i : Nat} {txt : Str} (e : h.page S n i = .ok txt) :
    ∃ title t, h.text S.brokenOk n (h.get i).title = .ok title ∧ h.dom S raw n (.sect i) = .ok t ∧
      readHtml txt = some (pageDom title t) := by
  rw [Heap.page] at e
  obtain ⟨title, h1, e⟩ := Res.ok_of_bind e
  obtain ⟨x, h2, rfl⟩ := Res.ok_of_map e
  have hs := heap_sim H hraw n (.sect i) (H.sect i)
  rw [h2] at hs
  cases h3 : h.dom S raw n (.sect i) with
  | ok t =>
    rw [h3] at hs
    refine ⟨title, t, ?_, rfl, reads_iff.1 ?_⟩
    · cases h4 : h.text S.brokenOk n (h.get i).title <;> rw [h4] at h1 <;> cases h1
      rfl
    · have hs : Reads x t := hs
      have hb := (elem_of (((Reads.ws (s := q%"\n    ") rfl).append hs).append (Reads.ws (s := q%"\n  ") rfl)) :
        Reads (q%"<body>" ++ _ ++ q%"</body>") [.elem q%"body" [] _])
      have ht := (elem_of (Reads.escText title) : Reads (q%"<title>" ++ _ ++ q%"</title>") [.elem q%"title" [] _])
      have hm : Reads q%"<meta http-equiv=\"content-type\" content=\"text/html; charset=utf-8\" />"
          [.elem q%"meta" [(q%"http-equiv", q%"content-type"), (q%"content", q%"text/html; charset=utf-8")] []] := by
        intro cur opens rest; rfl
      have hh := (elem_of (((((Reads.ws (s := q%"\n    ") rfl).append hm).append (Reads.ws (s := q%"\n    ") rfl)).append
        ht).append (Reads.ws (s := q%"\n  ") rfl)) : Reads (q%"<head>" ++ _ ++ q%"</head>") [.elem q%"head" [] _])
      have hr := (elem_of (((((Reads.ws (s := q%"\n  ") rfl).append hh).append (Reads.ws (s := q%"\n  ") rfl)).append
        hb).append (Reads.ws (s := q%"\n") rfl)) : Reads (q%"<html>" ++ _ ++ q%"</html>") [.elem q%"html" [] _])
      have hd : Reads q%"<!DOCTYPE html>" [] := by intro cur opens rest; rw [List.append_nil]; rfl
      have := (hd.append (Reads.ws (s := q%"\n") rfl)).append hr
      simpa [pageDom, arrives] using this
  | _ => rw [h3] at hs; exact hs.elim

theorem page_within {title : Str} {t : List Dom} {d : Dom} (h : Within d t) : Within d (pageDom title t) := by
  simp [pageDom, Within.append, Within.cons, h]

theorem page_harmless {title : Str} {t : List Dom} {Q : Dom → Prop} {L : Str → Prop} (M : Made Q L) (h : AllIn Q t) : AllIn Q (pageDom title t) := by
  have ws := AllIn.chars M.char
  refine (ws _).append (M.el (by decide) (by decide) ?_)
  refine (((((ws _).append (M.el (by decide) (by decide) ?_)).append (ws _))).append (M.el (by decide) (by decide) ?_)).append (ws _)
  · exact ((((ws _).append (M.el (by decide) (by decide) .nil)).append (ws _)).append (M.el (by decide) (by decide) (ws _))).append
      (ws _)
  · exact ((ws _).append h).append (ws _)

end Booklit
