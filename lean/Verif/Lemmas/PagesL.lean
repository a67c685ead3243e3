import Verif.Lemmas.SectionL
import Verif.Model.Pages
import Verif.Spec.PageTree

/-! Lemmas about pages: owners, written pages, shown sections, tables of contents. -/

namespace Booklit

open Tree

theorem writtenAll_ends {h : Heap} (sp : Bool) : ∀ (ks : List Tree),
    (∀ k ∈ ks, h.isPage k.root = sp) →
    (∀ k ∈ ks, Ends (fun n => h.written n k.root) ((if h.isPage k.root then [k.root] else []) ++ (k.pages h).map root)) →
    Ends (fun n => h.writtenAll n (ks.map Tree.root)) ((pages.pagesL h sp ks).map root)
  | [], _, _ => Ends.const fun n => by simp [Heap.writtenAll, pages.pagesL]
  | k :: ks, h1, hk => by
    refine Ends.succ ((hk k (by simp)).congr2 (writtenAll_ends sp ks (fun c hc => h1 c (by simp [hc]))
      fun c hc => hk c (by simp [hc])) fun n e1 e2 => ?_)
    have := h1 k (by simp)
    rw [this] at e1
    simp only [List.map_cons, Heap.writtenAll, e1, e2, pages.pagesL]
    cases sp <;> simp

theorem written_ends {h : Heap} {t : Tree} (b : Book h t) (s : Tree) (hs : t.Sub s) :
    Ends (fun n => h.written n s.root) ((if h.isPage s.root then [s.root] else []) ++ (s.pages h).map root) := by
  induction s using Tree.ind with
  | h i ks ih =>
    have hp : ∀ k ∈ ks, h.isPage k.root = (h.get i).split := by
      intro k hk
      have := b.parent _ hs k hk
      rw [Heap.isPage, this]; rfl
    refine Ends.succ ((writtenAll_ends (h := h) _ ks hp fun k hk => ih k hk (hs.kid hk)).congr fun n hn => ?_)
    have e := b.children _ hs
    simp only [root, kids] at e
    simp only [root, Heap.written, e, hn, pages]
    rfl

theorem shownAll_ends {h : Heap} : ∀ (ks : List Tree),
    (∀ k ∈ ks, Ends (fun n => h.shown n k.root) (k.inlined h)) →
    Ends (fun n => h.shownAll n (ks.map Tree.root)) (inlined.inlinedL h ks)
  | [], _ => Ends.const fun n => by simp [Heap.shownAll, inlined.inlinedL]
  | k :: ks, hk => by
    refine Ends.succ ((hk k (by simp)).congr2 (shownAll_ends ks fun c hc => hk c (by simp [hc])) fun n e1 e2 => ?_)
    simp [Heap.shownAll, e1, e2, inlined.inlinedL]

theorem shown_ends {h : Heap} {t : Tree} (b : Book h t) (s : Tree) (hs : t.Sub s) :
    Ends (fun n => h.shown n s.root) (s.inlined h) := by
  induction s using Tree.ind with
  | h i ks ih =>
    refine Ends.succ ((shownAll_ends (h := h) ks fun k hk => ih k hk (hs.kid hk)).congr fun n hn => ?_)
    have e := b.children _ hs
    simp only [root, kids] at e
    have e2 : (Tree.node i ks).root = i := rfl
    rw [e2]
    by_cases hsp : (h.get i).split = true
    · simp [Heap.shown, inlined, hsp]
    · simp [Heap.shown, inlined, hsp, e, hn]

theorem tocAll_ends {h : Heap} : ∀ (ks : List Tree),
    (∀ k ∈ ks, Ends (fun n => h.toc n k.root) (k.listed h)) →
    Ends (fun n => h.tocAll n (ks.map Tree.root)) (listed.listedL h ks)
  | [], _ => Ends.const fun n => by simp [Heap.tocAll, listed.listedL]
  | k :: ks, hk => by
    refine Ends.succ ((hk k (by simp)).congr2 (tocAll_ends ks fun c hc => hk c (by simp [hc])) fun n e1 e2 => ?_)
    simp [Heap.tocAll, e1, e2, listed.listedL]

theorem toc_ends {h : Heap} {t : Tree} (b : Book h t) (s : Tree) (hs : t.Sub s) :
    Ends (fun n => h.toc n s.root) (s.listed h) := by
  induction s using Tree.ind with
  | h i ks ih =>
    refine Ends.succ ((tocAll_ends (h := h) ks fun k hk => ih k hk (hs.kid hk)).congr fun n hn => ?_)
    have e := b.children _ hs
    simp only [root, kids] at e
    have e2 : (Tree.node i ks).root = i := rfl
    rw [e2]
    by_cases hsp : (h.get i).omitToc = true
    · simp [Heap.toc, listed, hsp]
    · simp [Heap.toc, listed, hsp, e, hn]

/-- Pages partition the sections. -/
theorem pages_perm (h : Heap) (s : Tree) :
    (s.inlined h ++ (s.pages h).flatMap fun p => p.inlined h).Perm s.ids := by
  induction s using Tree.ind with
  | h i ks ih =>
    rw [inlined, pages, ids]
    by_cases hsp : (h.get i).split = true
    · rw [if_pos hsp, hsp, List.cons_append, List.nil_append]
      refine List.Perm.cons _ ?_
      clear hsp
      induction ks with
      | nil => simp [pages.pagesL, idsL]
      | cons k ks ihl =>
        simp only [pages.pagesL, idsL, if_true, List.cons_append, List.flatMap_cons, List.flatMap_append]
        rw [← List.append_assoc]
        exact (ih k (by simp)).append (ihl fun c hc => ih c (by simp [hc]))
    · have hsp' : (h.get i).split = false := by simpa using hsp
      rw [if_neg hsp, hsp', List.cons_append]
      refine List.Perm.cons _ ?_
      clear hsp hsp'
      induction ks with
      | nil => simp [pages.pagesL, idsL, inlined.inlinedL]
      | cons k ks ihl =>
        simp only [pages.pagesL, idsL, inlined.inlinedL, Bool.false_eq_true, if_false, List.nil_append, List.flatMap_append]
        refine List.Perm.trans ?_ ((ih k (by simp)).append (ihl fun c hc => ih c (by simp [hc])))
        simp only [List.append_assoc]
        refine List.Perm.append_left _ ?_
        rw [← List.append_assoc, ← List.append_assoc]
        exact List.perm_append_comm.append_right _

theorem pages_sub (h : Heap) {s p : Tree} (hp : p ∈ s.pages h) : s.Sub p := by
  induction s using Tree.ind with
  | h i ks ih =>
    rw [pages] at hp
    have : ∀ (cs : List Tree), (∀ c ∈ cs, c ∈ ks) → p ∈ pages.pagesL h (h.get i).split cs → (Tree.node i ks).Sub p := by
      intro cs
      induction cs with
      | nil => intro _ hp; simp [pages.pagesL] at hp
      | cons c cs ihc =>
        intro hcs hp
        simp only [pages.pagesL, List.mem_append] at hp
        have hsub := (Sub.refl (Tree.node i ks)).kid (k := c) (hcs c (by simp))
        rcases hp with (hp | hp) | hp
        · by_cases e : (h.get i).split = true
          · rw [if_pos e] at hp
            obtain rfl : p = c := by simpa using hp
            exact hsub
          · rw [if_neg e] at hp; simp at hp
        · exact hsub.trans (ih c (hcs c (by simp)) hp)
        · exact ihc (fun d hd => hcs d (by simp [hd])) hp
    exact this ks (fun _ h => h) hp

theorem mem_inlinedL {h : Heap} {ks : List Tree} {i : Nat} : i ∈ inlined.inlinedL h ks ↔ ∃ k ∈ ks, i ∈ k.inlined h := by
  induction ks with
  | nil => simp [inlined.inlinedL]
  | cons k ks ih => simp [inlined.inlinedL, ih]

theorem root_inlined (h : Heap) (s : Tree) : s.root ∈ s.inlined h := by
  cases s; simp [inlined, root]

/-- The page owner: the page on which a section is shown. -/
theorem owner_ends {h : Heap} {t : Tree} (b : Book h t) {ks : List Nat} {s : Tree} (hs : At t ks s) :
    ∃ o, Ends (fun n => h.pageOwner n s.root) o.root ∧ (o = t ∨ o ∈ t.pages h) ∧
      (∀ i ∈ s.inlined h, i ∈ o.inlined h) ∧ (o.root = s.root → h.isPage s.root = true) ∧
      Ends (fun n => h.pageOwner n o.root) o.root ∧ t.Sub o := by
  induction hs with
  | here =>
    have : Ends (fun n => h.pageOwner n t.root) t.root := (Ends.const fun n => by simp [Heap.pageOwner, b.top]).succ
    exact ⟨t, this, .inl rfl, fun _ h => h, fun _ => by simp [Heap.isPage, b.top], this, Sub.refl _⟩
  | @step ks p k s hp hk ih =>
    have hpar := b.kid_parent hp hk
    by_cases hsp : (h.get p.root).split = true
    · have he : Ends (fun n => h.pageOwner n s.root) s.root :=
        (Ends.const fun n => by simp [Heap.pageOwner, hpar, hsp]).succ
      refine ⟨s, he, .inr ?_, fun _ h => h, fun _ => by simp [Heap.isPage, hpar, hsp], he, Sub.kid ⟨_, hp⟩ (List.mem_of_getElem? hk)⟩
      -- `s` is among the pages
      have : ∀ {t p : Tree} {ks : List Nat}, At t ks p → (h.get p.root).split = true → ∀ {k : Nat} {s : Tree},
          p.kids[k]? = some s → s ∈ t.pages h := by
        intro t
        induction t using Tree.ind with
        | h i cs iht =>
          intro p ks hp hsp k s hk
          rw [pages]
          have mem : ∀ (sp : Bool) (l : List Tree) (c : Tree), c ∈ l →
              (∀ x ∈ c.pages h, x ∈ pages.pagesL h sp l) ∧ (sp = true → c ∈ pages.pagesL h sp l) := by
            intro sp l
            induction l with
            | nil => intro c hc; simp at hc
            | cons d l ihl =>
              intro c hc
              rcases List.mem_cons.mp hc with rfl | hc
              · exact ⟨fun x hx => by simp [pages.pagesL, hx], fun h => by simp [pages.pagesL, h]⟩
              · obtain ⟨h1, h2⟩ := ihl c hc
                exact ⟨fun x hx => by simp [pages.pagesL, h1 x hx], fun h => by simp [pages.pagesL, h2 h]⟩
          rcases hp.uncons with ⟨rfl, rfl⟩ | ⟨k', l, c, rfl, hc, hl⟩
          · exact (mem _ cs s (List.mem_of_getElem? hk)).2 hsp
          · exact (mem _ cs c (List.mem_of_getElem? hc)).1 _ (iht c (List.mem_of_getElem? hc) hl hsp hk)
      exact this hp hsp hk
    · obtain ⟨o, h1, h2, h3, h4, h5, h6⟩ := ih
      refine ⟨o, Ends.succ (h1.congr fun n hn => by simp [Heap.pageOwner, hpar, hsp, hn]), h2, ?_, ?_, h5, h6⟩
      · intro i hi
        refine h3 i ?_
        have e : p.inlined h = p.root :: inlined.inlinedL h p.kids := by
          conv => lhs; rw [← node_eta p, inlined, if_neg hsp]
        rw [e, List.mem_cons, mem_inlinedL]
        exact .inr ⟨s, List.mem_of_getElem? hk, hi⟩
      · intro e
        -- the owner would be below `p`, but it shows `p`
        exfalso
        have hs' : At t (ks ++ [k]) s := .step hp hk
        obtain ⟨lo, ho⟩ := h6
        obtain ⟨e1, e2⟩ := At.unique b.nodup ho hs' e
        subst e2
        have hpin : p.root ∈ o.inlined h := h3 _ (root_inlined h p)
        have hsub : ∀ s : Tree, (s.inlined h).Sublist s.ids := by
          intro s
          induction s using Tree.ind with
          | h i ks ih =>
            rw [inlined, ids]
            by_cases e : (h.get i).split = true
            · rw [if_pos e]; exact (List.nil_sublist _).cons_cons _
            · rw [if_neg e]
              refine List.Sublist.cons_cons _ ?_
              clear e
              induction ks with
              | nil => exact List.Sublist.refl _
              | cons k ks ihl => exact (ih k (by simp)).append (ihl fun c hc => ih c (by simp [hc]))
        have hpo : p.root ∈ o.ids := (hsub o).subset hpin
        have hnd := b.nodup.sublist hp.sublist
        rw [ids_eq, List.nodup_cons] at hnd
        refine hnd.1 ?_
        rw [idsL_flatMap, List.mem_flatMap]
        exact ⟨o, List.mem_of_getElem? hk, hpo⟩

theorem url_ends {h : Heap} {s o : Tree} (ext anchor : Str)
    (h1 : Ends (fun n => h.pageOwner n s.root) o.root) (h5 : Ends (fun n => h.pageOwner n o.root) o.root) :
    Ends (fun n => h.sectionURL ext n s.root anchor)
      (let a := if o.root ≠ s.root ∧ anchor = [] then (h.get s.root).primaryTag.name else anchor
       if a = [] then h.fileName ext o.root else h.fileName ext o.root ++ ['#'] ++ a) := by
  have base : ∀ a, Ends (fun n => h.sectionURL ext n o.root a)
      (if a = [] then h.fileName ext o.root else h.fileName ext o.root ++ ['#'] ++ a) := by
    intro a
    refine Ends.succ (h5.congr fun n hn => ?_)
    simp only [Heap.sectionURL, hn]
    by_cases ha : a = [] <;> simp [ha]
  by_cases e : o.root = s.root
  · have := base anchor
    rw [← e]
    simpa using this
  · refine Ends.succ (h1.congr2 (base (if anchor = [] then (h.get s.root).primaryTag.name else anchor)) fun n e1 e2 => ?_)
    simp only [Heap.sectionURL, e1]
    simp [e] at e2 ⊢
    exact e2

/-! ### Tables of contents -/

theorem listed_sublist (h : Heap) (t : Tree) : (t.listed h).Sublist (idsL t.kids) := by
  induction t using Tree.ind with
  | h i ks ih =>
    rw [listed, kids]
    by_cases ho : (h.get i).omitToc = true
    · rw [if_pos ho]; exact List.nil_sublist _
    · rw [if_neg ho]
      clear ho
      induction ks with
      | nil => exact List.Sublist.refl _
      | cons k ks ihl =>
        rw [listed.listedL, idsL, ids_eq k]
        exact ((ih k (by simp)).cons_cons _).append (ihl fun c hc => ih c (by simp [hc]))

theorem mem_listedL {h : Heap} {ks : List Tree} {i : Nat} :
    i ∈ listed.listedL h ks ↔ ∃ k ∈ ks, i = k.root ∨ i ∈ k.listed h := by
  induction ks with
  | nil => simp [listed.listedL]
  | cons k ks ih =>
    simp only [listed.listedL, List.cons_append, List.mem_cons, List.mem_append, ih]
    constructor
    · rintro (hk | hk | ⟨c, hc, hk⟩)
      · exact ⟨k, .inl rfl, .inl hk⟩
      · exact ⟨k, .inl rfl, .inr hk⟩
      · exact ⟨c, .inr hc, hk⟩
    · rintro ⟨c, rfl | hc, hk⟩
      · exact hk.imp id .inl
      · exact .inr (.inr ⟨c, hc, hk⟩)

theorem mem_listed {h : Heap} {s d : Tree} {ks : List Nat} (hn : s.ids.Nodup) (hd : At s ks d) :
    d.root ∈ s.listed h ↔ ks ≠ [] ∧ ∀ a ∈ s.ancestors ks, (h.get a).omitToc = false := by
  induction s using Tree.ind generalizing ks with
  | h i cs ih =>
    rw [ids, List.nodup_cons] at hn
    rcases hd.uncons with ⟨rfl, rfl⟩ | ⟨k, l, c, rfl, hc, hl⟩
    · simp only [ne_eq, not_true_eq_false, false_and, iff_false]
      exact fun hm => hn.1 ((listed_sublist h _).subset hm)
    · simp only [kids] at hc
      have hcm := List.mem_of_getElem? hc
      have hncs : c.ids.Nodup := nodup_kid (t := .node i cs) (by rw [ids, List.nodup_cons]; exact hn) hcm
      have hdc : d.root ∈ c.ids := hl.sublist.subset (root_mem d)
      have e : (Tree.node i cs).ancestors (k :: l) = c.ancestors l ++ [i] := by simp [ancestors, kids, hc, root]
      rw [listed, e]
      by_cases ho : (h.get i).omitToc = true
      · rw [if_pos ho]; simp [ho]
      · rw [if_neg ho, mem_listedL]
        have ho' : (h.get i).omitToc = false := by simpa using ho
        simp only [ne_eq, reduceCtorEq, not_false_eq_true, true_and, List.mem_append, List.mem_singleton]
        have step : (∃ c' ∈ cs, d.root = c'.root ∨ d.root ∈ c'.listed h) ↔ d.root = c.root ∨ d.root ∈ c.listed h := by
          constructor
          · rintro ⟨c', hc', hm⟩
            obtain ⟨k', hk', e'⟩ := List.getElem_of_mem hc'
            have hk'' : cs[k']? = some c' := by rw [List.getElem?_eq_getElem hk', e']
            have hdc' : d.root ∈ c'.ids := by
              rw [ids_eq, List.mem_cons]
              exact hm.imp id fun hm => (listed_sublist h c').subset hm
            by_cases hkk : k = k'
            · subst hkk; rw [hc] at hk''; obtain rfl := Option.some.inj hk''; exact hm
            · exact (kids_disjoint hn.2 hc hk'' hkk hdc hdc').elim
          · exact fun hm => ⟨c, hcm, hm⟩
        rw [step]
        have ihc := ih c hcm hncs hl
        constructor
        · rintro (hm | hm)
          · obtain ⟨e1, -⟩ := At.unique hncs hl .here hm
            subst e1
            intro a ha
            simp only [ancestors, List.not_mem_nil, false_or] at ha
            rw [ha]; exact ho'
          · rintro a (ha | rfl)
            · exact (ihc.mp hm).2 a ha
            · exact ho'
        · intro hall
          by_cases hl0 : l = []
          · subst hl0; exact .inl (by rw [hl.inj .here])
          · exact .inr (ihc.mpr ⟨hl0, fun a ha => hall a (.inl ha)⟩)

theorem hasAnchor_iff (gs : List Tag) : hasAnchor gs = true ↔ ∃ g ∈ gs, g.anchor ≠ [] := by
  simp [hasAnchor]

/-- Whether a section of the list has an anchored tag. -/
def anchored (h : Heap) (l : List Nat) : Bool := l.any fun i => hasAnchor (h.get i).tags

theorem hasAnchorsAny_ends {h : Heap} : ∀ (ks : List Tree),
    (∀ k ∈ ks, Ends (fun n => h.hasAnchors n k.root) (anchored h (k.inlined h))) →
    Ends (fun n => h.hasAnchorsAny n (ks.map Tree.root)) (anchored h (inlined.inlinedL h ks))
  | [], _ => Ends.const fun n => by simp [Heap.hasAnchorsAny, inlined.inlinedL, anchored]
  | k :: ks, hk => by
    refine Ends.succ ((hk k (by simp)).congr2 (hasAnchorsAny_ends ks fun c hc => hk c (by simp [hc])) fun n e1 e2 => ?_)
    simp only [List.map_cons, Heap.hasAnchorsAny, e1, inlined.inlinedL]
    have : anchored h (k.inlined h ++ inlined.inlinedL h ks) = (anchored h (k.inlined h) || anchored h (inlined.inlinedL h ks)) := by
      simp [anchored]
    rw [this]
    cases anchored h (k.inlined h) with
    | true => rfl
    | false => simpa using e2

theorem hasAnchors_ends {h : Heap} {t : Tree} (b : Book h t) (s : Tree) (hs : t.Sub s) :
    Ends (fun n => h.hasAnchors n s.root) (anchored h (s.inlined h)) := by
  induction s using Tree.ind with
  | h i ks ih =>
    refine Ends.succ ((hasAnchorsAny_ends (h := h) ks fun k hk => ih k hk (hs.kid hk)).congr fun n hn => ?_)
    have e := b.children _ hs
    simp only [root, kids] at e
    have e2 : (Tree.node i ks).root = i := rfl
    rw [e2, Heap.hasAnchors, e, hn]
    simp only [inlined, anchored, List.any_cons]
    by_cases h1 : hasAnchor (h.get i).tags = true
    · simp [h1]
    · by_cases h2 : (h.get i).split = true
      · simp [h1, h2]
      · simp [h1, h2]

end Booklit
