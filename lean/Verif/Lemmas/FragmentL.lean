import Verif.Spec.Fragment
import Verif.Lemmas.FuelL
import Verif.Lemmas.CollectL

/-!
A section loaded apart from the book, compared with the same section as the last one of the book.
-/

namespace Booklit

open Tree

theorem joined_sub {t u s : Tree} (h : (t.joined u).Sub s) : s = t.joined u ∨ (∃ k ∈ t.kids, k.Sub s) ∨ u.Sub s := by
  obtain ⟨ks, h⟩ := h
  rcases h.uncons with ⟨_, rfl⟩ | ⟨k, ls, c, _, hc, hs⟩
  · exact .inl rfl
  · have := List.mem_of_getElem? hc
    rcases List.mem_append.1 (show c ∈ t.kids ++ [u] from this) with hm | hm
    · exact .inr (.inl ⟨c, hm, ls, hs⟩)
    · rw [List.mem_singleton.1 hm] at hs
      exact .inr (.inr ⟨ls, hs⟩)

theorem kids_ids {t : Tree} {j : Nat} : j ∈ t.ids ↔ j = t.root ∨ j ∈ idsL t.kids := by
  cases t
  simp [Tree.ids, Tree.root, Tree.kids]

theorem root_ids (t : Tree) : t.root ∈ t.ids := kids_ids.2 (.inl rfl)

section
variable {h : Heap} {t u : Tree} (A : Apart h t u)
include A

theorem Apart.ne {j : Nat} (hj : j ∈ u.ids) : j ≠ t.root := by
  rintro rfl
  exact A.disj _ hj (root_ids t)

theorem Apart.kid_ne {j : Nat} (hj : j ∈ idsL t.kids) : j ≠ t.root := by
  rintro rfl
  have := A.book.nodup
  cases t
  simp only [Tree.ids, List.nodup_cons] at this
  exact this.1 hj

theorem Apart.get_root : (h.joined t.root u.root).get t.root =
    { h.get t.root with children := (h.get t.root).children ++ [u.root] } := Heap.get_upd_eq _ _ A.len

omit A in
theorem get_other (h : Heap) (p c : Nat) {j : Nat} (hj : j ≠ p) : (h.joined p c).get j = h.get j := Heap.get_upd_ne _ _ hj

/-- Only the children are different. -/
theorem Apart.get (j : Nat) : ∃ cs, (h.joined t.root u.root).get j = { h.get j with children := cs } := by
  by_cases hj : j = t.root
  · subst hj; exact ⟨_, A.get_root⟩
  · exact ⟨(h.get j).children, by rw [get_other h _ _ hj]⟩

theorem Apart.fkids {j : Nat} (hj : j ∈ u.ids) : ∀ c ∈ (h.get j).children, c ∈ u.ids := by
  obtain ⟨s, hs, rfl⟩ := mem_ids.1 hj
  intro c hc
  rw [A.frag.children s hs] at hc
  obtain ⟨k, hk, rfl⟩ := List.mem_map.1 hc
  exact mem_ids.2 ⟨k, hs.kid hk, rfl⟩

theorem Apart.fparent {j : Nat} (hj : j ∈ u.ids) :
    (j = u.root ∧ (h.get j).parent = some t.root) ∨ ∃ p ∈ u.ids, (h.get j).parent = some p ∧ j ∈ (h.get p).children := by
  obtain ⟨s, ⟨ks, hs⟩, rfl⟩ := mem_ids.1 hj
  cases hs with
  | here => exact .inl ⟨rfl, A.frag.top⟩
  | @step ks p k _ hp hk =>
    have hm := List.mem_of_getElem? hk
    refine .inr ⟨p.root, mem_ids.2 ⟨p, ⟨ks, hp⟩, rfl⟩, A.frag.parent p ⟨ks, hp⟩ _ hm, ?_⟩
    rw [A.frag.children p ⟨ks, hp⟩]
    exact List.mem_map.2 ⟨_, hm, rfl⟩

theorem Apart.tkids {j : Nat} (hj : j ∈ idsL t.kids) : ∀ c ∈ (h.get j).children, c ∈ idsL t.kids := by
  obtain ⟨k, hk, hj⟩ := mem_idsL.1 hj
  obtain ⟨s, hs, rfl⟩ := mem_ids.1 hj
  intro c hc
  rw [A.book.children s (((Sub.refl t).kid hk).trans hs)] at hc
  obtain ⟨k', hk', rfl⟩ := List.mem_map.1 hc
  exact mem_idsL.2 ⟨k, hk, mem_ids.2 ⟨k', hs.kid hk', rfl⟩⟩

theorem Apart.rkids : ∀ c ∈ (h.get t.root).children, c ∈ idsL t.kids := by
  intro c hc
  rw [A.book.children t (Sub.refl t)] at hc
  obtain ⟨k, hk, rfl⟩ := List.mem_map.1 hc
  exact mem_idsL.2 ⟨k, hk, root_ids k⟩

theorem Apart.root_not : u.root ∉ (h.get t.root).children := fun hm =>
  A.disj _ (root_ids u) (kids_ids.2 (.inr (A.rkids _ hm)))

/-- The book with the section in it. -/
theorem Apart.joined : Book (h.joined t.root u.root) (t.joined u) := by
  have ktr : ∀ {k}, k ∈ t.kids → ∀ {s}, k.Sub s → s.root ∈ idsL t.kids := fun hk s hs =>
    mem_idsL.2 ⟨_, hk, mem_ids.2 ⟨s, hs, rfl⟩⟩
  have par : ∀ k ∈ t.kids, k.root ≠ t.root := fun k hk => A.kid_ne (ktr hk (Sub.refl k))
  refine ⟨?_, fun s hs => ?_, fun s hs k hk => ?_, ?_⟩
  · have h1 := A.book.nodup
    have h2 := A.frag.nodup
    have h3 := A.disj
    cases t with
    | node i ts =>
      simp only [Tree.joined, Tree.root, Tree.kids, Tree.ids, List.nodup_cons, Tree.idsL_append, Tree.idsL, List.append_nil,
        List.mem_append, not_or, List.nodup_append] at h1 h3 ⊢
      refine ⟨⟨h1.1, fun hm => h3 i hm (by simp)⟩, h1.2, h2, fun a ha b hb e => h3 b hb ?_⟩
      rw [← e]
      exact List.mem_cons.2 (.inr ha)
  · rcases joined_sub hs with rfl | ⟨k, hk, hs⟩ | hs
    · show ((h.joined t.root u.root).get t.root).children = (t.kids ++ [u]).map Tree.root
      rw [A.get_root, A.book.children t (Sub.refl t)]
      simp
    · rw [get_other _ _ _ (A.kid_ne (ktr hk hs))]
      exact A.book.children s (((Sub.refl t).kid hk).trans hs)
    · rw [get_other _ _ _ (A.ne (mem_ids.2 ⟨s, hs, rfl⟩))]
      exact A.frag.children s hs
  · rcases joined_sub hs with rfl | ⟨k', hk', hs⟩ | hs
    · simp only [Tree.joined, Tree.kids] at hk
      rcases List.mem_append.1 hk with hk | hk
      · rw [get_other _ _ _ (par k hk)]
        exact A.book.parent t (Sub.refl t) k hk
      · rw [List.mem_singleton.1 hk, get_other _ _ _ (A.ne (root_ids u))]
        exact A.frag.top
    · rw [get_other _ _ _ (A.kid_ne (ktr hk' (hs.kid hk)))]
      exact A.book.parent s (((Sub.refl t).kid hk').trans hs) k hk
    · rw [get_other _ _ _ (A.ne (mem_ids.2 ⟨k, hs.kid hk, rfl⟩))]
      exact A.frag.parent s hs k hk
  · show ((h.joined t.root u.root).get t.root).parent = none
    rw [A.get_root]
    exact A.book.top

/-! ### What does not depend on children -/

theorem Apart.filePath : ∀ n j, (h.joined t.root u.root).filePath n j = h.filePath n j := by
  intro n
  induction n with
  | zero => intro j; rfl
  | succ n ih =>
    intro j
    obtain ⟨cs, e⟩ := A.get j
    simp only [Heap.filePath, e, ih]

theorem Apart.pageDepth : ∀ n j, (h.joined t.root u.root).pageDepth n j = h.pageDepth n j := by
  intro n
  induction n with
  | zero => intro j; rfl
  | succ n ih =>
    intro j
    obtain ⟨cs, e⟩ := A.get j
    simp only [Heap.pageDepth, e]
    cases (h.get j).parent with
    | none => rfl
    | some p =>
      obtain ⟨cs', e'⟩ := A.get p
      simp only [e', ih]

theorem Apart.depth : ∀ n j, (h.joined t.root u.root).depth n j = h.depth n j := by
  intro n
  induction n with
  | zero => intro j; rfl
  | succ n ih =>
    intro j
    obtain ⟨cs, e⟩ := A.get j
    simp only [Heap.depth, e, ih]

theorem Apart.headerDepth (n j : Nat) : (h.joined t.root u.root).headerDepth n j = h.headerDepth n j := by
  simp only [Heap.headerDepth, A.pageDepth]

theorem Apart.pageOwner : ∀ n j, (h.joined t.root u.root).pageOwner n j = h.pageOwner n j := by
  intro n
  induction n with
  | zero => intro j; rfl
  | succ n ih =>
    intro j
    obtain ⟨cs, e⟩ := A.get j
    simp only [Heap.pageOwner, e]
    cases (h.get j).parent with
    | none => rfl
    | some p =>
      obtain ⟨cs', e'⟩ := A.get p
      simp only [e', ih]

theorem Apart.sectionURL (ext : Str) : ∀ n j a, (h.joined t.root u.root).sectionURL ext n j a = h.sectionURL ext n j a := by
  intro n
  induction n with
  | zero => intro j a; rfl
  | succ n ih =>
    intro j a
    obtain ⟨cs, e⟩ := A.get j
    simp only [Heap.sectionURL, A.pageOwner, e, ih, Heap.fileName]

/-! ### Numbers and tags -/

theorem Apart.number : ∀ n j, j ∈ u.ids → (h.joined t.root u.root).number n j = h.number n j := by
  intro n
  induction n with
  | zero => intro j _; rfl
  | succ n ih =>
    intro j hj
    rw [Heap.number, Heap.number, get_other _ _ _ (A.ne hj)]
    rcases A.fparent hj with ⟨rfl, hp⟩ | ⟨p, hp, e, _⟩
    · rw [hp]
      dsimp only
      have hr : (h.joined t.root u.root).number n t.root = h.number n t.root := by
        cases n with
        | zero => rfl
        | succ n => rw [Heap.number, Heap.number, A.get_root]; simp only [A.book.top]
      have : ∀ cs : List Nat, u.root ∉ cs → indexIn u.root (cs ++ [u.root]) = indexIn u.root cs := by
        intro cs
        induction cs with
        | nil => intro _; simp [indexIn]
        | cons c cs ih =>
          intro hm
          simp only [List.mem_cons, not_or] at hm
          rw [List.cons_append, indexIn, indexIn, if_neg (Ne.symm hm.1), if_neg (Ne.symm hm.1), ih hm.2]
      rw [hr, A.get_root]
      simp only [this _ A.root_not]
    · rw [e]
      dsimp only
      rw [ih p hp, get_other _ _ _ (A.ne hp)]

omit A in
theorem down_same {h J : Heap} {Q : Nat → Prop} (hg : ∀ j, Q j → J.get j = h.get j) (hk : ∀ j, Q j → ∀ c ∈ (h.get j).children, Q c)
    (m : Str → Bool) : ∀ n, (∀ j, Q j → J.tagsDown m n j = h.tagsDown m n j) ∧
    ∀ e cs, (∀ c ∈ cs, Q c) → J.tagsDownAll m n e cs = h.tagsDownAll m n e cs := by
  intro n
  induction n with
  | zero => exact ⟨fun _ _ => rfl, fun e cs _ => by cases cs <;> rfl⟩
  | succ n ih =>
    refine ⟨fun j hj => ?_, fun e cs hcs => ?_⟩
    · rw [Heap.tagsDown, Heap.tagsDown, hg j hj, ih.2 _ _ (hk j hj)]
    · cases cs with
      | nil => rfl
      | cons c cs =>
        rw [Heap.tagsDownAll, Heap.tagsDownAll, ih.1 c (hcs c (by simp)), ih.2 e cs fun d hd => hcs d (by simp [hd])]

omit A in
theorem down_last {h J : Heap} {Q : Nat → Prop} (hg : ∀ j, Q j → J.get j = h.get j) (hk : ∀ j, Q j → ∀ c ∈ (h.get j).children, Q c)
    (m : Str → Bool) (x : Nat) : ∀ n cs v, (∀ c ∈ cs, Q c) → J.tagsDownAll m n (some x) (cs ++ [x]) = some v →
    h.tagsDownAll m n (some x) cs = some v := by
  intro n
  induction n with
  | zero => intro cs v _ e; cases cs <;> simp [Heap.tagsDownAll] at e
  | succ n ih =>
    intro cs v hcs e
    cases cs with
    | nil =>
      rw [List.nil_append, Heap.tagsDownAll, if_pos rfl] at e
      rw [Heap.tagsDownAll] at e ⊢
      exact e
    | cons c cs =>
      rw [List.cons_append, Heap.tagsDownAll] at e
      rw [Heap.tagsDownAll]
      have hcs' : ∀ d ∈ cs, Q d := fun d hd => hcs d (by simp [hd])
      split at e
      · next hx => rw [if_pos hx]; exact ih cs v hcs' e
      · next hx =>
        rw [if_neg hx]
        rw [(down_same hg hk m n).1 c (hcs c (by simp))] at e
        cases h1 : h.tagsDown m n c with
        | none => rw [h1] at e; simp at e
        | some a =>
          rw [h1] at e
          cases h2 : J.tagsDownAll m n (some x) (cs ++ [x]) with
          | none => rw [h2] at e; simp at e
          | some b =>
            rw [h2] at e
            rw [ih cs b hcs' h2]
            exact e

theorem Apart.tagsUp (m : Str → Bool) : ∀ n e j v, j ∈ u.ids → (h.joined t.root u.root).tagsUp m n e j = some v →
    h.tagsUp m n e j = some v := by
  intro n
  induction n with
  | zero => intro e j v _ hv; cases hv
  | succ n ih =>
    intro e j v hj hv
    have same := down_same (h := h) (J := h.joined t.root u.root) (Q := fun j => j ∈ u.ids)
      (fun j hj => get_other _ _ _ (A.ne hj)) (fun j hj => A.fkids hj) m n
    rw [Heap.tagsUp, get_other _ _ _ (A.ne hj), same.2 _ _ (A.fkids hj)] at hv
    rw [Heap.tagsUp]
    cases h1 : h.tagsDownAll m n e (h.get j).children with
    | none => rw [h1] at hv; simp at hv
    | some below =>
      rw [h1] at hv
      rcases A.fparent hj with ⟨rfl, hp⟩ | ⟨p, hp, hpp, _⟩
      · rw [hp] at hv ⊢
        simp only [Option.bind_eq_bind, Option.bind_some] at hv ⊢
        cases h2 : (h.joined t.root u.root).tagsUp m n (some u.root) t.root with
        | none => rw [h2] at hv; simp at hv
        | some above =>
          rw [h2] at hv
          have : h.tagsUp m n (some u.root) t.root = some above := by
            cases n with
            | zero => cases h2
            | succ n =>
              rw [Heap.tagsUp, A.get_root] at h2
              rw [Heap.tagsUp]
              simp only [A.book.top] at h2 ⊢
              cases h3 : (h.joined t.root u.root).tagsDownAll m n (some u.root) ((h.get t.root).children ++ [u.root]) with
              | none => rw [h3] at h2; simp at h2
              | some b =>
                rw [h3] at h2
                rw [down_last (h := h) (J := h.joined t.root u.root) (Q := fun j => j ∈ idsL t.kids)
                  (fun j hj => get_other _ _ _ (A.kid_ne hj)) (fun j hj => A.tkids hj) m u.root n _ b A.rkids h3]
                exact h2
          rw [this]
          exact hv
      · rw [hpp] at hv ⊢
        simp only [Option.bind_eq_bind, Option.bind_some] at hv ⊢
        cases h2 : (h.joined t.root u.root).tagsUp m n (some j) p with
        | none => rw [h2] at hv; simp at hv
        | some above =>
          rw [h2] at hv
          rw [ih _ p above hp h2]
          exact hv

/-- The pages of the section. -/
theorem Apart.written : ∀ n, (∀ j, j ∈ u.ids → (h.joined t.root u.root).written n j = h.written n j) ∧
    ∀ cs, (∀ c ∈ cs, c ∈ u.ids) → (h.joined t.root u.root).writtenAll n cs = h.writtenAll n cs := by
  intro n
  induction n with
  | zero => exact ⟨fun _ _ => rfl, fun cs _ => by cases cs <;> rfl⟩
  | succ n ih =>
    refine ⟨fun j hj => ?_, fun cs hcs => ?_⟩
    · have hp : (h.joined t.root u.root).isPage j = h.isPage j := by
        rw [Heap.isPage, Heap.isPage, get_other _ _ _ (A.ne hj)]
        cases (h.get j).parent with
        | none => rfl
        | some p => obtain ⟨cs, e⟩ := A.get p; simp only [e]
      rw [Heap.written, Heap.written, get_other _ _ _ (A.ne hj), ih.2 _ (A.fkids hj), hp]
    · cases cs with
      | nil => rfl
      | cons c cs => rw [Heap.writtenAll, Heap.writtenAll, ih.1 c (hcs c (by simp)), ih.2 cs fun d hd => hcs d (by simp [hd])]

theorem Apart.resolve {n j : Nat} (hj : j ∈ u.ids) {name : Str} {o : Bool} {r : Resolved}
    (e : (h.joined t.root u.root).resolve n j name o = some r) : h.resolve n j name o = some r := by
  rw [Heap.resolve] at e ⊢
  cases hf : (h.joined t.root u.root).findTag n j name with
  | none => rw [hf] at e; cases e
  | some gs =>
    have : h.findTag n j name = some gs := A.tagsUp _ _ _ _ _ hj hf
    rw [this, ← hf]
    exact e

theorem Apart.refTag {n j : Nat} (hj : j ∈ u.ids) {b : Bool} {name : Str} {o : Bool} {l : Location} {r : Resolved}
    (e : (h.joined t.root u.root).refTag n b j name o l = some r) : h.refTag n b j name o l = some r := by
  rw [Heap.refTag] at e ⊢
  cases hf : (h.joined t.root u.root).resolve n j name o with
  | none => rw [hf] at e; cases e
  | some r' =>
    rw [A.resolve hj hf, ← hf]
    exact e

/-! ### Pages -/

omit A in
theorem belongs_strip (u : Tree) (c c' : Content) (_ : c.isAux = false) (e : stripAux c = some c')
    (hc : c.belongs u = true) : c'.belongs u = true := by
  cases c <;> simp_all [stripAux, Option.bind_eq_some_iff, Content.isAux]
  all_goals first | (subst e; first | rfl | exact hc) | skip
  all_goals try (obtain ⟨x, -, rfl⟩ := e; first | rfl | exact hc)
  all_goals (obtain ⟨x, -, y, -, rfl⟩ := e; first | rfl | exact hc)

omit A in
theorem html_in {I J : Inner} {p : Content → Bool} (hr : ∀ s t c o l, (Content.ref s t c o l).all p = true → (I.ref s t c o l).Le (J.ref s t c o l))
    (hs : ∀ i, p (.sect i) = true → (I.sect i).Le (J.sect i)) (ht : ∀ i, p (.toc i) = true → (I.toc i).Le (J.toc i))
    (hl : ∀ b i, p (.lazy b i) = true → (I.force i).Le (J.force i)) (hw : ∀ c, c.all p = true → (I.raw c).Le (J.raw c))
    (c : Content) : c.all p = true → (c.html I).Le (c.html J) := by
  induction c using Content.ind with
  | nil | str | target | image => exact fun _ => .rfl
  | seq cs ih | para cs ih | pre cs ih | list cs o ih =>
    intro hc
    rw [Content.all, Bool.and_eq_true] at hc
    exact (htmlL_le fun c h => ih c h (allL_iff.1 hc.2 c h)).map
  | ref s t c o l _ => exact hr s t c o l
  | sect i => exact hs i
  | toc i => exact ht i
  | styled st b c ps ih _ =>
    intro hc
    simp only [Content.all, Bool.and_eq_true] at hc
    have ih := ih hc.1.2
    rw [Content.html, Content.html]
    split
    · cases (if b = true then some false else isFlow c) with
      | none => exact .rfl
      | some v => cases v <;> exact ih.map
    · split
      · exact (hw c hc.1.2).recover
      · cases styleTags st with
        | none => exact .rfl
        | some p => exact ih.map
  | link c u ih => intro hc; rw [Content.all, Bool.and_eq_true] at hc; exact (ih hc.2).map
  | table rs ih =>
    intro hc
    rw [Content.all, Bool.and_eq_true] at hc
    exact (htmlR_le fun r h c h' => ih r h c h' (allR_iff.1 hc.2 r h c h')).map
  | defs ds ih =>
    intro hc
    rw [Content.all, Bool.and_eq_true] at hc
    exact (htmlD_le fun d h => ⟨(ih d h).1 (allD_iff.1 hc.2 d h).1, (ih d h).2 (allD_iff.1 hc.2 d h).2⟩).map
  | lazy b i => exact hl b i
  | aux c ih => intro hc; rw [Content.all, Bool.and_eq_true] at hc; exact ih hc.2

omit A in
theorem text_in {r r' : Nat → Str → Bool → Location → Res Str} {q q' : Nat → Res Str} {p : Content → Bool}
    (hr : ∀ s t c o l, (Content.ref s t c o l).all p = true → (r s t o l).Le (r' s t o l))
    (hq : ∀ i, p (.sect i) = true → (q i).Le (q' i)) (c : Content) : c.all p = true → (c.text r q).Le (c.text r' q') := by
  induction c using Content.ind with
  | nil | str | target | image | toc | lazy => exact fun _ => .rfl
  | seq cs ih | para cs ih | pre cs ih | list cs o ih =>
    intro hc
    rw [Content.all, Bool.and_eq_true] at hc
    exact (textL_le fun c h => ih c h (allL_iff.1 hc.2 c h)).map
  | ref s t c o l ih =>
    intro hc
    rw [Content.text, Content.text]
    split
    · exact hr s t c o l hc
    · rw [Content.all, Bool.and_eq_true] at hc
      exact ih hc.2
  | sect i => exact hq i
  | styled st b c ps ih _ => intro hc; simp only [Content.all, Bool.and_eq_true] at hc; exact ih hc.1.2
  | link c u ih => intro hc; rw [Content.all, Bool.and_eq_true] at hc; exact ih hc.2
  | table rs ih =>
    intro hc
    rw [Content.all, Bool.and_eq_true] at hc
    exact (textR_le fun r h c h' => ih r h c h' (allR_iff.1 hc.2 r h c h')).map
  | defs ds ih =>
    intro hc
    rw [Content.all, Bool.and_eq_true] at hc
    exact (textD_le fun d h => ⟨(ih d h).1 (allD_iff.1 hc.2 d h).1, (ih d h).2 (allD_iff.1 hc.2 d h).2⟩).map
  | aux c ih => intro hc; rw [Content.all, Bool.and_eq_true] at hc; exact ih hc.2

omit A in
/-- What the pages of the section show belongs to it. -/
structure Belongs (h : Heap) (t u : Tree) : Prop where
  title : ∀ i ∈ u.ids, (h.get i).title.all (Content.belongs u) = true
  body : ∀ i ∈ u.ids, (h.get i).body.all (Content.belongs u) = true
  tags : ∀ i, i ∈ u.ids ∨ i ∈ t.ids → ∀ g ∈ (h.get i).tags, g.title.all (Content.belongs u) = true

variable (B : Belongs h t u)
include B

theorem Apart.tag_title {n s : Nat} {b : Bool} {name : Str} {o : Bool} {l : Location} {g : Tag} (hs : s ∈ u.ids)
    (e : h.refTag n b s name o l = some (.tag g)) : g.title.all (Content.belongs u) = true := by
  have := refTag_mem (h := h) (T := fun i => i ∈ u.ids ∨ i ∈ t.ids) ?_ ?_ (.inl hs) e
  · rcases this with ⟨j, hj, hg⟩ | ⟨_, rfl⟩
    · exact B.tags j hj g hg
    · rfl
  · rintro i (hi | hi) c hc
    · exact .inl (A.fkids hi c hc)
    · rcases kids_ids.1 hi with rfl | hi
      · exact .inr (kids_ids.2 (.inr (A.rkids c hc)))
      · exact .inr (kids_ids.2 (.inr (A.tkids hi c hc)))
  · rintro i p (hi | hi) hp
    · rcases A.fparent hi with ⟨_, h1⟩ | ⟨q, hq, h1, _⟩
      · rw [h1] at hp; cases hp; exact .inr (root_ids t)
      · rw [h1] at hp; cases hp; exact .inl hq
    · obtain ⟨s, ⟨ks, hs⟩, rfl⟩ := mem_ids.1 hi
      cases hs with
      | here => rw [A.book.top] at hp; cases hp
      | @step ks q k _ hq hk =>
        rw [A.book.parent q ⟨ks, hq⟩ _ (List.mem_of_getElem? hk)] at hp
        cases hp
        exact .inr (mem_ids.2 ⟨q, ⟨ks, hq⟩, rfl⟩)

theorem Apart.text (b : Bool) : ∀ n c, c.all (Content.belongs u) = true →
    ((h.joined t.root u.root).text b n c).Le (h.text b n c) := by
  intro n
  induction n with
  | zero =>
    intro c hc
    rw [Heap.text, Heap.text]
    exact .rfl
  | succ n ih =>
    intro c hc
    rw [Heap.text, Heap.text]
    refine text_in (p := Content.belongs u) (fun s t' c o l hc => ?_) (fun i hi => ?_) c hc
    · have hs : s ∈ u.ids := by
        rw [Content.all, Bool.and_eq_true] at hc
        simpa [Content.belongs] using hc.1
      cases hr : (h.joined t.root u.root).refTag n b s t' o l with
      | none => exact .inl rfl
      | some r =>
        have hr' := A.refTag hs hr
        rw [hr']
        cases r with
        | tag g => exact ih _ (A.tag_title B hs hr')
        | _ => exact .rfl
    · have hi : i ∈ u.ids := by simpa [Content.belongs] using hi
      rw [get_other _ _ _ (A.ne hi)]
      exact (ih _ (B.title i hi)).map

theorem Apart.refHtml {S : Site} {f g : Content → Res Str} {n : Nat} (F : ∀ c, c.all (Content.belongs u) = true → (f c).Le (g c))
    (s t' c o l) (hc : (Content.ref s t' c o l).all (Content.belongs u) = true) :
    ((h.joined t.root u.root).refHtml S n f s t' c o l).Le (h.refHtml S n g s t' c o l) := by
  rw [Content.all, Bool.and_eq_true] at hc
  have hs : s ∈ u.ids := by simpa [Content.belongs] using hc.1
  have st := strip_all (p := Content.belongs u) (belongs_strip u)
  rw [Heap.refHtml, Heap.refHtml]
  cases hr : (h.joined t.root u.root).refTag n S.brokenOk s t' o l with
  | none => exact .inl rfl
  | some r =>
    have hr' := A.refTag hs hr
    rw [hr']
    cases r with
    | tag x =>
      dsimp only
      cases x.sec with
      | none => exact .rfl
      | some i =>
        dsimp only
        rw [A.sectionURL]
        refine Res.Le.bind .rfl fun v _ => ?_
        cases hd : stripAux (if c.isNil = true then x.title else c) with
        | none => exact .rfl
        | some d =>
          refine (F d (st _ d hd ?_)).map
          split
          · exact A.tag_title B hs hr'
          · exact hc.2
    | nothing =>
      dsimp only
      cases hd : stripAux c with
      | none => exact .rfl
      | some d => exact F d (st _ d hd hc.2)
    | unknown =>
      dsimp only
      rw [Heap.unknownTag, Heap.unknownTag, A.filePath]
      exact Res.Le.bind .rfl fun p _ => Res.Le.bind (.ofFuel fun a e => A.tagsUp _ _ _ _ _ hs e) fun gs _ => .rfl
    | ambiguous ls =>
      dsimp only
      rw [Heap.ambiguousTag, Heap.ambiguousTag]
      simp only [A.filePath]
      exact .rfl

theorem Apart.sectHtml {f g : Content → Res Str} {n : Nat} (F : ∀ c, c.all (Content.belongs u) = true → (f c).Le (g c))
    {i : Nat} (hi : i ∈ u.ids) : ((h.joined t.root u.root).sectHtml n f i).Le (h.sectHtml n g i) := by
  rw [Heap.sectHtml, Heap.sectHtml, get_other _ _ _ (A.ne hi), A.headerDepth, A.number n i hi]
  split
  · exact .rfl
  · refine Res.Le.bind .rfl fun d _ => Res.Le.bind .rfl fun num _ => (F _ (B.title i hi)).bind fun title _ =>
      (F _ (B.body i hi)).bind fun body _ => Res.Le.map ?_
    split
    · exact .rfl
    · refine (Res.Le.resMap fun c hc => F _ ?_).map
      simpa [Content.all, Content.belongs] using A.fkids hi c hc

theorem Apart.tocHtml {f g : Content → Res Str} (F : ∀ c, c.all (Content.belongs u) = true → (f c).Le (g c)) : ∀ n i, i ∈ u.ids →
    ((h.joined t.root u.root).tocHtml f n i).Le (h.tocHtml g n i) := by
  intro n
  induction n with
  | zero => intro i _; exact .inl rfl
  | succ n ih =>
    intro i hi
    rw [Heap.tocHtml, Heap.tocHtml, get_other _ _ _ (A.ne hi)]
    split
    · exact .rfl
    · refine (Res.Le.resMap fun c hc => ?_).map
      have hc := A.fkids hi c hc
      rw [Heap.tocEntry, Heap.tocEntry, get_other _ _ _ (A.ne hc)]
      cases (h.get c).primaryTag.sec with
      | none => exact .rfl
      | some j =>
        dsimp only
        rw [A.sectionURL, A.number n c hc]
        refine Res.Le.bind .rfl fun v _ => Res.Le.bind .rfl fun k _ => ?_
        cases hd : stripAux (h.get c).title with
        | none => exact .rfl
        | some d =>
          exact (F d (strip_all (belongs_strip u) _ d hd (B.title c hc))).bind fun title _ => (ih c hc).map

theorem Apart.html (S : Site) : ∀ n c, c.all (Content.belongs u) = true →
    ((h.joined t.root u.root).html S n c).Le (h.html S n c) := by
  intro n
  induction n with
  | zero =>
    intro c hc
    rw [Heap.html, Heap.html]
    exact .rfl
  | succ n ih =>
    intro c hc
    rw [Heap.html, Heap.html]
    refine html_in (p := Content.belongs u) (fun s t' c o l hc => A.refHtml B ih s t' c o l hc) (fun i hi => ?_) (fun i hi => ?_)
      (fun b i hi => by cases hi) (fun c hc => A.text B _ n c hc) c hc
    · exact A.sectHtml B ih (by simpa [Content.belongs] using hi)
    · exact A.tocHtml B ih n i (by simpa [Content.belongs] using hi)

/-- The page is that of the section as the last one of the book. -/
theorem Apart.page (S : Site) (n : Nat) {i : Nat} (hi : i ∈ u.ids) :
    ((h.joined t.root u.root).page S n i).Le (h.page S n i) := by
  rw [Heap.page, Heap.page, get_other _ _ _ (A.ne hi)]
  exact (A.text B _ n _ (B.title i hi)).recover.bind fun title _ =>
    (A.html B S n (.sect i) (by simpa [Content.all, Content.belongs] using hi)).map

end

/-! ### Collection -/

mutual
/-- Collection only adds tags to the sections it gets to. -/
theorem collect_out {Q : Nat → Prop} : ∀ (n i : Nat) (h h' : Heap), (∀ j, Q j → ∀ c ∈ (h.get j).children, Q c) → Q i →
    h.collect n i = .ok h' → ∀ j, ¬ Q j → h'.get j = h.get j
  | 0, i, h, h', _, _, e, _, _ => by cases e
  | n + 1, i, h, h', hk, hi, e, j, hj => by
    rw [collect_succ] at e
    cases ht : (h.get i).targets with
    | none => rw [ht] at e; cases e
    | some ts =>
      rw [ht] at e
      dsimp only at e
      have hne : j ≠ i := by rintro rfl; exact hj hi
      rw [collectAll_out n _ (h.addTargets i ts) h' (fun k hk' c hc => hk k hk' c
        (by rwa [((MoreTags.addTargets h i ts).same k).1] at hc)) (fun c hc => hk i hi c hc) e j hj]
      exact Heap.get_addTargets_ne hne ts h
theorem collectAll_out {Q : Nat → Prop} : ∀ (n : Nat) (cs : List Nat) (h h' : Heap), (∀ j, Q j → ∀ c ∈ (h.get j).children, Q c) →
    (∀ c ∈ cs, Q c) → h.collectAll n cs = .ok h' → ∀ j, ¬ Q j → h'.get j = h.get j
  | n, [], h, h', _, _, e, _, _ => by cases e; rfl
  | n, c :: cs, h, h', hk, hcs, e, j, hj => by
    rw [collectAll_cons] at e
    cases h1 : h.collect n c with
    | ok h2 =>
      rw [h1] at e
      simp only [Res.bind] at e
      have m := collect_more n _ _ _ h1
      rw [collectAll_out n cs h2 h' (fun k hk' c' hc => hk k hk' c' (by rwa [(m.same k).1] at hc)) (fun d hd => hcs d (by simp [hd])) e j hj,
        collect_out n c h h2 hk (hcs c (by simp)) h1 j hj]
    | _ => rw [h1] at e; cases e
end

end Booklit
