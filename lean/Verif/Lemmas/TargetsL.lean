import Verif.Lemmas.PartsL

/-!
The tags of sections before and after collection.
-/

namespace Booklit

mutual
/-- More fuel does not change the result of collection. -/
theorem collect_mono : ∀ (n : Nat) (h : Heap) (i : Nat) (h' : Heap), h.collect n i = .ok h' → ∀ m, n ≤ m → h.collect m i = .ok h'
  | 0, _, _, _, e, _, _ => by cases e
  | n + 1, h, i, h', e, m, hm => by
    obtain ⟨k, rfl⟩ : ∃ k, m = k + 1 := ⟨m - 1, by omega⟩
    rw [collect_succ] at e ⊢
    split at e
    · cases e
    · exact collectAll_mono n _ _ _ e k (by omega)
theorem collectAll_mono : ∀ (n : Nat) (cs : List Nat) (h : Heap) (h' : Heap), h.collectAll n cs = .ok h' → ∀ m, n ≤ m →
    h.collectAll m cs = .ok h'
  | n, [], h, h', e, m, hm => e
  | n, c :: cs, h, h', e, m, hm => by
    rw [collectAll_cons] at e ⊢
    cases hc : h.collect n c with
    | ok h1 =>
      rw [hc] at e
      rw [collect_mono n h c h1 hc m hm]
      exact collectAll_mono n cs h1 h' e m hm
    | err _ => rw [hc] at e; cases e
    | panic => rw [hc] at e; cases e
    | more => rw [hc] at e; cases e
end

/-- No section from `lo` on has an anchored tag, or one with content of its own. -/
def NoAnchors (lo : Nat) (h : Heap) : Prop := ∀ j, lo ≤ j → j < h.length → ∀ g ∈ (h.get j).tags, g.anchor = [] ∧ g.content = .nil

def KeepsPlain (lo : Nat) (_ : Nat) (s s' : St) : Prop :=
  s.heap.length ≤ s'.heap.length ∧ (NoAnchors lo s.heap → NoAnchors lo s'.heap)

theorem NoAnchors.upd {lo : Nat} {h : Heap} (hs : NoAnchors lo h) (i : Nat) (f : Sec → Sec)
    (hf : ∀ x, (∀ g ∈ x.tags, g.anchor = [] ∧ g.content = .nil) → ∀ g ∈ (f x).tags, g.anchor = [] ∧ g.content = .nil) : NoAnchors lo (h.upd i f) := by
  intro j hlo hj
  rw [Heap.length_upd] at hj
  by_cases e : j = i
  · subst e
    rw [Heap.get_upd_eq _ _ hj]
    exact hf _ (hs j hlo hj)
  · rw [Heap.get_upd_ne _ _ e]
    exact hs j hlo hj

theorem NoAnchors.add {lo : Nat} {h : Heap} (hs : NoAnchors lo h) (x : Sec) (hx : x.tags = []) : NoAnchors lo (h ++ [x]) := by
  intro j hlo hj
  by_cases e : j < h.length
  · rw [Heap.get_append_lt _ _ e]; exact hs j hlo e
  · have : j = h.length := by simp at hj; omega
    subst this
    rw [Heap.get_append_eq, hx]
    simp

theorem Upd.noAnchors {W : World} {P : Content → Prop} {h : Heap} {i : Nat} {f : Sec → Sec} (u : Upd W P h i f) (x : Sec)
    (hx : ∀ g ∈ x.tags, g.anchor = [] ∧ g.content = .nil) : ∀ g ∈ (f x).tags, g.anchor = [] ∧ g.content = .nil := by
  cases u with
  | title ht hn t hc l hl =>
    intro g hg
    simp only [List.mem_map] at hg
    obtain ⟨n, _, rfl⟩ := hg
    exact ⟨rfl, rfl⟩
  | _ => exact hx

theorem KeepsPlain.inv (W : World) (lo : Nat) : EvalInv W (fun _ => True) (KeepsPlain lo) where
  refl := fun _ s => ⟨Nat.le_refl _, id⟩
  trans := fun h h' => ⟨Nat.le_trans h.1 h'.1, h'.2 ∘ h.2⟩
  len := fun h => h.1
  upd := fun {i s f} _ u => ⟨by simp [Heap.length_upd], fun hs => hs.upd i f u.noAnchors⟩
  content := ContentInv.true W
  body := fun {i s} c _ _ => ⟨by simp [Heap.length_upd], fun hs => hs.upd i _ fun _ h => h⟩
  failed := fun {i s s'} hi h => by
    have hl := h.1
    simp [St.inline] at hl
    exact ⟨by omega, fun hs => h.2 (hs.add _ rfl)⟩
  inline := fun {i s s'} hi h => by
    have hl := h.1
    simp [St.inline] at hl
    refine ⟨by simp [St.linkInline, Heap.length_upd]; omega, fun hs => ?_⟩
    have := h.2 (hs.add _ rfl)
    simp only [St.linkInline]
    apply NoAnchors.upd
    · apply NoAnchors.upd this
      exact fun _ hx => hx
    · exact fun _ hx => hx
  failedFile := fun {i s s' path} hi h => by
    have hl := h.1
    simp [St.file] at hl
    exact ⟨by omega, fun hs => h.2 (hs.add _ rfl)⟩
  file := fun {i s s' path} hi _ h => by
    have hl := h.1
    simp [St.file] at hl
    refine ⟨by simp [St.link, Heap.length_upd]; omega, fun hs => ?_⟩
    exact (h.2 (hs.add _ rfl)).upd _ _ fun _ hx => hx
  remember := fun _ _ _ _ _ h => h

/-- The tree below a section is determined by the lists of children. -/
theorem Tree.unique {h : Heap} : ∀ {t t' : Tree}, t.root = t'.root →
    (∀ u, t.Sub u → (h.get u.root).children = u.kids.map Tree.root) →
    (∀ u, t'.Sub u → (h.get u.root).children = u.kids.map Tree.root) → t = t' := by
  intro t
  induction t using Tree.ind with
  | h i ks ih =>
    intro t' hr h1 h2
    obtain ⟨i', ks'⟩ := t'
    have hi : i = i' := hr
    subst hi
    have e : ks.map Tree.root = ks'.map Tree.root := by
      have a := h1 _ (Tree.Sub.refl _)
      have b := h2 _ (Tree.Sub.refl _)
      simp only [Tree.root, Tree.kids] at a b
      rw [← a, ← b]
    have : ks = ks' := by
      apply List.ext_getElem
      · simpa using congrArg List.length e
      · intro m hm hm'
        refine ih _ (List.getElem_mem hm) ?_ (fun u hu => h1 u (((Tree.Sub.refl _).kid (List.getElem_mem hm)).trans hu))
          (fun u hu => h2 u (((Tree.Sub.refl _).kid (List.getElem_mem hm')).trans hu))
        have := congrArg (fun l => l[m]?) e
        simpa [hm, hm'] using this
    rw [this]

/-- A book whose sections only got more tags was one before. -/
theorem MoreTags.book {h h' : Heap} (m : MoreTags h h') {t : Tree} (b : Book h' t) : Book h t := by
  obtain ⟨b1, b2, b3, b4⟩ := b
  refine ⟨b1, fun u hu => ?_, fun u hu k hk => ?_, ?_⟩
  · rw [← (m.same _).1]; exact b2 u hu
  · rw [← (m.same _).2.1]; exact b3 u hu k hk
  · rw [← (m.same _).2.1]; exact b4

/-- The tree built by a file, with the new sections only. -/
theorem evalFile_tree {W : World} {n : Nat} {parent : Option Nat} {path : Str} {plugins : List Nat} {s s1 : St} {i : Nat}
    (he : evalFile W n parent path plugins s = (.ok i, s1)) : i = s.heap.length ∧ ∃ t : Tree, t.root = i ∧ t.ids.Nodup ∧
      (∀ u, t.Sub u → (s1.heap.get u.root).children = u.kids.map Tree.root) ∧
      (∀ j ∈ t.ids, s.heap.length ≤ j ∧ j < s1.heap.length) := by
  obtain ⟨rfl, g⟩ := keeps_file_ok (Grow.inv W) he
  obtain ⟨p1, _, ts, c1, f1⟩ := g.2 (by simp [St.file])
  have e0 : Heap.get (s.file parent path plugins).heap s.heap.length =
      { Sec.fresh parent path with plugins := plugins } := Heap.get_append_eq _ _
  rw [e0] at p1 c1
  have hl : s.heap.length < s1.heap.length := g.1.new.1
  have f1' : Forest s1.heap (s.heap.length + 1) s.heap.length ts := by simpa [St.file] using f1
  have hsub : ∀ u, (Tree.node s.heap.length ts).Sub u → u = .node s.heap.length ts ∨ ∃ t ∈ ts, t.Sub u := by
    rintro u ⟨ks, hks⟩
    rcases hks.uncons with ⟨_, rfl⟩ | ⟨k, ls, c, _, hc1, hc2⟩
    · exact .inl rfl
    · exact .inr ⟨c, List.mem_of_getElem? hc1, ls, hc2⟩
  refine ⟨rfl, .node s.heap.length ts, rfl, ?_, ?_, ?_⟩
  · simp only [Tree.ids, List.nodup_cons]
    exact ⟨fun hm => by have := (f1'.range _ hm).1; omega, f1'.nodup⟩
  · intro u hu
    rcases hsub u hu with rfl | ⟨t, ht, hs⟩
    · show (s1.heap.get s.heap.length).children = _
      rw [c1]; simp [Sec.fresh, Tree.kids]
    · exact f1'.children t ht u hs
  · intro j hj
    simp only [Tree.ids, List.mem_cons] at hj
    rcases hj with rfl | hj
    · exact ⟨Nat.le_refl _, hl⟩
    · have := f1'.range j hj; omega

/-- Everything around a successful evaluation of a file. -/
theorem evalFile_noAnchors {W : World} {n : Nat} {parent : Option Nat} {path : Str} {plugins : List Nat} {s : St} :
    NoAnchors s.heap.length (evalFile W n parent path plugins s).2.heap := by
  have h0 : NoAnchors s.heap.length s.heap := fun j h1 h2 => by omega
  have hfile : NoAnchors s.heap.length (s.file parent path plugins).heap := h0.add _ rfl
  rcases keeps_file (KeepsPlain.inv W s.heap.length) n parent path plugins s with ⟨e, h⟩ | h | h | ⟨s', ⟨h1, h2⟩ | ⟨h1, h2, h3⟩⟩
  · rw [h]; exact h0
  · rw [h]; exact h0
  · rw [h]; exact h0
  · rw [h1]; exact h2.2 hfile
  · rw [h2]; exact h3.2 hfile

/-- The tags of a section collected together with its tree. -/
theorem collect_tags {h h' : Heap} {n : Nat} {t : Tree} (hn : t.ids.Nodup)
    (hc : ∀ u, t.Sub u → (h.get u.root).children = u.kids.map Tree.root) (hl : ∀ j ∈ t.ids, j < h.length)
    (hs : ∀ j ∈ t.ids, ∀ c ∈ (h.get j).contents, c.solid = true) (e : h.collect n t.root = .ok h') :
    ∀ j ∈ t.ids, (h'.get j).tags = (h.get j).tags ++ (h.get j).contents.flatMap (Content.anchors false j) := by
  have hT : ∀ j ∈ t.ids, ∃ ts, (h.get j).targets = some ts ∧
      ts.map (Target.tag j) = (h.get j).contents.flatMap (Content.anchors false j) := fun j hj =>
    Sec.targets_parts j _ (hs j hj)
  obtain ⟨N, hN⟩ := collect_tree (fun j => ((h.get j).targets).getD []) t
  have h1 := hN (N + n) (by omega) h hc fun j hj => by obtain ⟨ts, e1, _⟩ := hT j hj; simp [e1]
  have h2 := collect_mono n h t.root h' e (N + n) (by omega)
  rw [h1] at h2
  cases h2
  intro j hj
  rw [Heap.get_addAll_mem _ _ _ hn hj (hl j hj)]
  obtain ⟨ts, e1, e2⟩ := hT j hj
  simp [e1, e2]

end Booklit
