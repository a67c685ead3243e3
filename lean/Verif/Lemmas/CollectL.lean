import Verif.Lemmas.Frame

/-!
Lemmas on collection.
-/

namespace Booklit

/-- The tag made of a target found in section `i`. -/
def Target.tag (i : Nat) (t : Target) : Tag := ⟨t.name, t.title, some i, t.name, t.content, t.loc⟩

theorem Heap.ext_get {h h' : Heap} (hl : h.length = h'.length) (he : ∀ j, h.get j = h'.get j) : h = h' := by
  apply List.ext_getElem hl
  intro j h1 h2
  have := he j
  simpa [Heap.get, List.getD_eq_getElem?_getD, h1, h2] using this

theorem Heap.length_addTargets (i : Nat) : ∀ (ts : List Target) (h : Heap), (h.addTargets i ts).length = h.length
  | [], h => rfl
  | t :: ts, h => by rw [Heap.addTargets, Heap.length_addTargets i ts]; simp [Heap.setTagAnchored, Heap.length_upd]

theorem Heap.get_addTargets_ne {i j : Nat} (hj : j ≠ i) : ∀ (ts : List Target) (h : Heap),
    (h.addTargets i ts).get j = h.get j
  | [], h => rfl
  | t :: ts, h => by
    rw [Heap.addTargets, Heap.get_addTargets_ne hj ts, Heap.setTagAnchored, Heap.get_upd_ne _ _ hj]

theorem Heap.get_addTargets_eq {i : Nat} : ∀ (ts : List Target) (h : Heap), i < h.length →
    (h.addTargets i ts).get i = { h.get i with tags := (h.get i).tags ++ ts.map (Target.tag i) }
  | [], h, _ => by simp [Heap.addTargets]
  | t :: ts, h, hi => by
    rw [Heap.addTargets, Heap.get_addTargets_eq ts _ (by simpa [Heap.setTagAnchored, Heap.length_upd] using hi),
      Heap.setTagAnchored, Heap.get_upd_eq _ _ hi]
    simp [Target.tag]

theorem Heap.upd_out (h : Heap) {i : Nat} (f : Sec → Sec) (hi : h.length ≤ i) : h.upd i f = h := by
  rw [Heap.upd]; exact List.modify_eq_self hi

theorem Heap.addTargets_out {i : Nat} : ∀ (ts : List Target) (h : Heap), h.length ≤ i → h.addTargets i ts = h
  | [], h, _ => rfl
  | t :: ts, h, hi => by rw [Heap.addTargets, Heap.setTagAnchored, Heap.upd_out _ _ hi]; exact Heap.addTargets_out ts h hi

/-- Only lists of tags have grown. -/
def MoreTags (h h' : Heap) : Prop :=
  h'.length = h.length ∧ ∀ j, ∃ gs, h'.get j = { h.get j with tags := (h.get j).tags ++ gs }

theorem MoreTags.refl (h : Heap) : MoreTags h h := ⟨rfl, fun j => ⟨[], by simp⟩⟩

theorem MoreTags.trans {h h' h'' : Heap} (a : MoreTags h h') (b : MoreTags h' h'') : MoreTags h h'' := by
  refine ⟨b.1.trans a.1, fun j => ?_⟩
  obtain ⟨g1, e1⟩ := a.2 j
  obtain ⟨g2, e2⟩ := b.2 j
  exact ⟨g1 ++ g2, by rw [e2, e1]; simp⟩

theorem MoreTags.addTargets (h : Heap) (i : Nat) (ts : List Target) : MoreTags h (h.addTargets i ts) := by
  refine ⟨Heap.length_addTargets i ts h, fun j => ?_⟩
  by_cases hj : j = i
  · subst hj
    by_cases hl : j < h.length
    · exact ⟨_, Heap.get_addTargets_eq ts h hl⟩
    · rw [Heap.addTargets_out ts h (by omega)]; exact ⟨[], by simp⟩
  · exact ⟨[], by rw [Heap.get_addTargets_ne hj]; simp⟩

/-- The loop over the children. -/
def Heap.collectAll (h : Heap) (n : Nat) (cs : List Nat) : Res Heap := collectLoop (collectSection n) h cs

theorem collectAll_cons (h : Heap) (n c : Nat) (cs : List Nat) :
    h.collectAll n (c :: cs) = (h.collect n c).bind fun h' => h'.collectAll n cs := rfl

theorem collect_succ (h : Heap) (n i : Nat) : h.collect (n + 1) i =
    match (h.get i).targets with
    | none => .panic
    | some ts => (h.addTargets i ts).collectAll n (h.get i).children := rfl

mutual
theorem collect_more : ∀ (n : Nat) (h : Heap) (i : Nat) (h' : Heap), h.collect n i = .ok h' → MoreTags h h'
  | 0, h, i, h', e => by cases e
  | n + 1, h, i, h', e => by
    rw [collect_succ] at e
    split at e
    · cases e
    · exact (MoreTags.addTargets h i _).trans (collectAll_more n _ _ h' e)
theorem collectAll_more : ∀ (n : Nat) (cs : List Nat) (h : Heap) (h' : Heap), h.collectAll n cs = .ok h' → MoreTags h h'
  | n, [], h, h', e => by cases e; exact .refl h
  | n, c :: cs, h, h', e => by
    rw [collectAll_cons] at e
    cases hc : h.collect n c with
    | ok h1 =>
      rw [hc] at e
      exact (collect_more n h c h1 hc).trans (collectAll_more n cs h1 h' e)
    | err _ => rw [hc] at e; cases e
    | panic => rw [hc] at e; cases e
    | more => rw [hc] at e; cases e
end

/-- Targets are collected for each of the given sections, in turn. -/
def Heap.addAll (T : Nat → List Target) (h : Heap) : List Nat → Heap
  | [] => h
  | j :: js => (h.addTargets j (T j)).addAll T js

theorem Heap.addAll_append (T : Nat → List Target) : ∀ (xs ys : List Nat) (h : Heap),
    h.addAll T (xs ++ ys) = (h.addAll T xs).addAll T ys
  | [], ys, h => rfl
  | x :: xs, ys, h => by simp only [List.cons_append, Heap.addAll]; exact Heap.addAll_append T xs ys _

theorem MoreTags.addAll (T : Nat → List Target) : ∀ (xs : List Nat) (h : Heap), MoreTags h (h.addAll T xs)
  | [], h => .refl h
  | x :: xs, h => (MoreTags.addTargets h x (T x)).trans (MoreTags.addAll T xs _)

theorem Heap.get_addAll_not (T : Nat → List Target) {j : Nat} : ∀ (xs : List Nat) (h : Heap), j ∉ xs →
    (h.addAll T xs).get j = h.get j
  | [], h, _ => rfl
  | x :: xs, h, hj => by
    simp only [List.mem_cons, not_or] at hj
    rw [Heap.addAll, Heap.get_addAll_not T xs _ hj.2, Heap.get_addTargets_ne hj.1]

theorem Heap.get_addAll_mem (T : Nat → List Target) {j : Nat} : ∀ (xs : List Nat) (h : Heap), xs.Nodup → j ∈ xs →
    j < h.length → (h.addAll T xs).get j = { h.get j with tags := (h.get j).tags ++ (T j).map (Target.tag j) }
  | [], h, _, hj, _ => by cases hj
  | x :: xs, h, hn, hj, hl => by
    simp only [List.nodup_cons] at hn
    rw [Heap.addAll]
    rcases List.mem_cons.1 hj with rfl | hj'
    · rw [Heap.get_addAll_not T xs _ hn.1, Heap.get_addTargets_eq _ _ hl]
    · rw [Heap.get_addAll_mem T xs _ hn.2 hj' (by rw [Heap.length_addTargets]; exact hl),
        Heap.get_addTargets_ne (by rintro rfl; exact hn.1 hj')]

/-- More tags change nothing else. -/
theorem MoreTags.same {h h' : Heap} (m : MoreTags h h') (j : Nat) :
    (h'.get j).children = (h.get j).children ∧ (h'.get j).parent = (h.get j).parent ∧
      (h'.get j).targets = (h.get j).targets := by
  obtain ⟨gs, e⟩ := m.2 j
  rw [e]
  exact ⟨rfl, rfl, rfl⟩

mutual
/-- Collection visits every section of a tree once, in document order. -/
theorem collect_tree (T : Nat → List Target) : ∀ (t : Tree), ∃ N, ∀ n, N ≤ n → ∀ (h : Heap),
    (∀ s, t.Sub s → (h.get s.root).children = s.kids.map Tree.root) →
    (∀ j ∈ t.ids, (h.get j).targets = some (T j)) →
    h.collect n t.root = .ok (h.addAll T t.ids)
  | .node i ks => by
    obtain ⟨N, hN⟩ := collectAll_tree T ks
    refine ⟨N + 1, fun n hn h hc ht => ?_⟩
    obtain ⟨m, rfl⟩ : ∃ m, n = m + 1 := ⟨n - 1, by omega⟩
    have h1 : (h.get i).targets = some (T i) := ht i (by simp [Tree.ids])
    have h2 : (h.get i).children = ks.map Tree.root := hc _ (Tree.Sub.refl _)
    simp only [Tree.root]
    rw [collect_succ, h1]
    dsimp only
    rw [h2, hN m (by omega)]
    · simp [Tree.ids, Heap.addAll]
    · intro k hk s hs
      rw [((MoreTags.addTargets h i (T i)).same s.root).1]
      exact hc s (((Tree.Sub.refl (.node i ks)).kid hk).trans hs)
    · intro k hk j hj
      rw [((MoreTags.addTargets h i (T i)).same j).2.2]
      exact ht j (by rw [Tree.ids, List.mem_cons, Tree.mem_idsL]; exact .inr ⟨k, hk, hj⟩)
theorem collectAll_tree (T : Nat → List Target) : ∀ (ks : List Tree), ∃ N, ∀ n, N ≤ n → ∀ (h : Heap),
    (∀ k ∈ ks, ∀ s, k.Sub s → (h.get s.root).children = s.kids.map Tree.root) →
    (∀ k ∈ ks, ∀ j ∈ k.ids, (h.get j).targets = some (T j)) →
    h.collectAll n (ks.map Tree.root) = .ok (h.addAll T (Tree.idsL ks))
  | [] => ⟨0, fun n _ h _ _ => by rfl⟩
  | k :: ks => by
    obtain ⟨N1, h1⟩ := collect_tree T k
    obtain ⟨N2, h2⟩ := collectAll_tree T ks
    refine ⟨N1 + N2, fun n hn h hc ht => ?_⟩
    simp only [List.map_cons]
    rw [collectAll_cons, h1 n (by omega) h (fun s hs => hc k (by simp) s hs) (fun j hj => ht k (by simp) j hj)]
    simp only [Res.bind]
    rw [h2 n (by omega), Tree.idsL, Heap.addAll_append]
    · intro k' hk s hs
      rw [((MoreTags.addAll T k.ids h).same s.root).1]
      exact hc k' (by simp [hk]) s hs
    · intro k' hk j hj
      rw [((MoreTags.addAll T k.ids h).same j).2.2]
      exact ht k' (by simp [hk]) j hj
end

end Booklit
