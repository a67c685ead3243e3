import Verif.Lemmas.PagesL
import Verif.Lemmas.PathL
import Verif.Model.Output

/-! Lemmas about written files and the search index. -/

namespace Booklit

open Tree

theorem pageOwner_mono {h : Heap} {i o : Nat} : ∀ {n m : Nat}, n ≤ m → h.pageOwner n i = some o → h.pageOwner m i = some o := by
  intro n
  induction n generalizing i with
  | zero => intro m _ he; simp [Heap.pageOwner] at he
  | succ n ih =>
    intro m hm he
    obtain ⟨m, rfl⟩ : ∃ k, m = k + 1 := ⟨m - 1, by omega⟩
    rw [Heap.pageOwner] at he ⊢
    split at he
    · exact he
    · split
      · next hs => rw [if_pos hs] at he; exact he
      · next hs => rw [if_neg hs] at he; exact ih (by omega) he

theorem sectionURL_mono {h : Heap} {ext : Str} {url : Str} : ∀ {n m : Nat} {i : Nat} {a : Str}, n ≤ m →
    h.sectionURL ext n i a = some url → h.sectionURL ext m i a = some url := by
  intro n
  induction n with
  | zero => intro m i a _ he; simp [Heap.sectionURL] at he
  | succ n ih =>
    intro m i a hm he
    obtain ⟨m, rfl⟩ : ∃ k, m = k + 1 := ⟨m - 1, by omega⟩
    rw [Heap.sectionURL] at he ⊢
    cases ho : h.pageOwner n i with
    | none => rw [ho] at he; simp at he
    | some o =>
      rw [ho] at he
      rw [pageOwner_mono (by omega) ho]
      simp only at he ⊢
      split
      · next hne => rw [if_pos hne] at he; exact ih (by omega) he
      · next hne => rw [if_neg hne] at he; exact he

theorem depth_mono {h : Heap} {i d : Nat} : ∀ {n m : Nat}, n ≤ m → h.depth n i = some d → h.depth m i = some d := by
  intro n
  induction n generalizing i d with
  | zero => intro m _ he; simp [Heap.depth] at he
  | succ n ih =>
    intro m hm he
    obtain ⟨m, rfl⟩ : ∃ k, m = k + 1 := ⟨m - 1, by omega⟩
    rw [Heap.depth] at he ⊢
    split at he
    · exact he
    · next p hp =>
      cases hd : h.depth n p with
      | none => rw [hd] at he; simp at he
      | some x => rw [hd] at he; rw [ih (by omega) hd]; exact he

theorem lastWritten_mem {path : Str} {ws : List (Str × Nat)} {i : Nat} (h : lastWritten path ws = some i) : (path, i) ∈ ws := by
  induction ws with
  | nil => simp [lastWritten] at h
  | cons w ws ih =>
    rw [lastWritten] at h
    split at h
    · next j hj =>
      simp only [Option.some.injEq] at h
      subst h
      exact List.mem_cons_of_mem _ (ih hj)
    · split at h
      · next hw =>
        simp only [Option.some.injEq] at h
        subst h; subst hw
        simp
      · simp at h

theorem lastWritten_some {path : Str} {ws : List (Str × Nat)} {i : Nat} (h : (path, i) ∈ ws) : ∃ j, lastWritten path ws = some j := by
  induction ws with
  | nil => cases h
  | cons w ws ih =>
    rw [lastWritten]
    cases hl : lastWritten path ws with
    | some j => exact ⟨j, rfl⟩
    | none =>
      rcases List.mem_cons.1 h with rfl | h
      · exact ⟨i, by simp⟩
      · obtain ⟨j, hj⟩ := ih h
        rw [hl] at hj
        simp at hj

theorem put_same (ix : SearchIndex) (name : Str) (d : SearchDoc) : (ix.put name d).lookup name = some d := by
  simp [SearchIndex.put]

theorem put_other (ix : SearchIndex) {name other : Str} (d : SearchDoc) (h : other ≠ name) :
    (ix.put name d).lookup other = ix.lookup other := by
  have hb : (other == name) = false := by simp [h]
  simp only [SearchIndex.put, List.lookup_cons, hb]
  induction ix with
  | nil => rfl
  | cons e ix ih =>
    obtain ⟨k, x⟩ := e
    by_cases hk : k = name
    · subst hk
      simpa [List.lookup_cons, hb] using ih
    · simp only [ne_eq, hk, not_false_eq_true, decide_true, List.filter_cons_of_pos, List.lookup_cons]
      split
      · rfl
      · exact ih

/-- What the index says about a name: the entry of the last tag with this name. -/
theorem indexTags_lookup {h : Heap} {bo : Bool} {ext : Str} {k : Nat} {gs : List Tag} {ix ix' : SearchIndex}
    (he : h.indexTags bo ext k ix gs = .ok ix') (name : Str) :
    match (gs.filter fun g => g.name = name).getLast? with
    | some g => ∃ d, h.searchDoc bo ext k g = .ok d ∧ ix'.lookup name = some d
    | none => ix'.lookup name = ix.lookup name := by
  induction gs generalizing ix with
  | nil =>
    simp only [Heap.indexTags, Res.ok.injEq] at he
    subst he
    simp
  | cons g gs ih =>
    rw [Heap.indexTags] at he
    cases hd : h.searchDoc bo ext k g with
    | ok d =>
      rw [hd] at he
      simp only [Res.bind] at he
      have := ih he
      by_cases hn : g.name = name
      · simp only [hn, decide_true, List.filter_cons_of_pos]
        cases hl : gs.filter (fun g => g.name = name) with
        | nil =>
          rw [hl] at this
          simp only [List.getLast?_nil] at this
          simp only [List.getLast?_singleton]
          refine ⟨d, hd, ?_⟩
          rw [this, hn, put_same]
        | cons x xs =>
          rw [hl] at this
          rw [List.getLast?_cons_cons]
          exact this
      · simp only [hn, decide_false, Bool.false_eq_true, not_false_eq_true, List.filter_cons_of_neg]
        have hne : name ≠ g.name := fun e => hn e.symm
        split at this
        · exact this
        · rw [this, put_other _ _ hne]
    | err e => rw [hd] at he; simp [Res.bind] at he
    | panic => rw [hd] at he; simp [Res.bind] at he
    | more => rw [hd] at he; simp [Res.bind] at he

theorem indexTags_append {h : Heap} {bo : Bool} {ext : Str} {k : Nat} {as bs : List Tag} {ix ix1 ix2 : SearchIndex}
    (h1 : h.indexTags bo ext k ix as = .ok ix1) (h2 : h.indexTags bo ext k ix1 bs = .ok ix2) :
    h.indexTags bo ext k ix (as ++ bs) = .ok ix2 := by
  induction as generalizing ix with
  | nil => simp only [Heap.indexTags, Res.ok.injEq] at h1; subst h1; exact h2
  | cons g as ih =>
    rw [Heap.indexTags] at h1
    simp only [List.cons_append]
    rw [Heap.indexTags]
    cases hd : h.searchDoc bo ext k g with
    | ok d => rw [hd] at h1; simp only [Res.bind] at h1 ⊢; exact ih h1
    | err e => rw [hd] at h1; simp [Res.bind] at h1
    | panic => rw [hd] at h1; simp [Res.bind] at h1
    | more => rw [hd] at h1; simp [Res.bind] at h1

/-- All tags of a tree in document order. -/
def Tree.allTags (h : Heap) (t : Tree) : List Tag := t.ids.flatMap fun i => (h.get i).tags

theorem indexLoop_tags {h : Heap} {bo : Bool} {ext : Str} {k n : Nat} : ∀ (ks : List Tree) {ix ix' : SearchIndex},
    (∀ c ∈ ks, ∀ {ix ix' : SearchIndex}, h.loadTags bo ext k n ix c.root = .ok ix' →
      h.indexTags bo ext k ix (c.allTags h) = .ok ix') →
    indexLoop (h.loadTags bo ext k n) ix (ks.map Tree.root) = .ok ix' →
    h.indexTags bo ext k ix ((idsL ks).flatMap fun i => (h.get i).tags) = .ok ix'
  | [], ix, ix', _, he => by simpa [indexLoop, idsL, Heap.indexTags] using he
  | c :: ks, ix, ix', hk, he => by
    simp only [List.map_cons] at he
    rw [indexLoop] at he
    cases hc : h.loadTags bo ext k n ix c.root with
    | ok ix1 =>
      rw [hc] at he
      simp only [Res.bind] at he
      have h1 := hk c (by simp) hc
      have h2 := indexLoop_tags ks (fun c' hc' => hk c' (by simp [hc'])) he
      simp only [idsL, List.flatMap_append]
      exact indexTags_append h1 h2
    | err e => rw [hc] at he; simp [Res.bind] at he
    | panic => rw [hc] at he; simp [Res.bind] at he
    | more => rw [hc] at he; simp [Res.bind] at he

theorem loadTags_tags {h : Heap} {t : Tree} (b : Book h t) {bo : Bool} {ext : Str} {k : Nat} (s : Tree) (hs : t.Sub s) :
    ∀ {n : Nat} {ix ix' : SearchIndex}, h.loadTags bo ext k n ix s.root = .ok ix' →
      h.indexTags bo ext k ix (s.allTags h) = .ok ix' := by
  induction s using Tree.ind with
  | h i ks ih =>
    intro n ix ix' he
    cases n with
    | zero => simp [Heap.loadTags] at he
    | succ n =>
      have e := b.children _ hs
      simp only [root, kids] at e
      rw [Heap.loadTags] at he
      simp only [root, e] at he
      cases hc : h.indexTags bo ext k ix (h.get i).tags with
      | ok ix1 =>
        rw [hc] at he
        simp only [Res.bind] at he
        have h2 := indexLoop_tags ks (fun c hc' => ih c hc' (hs.kid hc')) he
        simp only [allTags, ids, List.flatMap_cons]
        exact indexTags_append hc h2
      | err e => rw [hc] at he; simp [Res.bind] at he
      | panic => rw [hc] at he; simp [Res.bind] at he
      | more => rw [hc] at he; simp [Res.bind] at he

theorem filter_allTags (h : Heap) (t : Tree) (name : Str) : (t.allTags h).filter (fun g => g.name = name) = t.tagsNamed h name := by
  unfold allTags tagsNamed
  induction t.ids with
  | nil => rfl
  | cons i is ih => simp only [List.flatMap_cons, List.filter_append, ih]

end Booklit
