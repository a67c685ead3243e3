import Verif.Spec.Tree

/-! Lemmas about section trees, positions and terminating recursions. -/

namespace Booklit

theorem Ends.unique {α : Type} {f : Nat → Option α} {v w : α} (h : Ends f v) (h' : Ends f w) : v = w := by
  obtain ⟨N, hN⟩ := h; obtain ⟨M, hM⟩ := h'
  have a := hN (max N M) (Nat.le_max_left ..); have b := hM (max N M) (Nat.le_max_right ..)
  rw [a] at b; exact Option.some.inj b

/-- One more unit of fuel. -/
theorem Ends.succ {α : Type} {f : Nat → Option α} {v : α} (h : Ends (fun n => f (n + 1)) v) : Ends f v := by
  obtain ⟨N, hN⟩ := h
  refine ⟨N + 1, fun n hn => ?_⟩
  obtain ⟨m, rfl⟩ : ∃ m, n = m + 1 := ⟨n - 1, by omega⟩
  exact hN m (by omega)

theorem Ends.const {α : Type} {f : Nat → Option α} {v : α} (h : ∀ n, f n = some v) : Ends f v := ⟨0, fun n _ => h n⟩

theorem Ends.congr {α β : Type} {f : Nat → Option α} {g : Nat → Option β} {v : α} {w : β} (h : Ends f v)
    (hg : ∀ n, f n = some v → g n = some w) : Ends g w := by
  obtain ⟨N, hN⟩ := h; exact ⟨N, fun n hn => hg n (hN n hn)⟩

theorem Ends.congr2 {α β γ : Type} {f : Nat → Option α} {g : Nat → Option β} {k : Nat → Option γ} {v : α} {w : β}
    {x : γ} (h : Ends f v) (h' : Ends g w) (hk : ∀ n, f n = some v → g n = some w → k n = some x) : Ends k x := by
  obtain ⟨N, hN⟩ := h; obtain ⟨M, hM⟩ := h'
  exact ⟨max N M, fun n hn => hk n (hN n (by omega)) (hM n (by omega))⟩

namespace Tree

/-- Induction on trees. -/
theorem ind {P : Tree → Prop} (h : ∀ i ks, (∀ k ∈ ks, P k) → P (.node i ks)) : ∀ t, P t := by
  intro t
  induction t using Tree.rec (motive_2 := fun ks => ∀ k ∈ ks, P k) with
  | node i ks ih => exact h i ks ih
  | nil => simp at *
  | cons k ks ih ihs x hx =>
    rcases List.mem_cons.mp hx with rfl | hx
    · exact ih
    · exact ihs x hx

theorem node_eta (t : Tree) : .node t.root t.kids = t := by cases t; rfl

theorem ids_eq (t : Tree) : t.ids = t.root :: idsL t.kids := by cases t; rfl

theorem idsL_flatMap (ks : List Tree) : idsL ks = ks.flatMap ids := by
  induction ks with
  | nil => rfl
  | cons k ks ih => simp [idsL, ih]

theorem root_mem (t : Tree) : t.root ∈ t.ids := by rw [ids_eq]; simp

theorem At.inj {t : Tree} {ks : List Nat} {s s' : Tree} (h : At t ks s) (h' : At t ks s') : s = s' := by
  induction h generalizing s' with
  | here =>
    generalize e : ([] : List Nat) = l at h'
    cases h' with
    | here => rfl
    | step => simp at e
  | @step ks p k s _ hk ih =>
    generalize e : ks ++ [k] = l at h'
    cases h' with
    | here => simp at e
    | @step ks2 p2 k2 s2 h2 hk2 =>
      obtain ⟨rfl, e2⟩ := List.append_inj' e rfl
      obtain rfl : k = k2 := by simpa using e2
      obtain rfl := ih h2
      rw [hk] at hk2; exact Option.some.inj hk2

theorem At.cons {t c s : Tree} {k : Nat} {ks : List Nat} (hk : t.kids[k]? = some c) (h : At c ks s) :
    At t (k :: ks) s := by
  induction h with
  | here => exact At.step (ks := []) .here hk
  | @step ks p k' s _ hk' ih => exact At.step (ks := k :: ks) ih hk'

theorem At.uncons {t s : Tree} {ks : List Nat} (h : At t ks s) :
    (ks = [] ∧ s = t) ∨ ∃ k ks' c, ks = k :: ks' ∧ t.kids[k]? = some c ∧ At c ks' s := by
  induction h with
  | here => exact .inl ⟨rfl, rfl⟩
  | @step ks p k s hp hk ih =>
    refine .inr ?_
    rcases ih with ⟨rfl, rfl⟩ | ⟨k0, ks', c, rfl, hc, h⟩
    · exact ⟨k, [], s, rfl, hk, .here⟩
    · exact ⟨k0, ks' ++ [k], c, rfl, hc, .step h hk⟩

theorem At.append {t p s : Tree} {ks ls : List Nat} (h : At t ks p) (h' : At p ls s) : At t (ks ++ ls) s := by
  induction h' with
  | here => simpa using h
  | @step ls q k s _ hk ih => rw [← List.append_assoc]; exact .step ih hk

theorem At.of_append {t s : Tree} {ks ls : List Nat} (h : At t (ks ++ ls) s) : ∃ p, At t ks p ∧ At p ls s := by
  generalize er : ls.reverse = r
  induction r generalizing s ls with
  | nil =>
    obtain rfl : ls = [] := by simpa using er
    exact ⟨s, by simpa using h, .here⟩
  | cons k r ih =>
    obtain ⟨ls, rfl⟩ : ∃ l, ls = l ++ [k] := ⟨r.reverse, by simpa using congrArg List.reverse er⟩
    rw [List.reverse_append, List.reverse_cons] at er
    simp only [List.reverse_nil, List.nil_append, List.cons_append, List.cons.injEq, true_and] at er
    rw [← List.append_assoc] at h
    generalize e : ks ++ ls ++ [k] = l at h
    cases h with
    | here => simp at e
    | @step l2 q k2 s hq hk =>
      obtain ⟨rfl, e2⟩ := List.append_inj' e rfl
      obtain rfl : k = k2 := by simpa using e2
      obtain ⟨p, hp, hpq⟩ := ih hq er
      exact ⟨p, hp, .step hpq hk⟩

theorem Sub.refl (t : Tree) : t.Sub t := ⟨[], .here⟩

theorem Sub.kid {t s k : Tree} (h : t.Sub s) (hk : k ∈ s.kids) : t.Sub k := by
  obtain ⟨ks, h⟩ := h
  obtain ⟨j, hj, e⟩ := List.getElem_of_mem hk
  exact ⟨ks ++ [j], .step h (by rw [List.getElem?_eq_getElem hj, e])⟩

theorem Sub.trans {t s r : Tree} (h : t.Sub s) (h' : s.Sub r) : t.Sub r := by
  obtain ⟨ks, h⟩ := h; obtain ⟨ls, h'⟩ := h'; exact ⟨_, h.append h'⟩

theorem kid_sublist {t k : Tree} (hk : k ∈ t.kids) : k.ids.Sublist t.ids := by
  rw [ids_eq t, idsL_flatMap]
  refine List.Sublist.cons _ ?_
  obtain ⟨a, b, e⟩ := List.append_of_mem hk
  rw [e]
  simp only [List.flatMap_append, List.flatMap_cons]
  exact (List.sublist_append_left ..).trans (List.sublist_append_right ..)

theorem At.sublist {t s : Tree} {ks : List Nat} (h : At t ks s) : s.ids.Sublist t.ids := by
  induction h with
  | here => exact List.Sublist.refl _
  | step _ hk ih => exact (kid_sublist (List.mem_of_getElem? hk)).trans ih

theorem Sub.sublist {t s : Tree} (h : t.Sub s) : s.ids.Sublist t.ids := by
  obtain ⟨_, h⟩ := h; exact h.sublist

theorem mem_ids {t : Tree} {i : Nat} : i ∈ t.ids ↔ ∃ s, t.Sub s ∧ s.root = i := by
  constructor
  · induction t using ind with
    | h j ks ih =>
      intro hi
      rw [ids, idsL_flatMap, List.mem_cons, List.mem_flatMap] at hi
      rcases hi with rfl | ⟨k, hk, hi⟩
      · exact ⟨_, Sub.refl _, rfl⟩
      · obtain ⟨s, hs, e⟩ := ih k hk hi
        exact ⟨s, ((Sub.refl _).kid hk).trans hs, e⟩
  · rintro ⟨s, hs, rfl⟩
    exact hs.sublist.subset s.root_mem

theorem nodup_kid {t k : Tree} (h : t.ids.Nodup) (hk : k ∈ t.kids) : k.ids.Nodup := h.sublist (kid_sublist hk)

/-- In a tree without repetitions the subtrees at different positions are disjoint. -/
theorem kids_disjoint {ks : List Tree} (h : (idsL ks).Nodup) {a b : Nat} {x y : Tree} (ha : ks[a]? = some x)
    (hb : ks[b]? = some y) (hab : a ≠ b) {i : Nat} (hx : i ∈ x.ids) (hy : i ∈ y.ids) : False := by
  induction ks generalizing a b with
  | nil => simp at ha
  | cons k ks ih =>
    rw [idsL, List.nodup_append] at h
    obtain ⟨_, h2, h3⟩ := h
    rcases a with _ | a <;> rcases b with _ | b
    · exact hab rfl
    · simp only [List.getElem?_cons_zero, Option.some.injEq, List.getElem?_cons_succ] at ha hb
      subst ha
      refine h3 i hx i ?_ rfl
      rw [idsL_flatMap, List.mem_flatMap]; exact ⟨y, List.mem_of_getElem? hb, hy⟩
    · simp only [List.getElem?_cons_zero, Option.some.injEq, List.getElem?_cons_succ] at ha hb
      subst hb
      refine h3 i hy i ?_ rfl
      rw [idsL_flatMap, List.mem_flatMap]; exact ⟨x, List.mem_of_getElem? ha, hx⟩
    · simp only [List.getElem?_cons_succ] at ha hb
      exact ih h2 ha hb (by omega)

/-- In a tree without repetitions a section has one position only. -/
theorem At.unique {t s s' : Tree} {ks ks' : List Nat} (hn : t.ids.Nodup) (h : At t ks s) (h' : At t ks' s')
    (e : s.root = s'.root) : ks = ks' ∧ s = s' := by
  suffices ks = ks' by subst this; exact ⟨rfl, h.inj h'⟩
  induction t using ind generalizing ks ks' with
  | h i cs ih =>
    rw [ids, List.nodup_cons] at hn
    have inside : ∀ {k : Nat} {c r : Tree} {l : List Nat}, cs[k]? = some c → At c l r → r.root ∈ c.ids :=
      fun _ h => h.sublist.subset (root_mem _)
    have inside' : ∀ {k : Nat} {c r : Tree} {l : List Nat}, cs[k]? = some c → At c l r → r.root ∈ idsL cs :=
      fun hc h => by rw [idsL_flatMap, List.mem_flatMap]; exact ⟨_, List.mem_of_getElem? hc, inside hc h⟩
    rcases h.uncons with ⟨rfl, rfl⟩ | ⟨k, l, c, rfl, hc, hl⟩ <;> rcases h'.uncons with ⟨rfl, rfl⟩ | ⟨k', l', c', rfl, hc', hl'⟩
    · rfl
    · have := inside' hc' hl'
      rw [← e] at this; exact absurd this hn.1
    · have := inside' hc hl
      rw [e] at this; exact absurd this hn.1
    · simp only [kids] at hc hc'
      by_cases hkk : k = k'
      · subst hkk
        rw [hc] at hc'; obtain rfl := Option.some.inj hc'
        have hm := List.mem_of_getElem? hc
        have hnc : c.ids.Nodup := by
          rw [idsL_flatMap] at hn
          obtain ⟨a, b, e⟩ := List.append_of_mem hm
          rw [e] at hn
          simp only [List.flatMap_append, List.flatMap_cons, List.nodup_append] at hn
          exact hn.2.2.1.1
        rw [ih c hm hnc hl hl']
      · exact (kids_disjoint hn.2 hc hc' hkk (inside hc hl) (e ▸ inside hc' hl')).elim

end Tree

/-! ### Checking a concrete book -/

/-- Check children and parents in a subtree. -/
def Tree.check (h : Heap) : Tree → Bool
  | .node i ks => (h.get i).children == ks.map Tree.root && checkL h i ks
where
  checkL (h : Heap) (i : Nat) : List Tree → Bool
    | [] => true
    | k :: ks => (h.get k.root).parent == some i && k.check h && checkL h i ks

theorem Tree.checkL_mem {h : Heap} {i : Nat} {ks : List Tree} (hc : check.checkL h i ks = true) {k : Tree} (hk : k ∈ ks) :
    (h.get k.root).parent = some i ∧ k.check h = true := by
  induction ks with
  | nil => simp at hk
  | cons c ks ih =>
    simp only [check.checkL, Bool.and_eq_true, beq_iff_eq] at hc
    rcases List.mem_cons.mp hk with rfl | hk
    · exact hc.1
    · exact ih hc.2 hk

theorem Tree.check_eq (h : Heap) (t : Tree) :
    t.check h = ((h.get t.root).children == t.kids.map Tree.root && check.checkL h t.root t.kids) := by cases t; rfl

theorem Book.of_check {h : Heap} {t : Tree} (hc : t.check h = true) (hn : t.ids.Nodup)
    (ht : (h.get t.root).parent = none) : Book h t := by
  have sub : ∀ s, t.Sub s → s.check h = true := by
    rintro s ⟨ks, hs⟩
    induction hs with
    | here => exact hc
    | @step ks p k s _ hk ih =>
      rw [Tree.check_eq, Bool.and_eq_true] at ih
      exact (Tree.checkL_mem ih.2 (List.mem_of_getElem? hk)).2
  refine ⟨hn, fun s hs => ?_, fun s hs k hk => ?_, ht⟩
  · have := sub s hs
    rw [Tree.check_eq, Bool.and_eq_true, beq_iff_eq] at this
    exact this.1
  · have := sub s hs
    rw [Tree.check_eq, Bool.and_eq_true] at this
    exact (Tree.checkL_mem this.2 hk).1

end Booklit
