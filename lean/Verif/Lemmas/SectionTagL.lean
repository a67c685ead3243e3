import Verif.Lemmas.BuildL
import Verif.Lemmas.MsSite

/-!
Asking for a section by tag: the tags of a name found from the top of a book, in document order, and the pages below a
section.
-/

namespace Booklit

open Tree

/-- From the top of a book, the tags of a name are found in document order. -/
theorem findTag_top {h : Heap} {t : Tree} (b : Book h t) (name : Str) :
    Ends (fun n => h.findTag n t.root name) (t.tagsNamed h name) := by
  have e : tagsOf h (fun o => o == name) t.ids = t.tagsNamed h name := by
    simp only [tagsOf, tagsNamed]
    congr 1; funext i; congr 1; funext g
    by_cases hg : g.name = name <;> simp [hg]
  rw [← e]
  have hd := tagsDownAll_ends (h := h) (fun o => o == name) t.kids
    fun k hk => tagsDown_ends b _ k ((Sub.refl t).kid hk)
  refine Ends.succ (hd.congr fun n hn => ?_)
  have hc := b.children t (Sub.refl t)
  simp only [Heap.findTag, Heap.tagsUp, b.top]
  rw [hc]
  cases t with
  | node i ks =>
    simp only [kids, root] at hn ⊢
    simp [hn, ids, tagsOf]

/-- What is written for a section: it and the sections below it, as far as they are pages. -/
theorem written_iff {h : Heap} {t : Tree} (b : Book h t) {u : Tree} (hu : t.Sub u) (p : Nat) :
    p ∈ (if h.isPage u.root then [u.root] else []) ++ (u.pages h).map root ↔ p ∈ u.ids ∧ h.isPage p = true := by
  induction u using Tree.ind with
  | h i ks ih =>
    have hp : ∀ k ∈ ks, h.isPage k.root = (h.get i).split := by
      intro k hk
      rw [Heap.isPage, b.parent _ hu k hk]
      rfl
    constructor
    · intro hm
      rcases List.mem_append.1 hm with hm | hm
      · split at hm
        · rename_i hpg
          rw [List.mem_singleton.1 hm]
          exact ⟨mem_ids.2 ⟨_, Sub.refl _, rfl⟩, hpg⟩
        · cases hm
      · obtain ⟨x, hx, rfl⟩ := List.mem_map.1 hm
        exact ⟨mem_ids.2 ⟨x, pages_sub h hx, rfl⟩, Ms.pages_isPage b hu hx⟩
    · rintro ⟨hm, hpg⟩
      rw [ids] at hm
      rcases List.mem_cons.1 hm with rfl | hm
      · rw [root, if_pos hpg]
        exact List.mem_append_left _ (List.mem_singleton.2 rfl)
      · obtain ⟨k, hk, hm⟩ := mem_idsL.1 hm
        have := (ih k hk (hu.kid hk)).2 ⟨hm, hpg⟩
        apply List.mem_append_right
        rw [hp k hk] at this
        rcases List.mem_append.1 this with h1 | h1
        · split at h1
          · rename_i hsp
            rw [List.mem_singleton.1 h1]
            exact List.mem_map.2 ⟨k, pages_kid hk (List.mem_append_left _ (by rw [if_pos hsp]; simp)), rfl⟩
          · cases h1
        · obtain ⟨x, hx, rfl⟩ := List.mem_map.1 h1
          exact List.mem_map.2 ⟨x, pages_kid hk (List.mem_append_right _ hx), rfl⟩

end Booklit
