import Verif.Lemmas.EvalRel

/-!
Sections above which one is a single page.
-/

namespace Booklit

/-- A section above is a single page. -/
def PageAbove (h : Heap) (i : Nat) : Prop := ∃ p, (h.get i).parent = some p ∧ OnSinglePage h p

theorem onSinglePage_iff {h : Heap} {i : Nat} : OnSinglePage h i ↔ (h.get i).preventSplit = true ∨ PageAbove h i := by
  constructor
  · intro o
    cases o with
    | here h => exact .inl h
    | above hp o => exact .inr ⟨_, hp, o⟩
  · rintro (h | ⟨p, hp, o⟩)
    · exact .here h
    · exact .above hp o

theorem OnSinglePage.upto {h h' : Heap} (hs : Sound h) {i : Nat} (o : OnSinglePage h i) :
    i < h.length → (∀ j, j ≤ i → h'.get j = h.get j) → OnSinglePage h' i := by
  induction o with
  | here hp => exact fun hi he => .here (by rw [he _ (Nat.le_refl _)]; exact hp)
  | @above i p hp o ih =>
    intro hi he
    have hlt := (hs i hi).1 p hp
    exact .above (by rw [he _ (Nat.le_refl _)]; exact hp) (ih (by omega) fun j hj => he j (by omega))

/-- Only the sections above matter. -/
theorem onSinglePage_same {h h' : Heap} (hs : Sound h) {n : Nat} (hn : n ≤ h.length) (he : ∀ j, j < n → h'.get j = h.get j) :
    ∀ p, p < n → (OnSinglePage h' p ↔ OnSinglePage h p) := by
  intro p
  induction p using Nat.strongRecOn with
  | ind p ih =>
    intro hp
    rw [onSinglePage_iff, onSinglePage_iff, PageAbove, PageAbove, he p hp]
    refine or_congr Iff.rfl (exists_congr fun q => and_congr_right fun hq => ?_)
    have := (hs p (by omega)).1 q hq
    exact ih q this (by omega)

theorem pageAbove_same {h h' : Heap} (hs : Sound h) {i : Nat} (hi : i < h.length) (hp : (h'.get i).parent = (h.get i).parent)
    (he : ∀ j, j < i → h'.get j = h.get j) : PageAbove h' i ↔ PageAbove h i := by
  rw [PageAbove, PageAbove, hp]
  refine exists_congr fun q => and_congr_right fun hq => ?_
  exact onSinglePage_same hs (Nat.le_of_lt hi) he q ((hs i hi).1 q hq)

theorem splitPrevented_on {h : Heap} (hs : Sound h) : ∀ (i n : Nat), i < h.length → i < n →
    (OnSinglePage h i → h.splitPrevented n i = some true) ∧ (¬ OnSinglePage h i → h.splitPrevented n i = some false) := by
  intro i
  induction i using Nat.strongRecOn with
  | ind i ih =>
    intro n hi hn
    obtain ⟨m, rfl⟩ : ∃ m, n = m + 1 := ⟨n - 1, by omega⟩
    rw [Heap.splitPrevented, onSinglePage_iff]
    by_cases hp : (h.get i).preventSplit = true
    · rw [if_pos hp]
      exact ⟨fun _ => rfl, fun hc => absurd (.inl hp) hc⟩
    · rw [if_neg hp]
      cases hpar : (h.get i).parent with
      | none =>
        refine ⟨?_, fun _ => rfl⟩
        rintro (h1 | ⟨p, h1, _⟩)
        · exact absurd h1 hp
        · rw [hpar] at h1; cases h1
      | some p =>
        have hlt := (hs i hi).1 p hpar
        obtain ⟨a, b⟩ := ih p hlt m (by omega) (by omega)
        refine ⟨?_, fun hc => b fun o => hc (.inr ⟨p, hpar, o⟩)⟩
        rintro (h1 | ⟨q, h1, o⟩)
        · exact absurd h1 hp
        · rw [hpar] at h1
          cases h1
          exact a o

theorem onSinglePage_reset (h : Heap) (i k : Nat) :
    OnSinglePage (h.upd i fun x => { x with resetDepth := true }) k ↔ OnSinglePage h k := by
  have hf : ∀ j, ((h.upd i fun x => { x with resetDepth := true }).get j).parent = (h.get j).parent ∧
      ((h.upd i fun x => { x with resetDepth := true }).get j).preventSplit = (h.get j).preventSplit := by
    intro j
    constructor
    · exact Heap.get_field _ _ _ _ Sec.parent fun _ => rfl
    · exact Heap.get_field _ _ _ _ Sec.preventSplit fun _ => rfl
  constructor
  · intro o
    induction o with
    | here h => exact .here (by rw [← (hf _).2]; exact h)
    | above hp _ ih => exact .above (by rw [← (hf _).1]; exact hp) ih
  · intro o
    induction o with
    | here h => exact .here (by rw [(hf _).2]; exact h)
    | above hp _ ih => exact .above (by rw [(hf _).1]; exact hp) ih

end Booklit
