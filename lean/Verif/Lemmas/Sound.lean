import Verif.Lemmas.InvokeL

/-!
States in which section pointers make sense.
-/

namespace Booklit

/-- Parents are older than their sections, and baselit is the first plugin of every section. -/
def Sound (h : Heap) : Prop :=
  ∀ j, j < h.length → (∀ p, (h.get j).parent = some p → p < j) ∧ (h.get j).plugins.head? = some 0

theorem Sound.nil : Sound [] := by intro j hj; simp at hj

theorem Sound.upd {h : Heap} (hs : Sound h) (i : Nat) (f : Sec → Sec)
    (hf : ∀ x, (f x).parent = x.parent ∧ (x.plugins.head? = some 0 → (f x).plugins.head? = some 0)) : Sound (h.upd i f) := by
  intro j hj
  rw [Heap.length_upd] at hj
  have := hs j hj
  by_cases e : j = i
  · subst e
    rw [Heap.get_upd_eq _ _ hj]
    exact ⟨fun p hp => this.1 p ((hf _).1 ▸ hp), (hf _).2 this.2⟩
  · rw [Heap.get_upd_ne _ _ e]
    exact this

theorem Sound.add {h : Heap} (hs : Sound h) (x : Sec) (hp : ∀ p, x.parent = some p → p < h.length)
    (h0 : x.plugins.head? = some 0) : Sound (h ++ [x]) := by
  intro j hj
  by_cases e : j < h.length
  · rw [Heap.get_append_lt _ _ e]; exact hs j e
  · have : j = h.length := by simp at hj; omega
    subst this
    rw [Heap.get_append_eq]
    exact ⟨hp, h0⟩

def KeepsSound (_ : Nat) (s s' : St) : Prop := s.heap.length ≤ s'.heap.length ∧ (Sound s.heap → Sound s'.heap)

theorem Upd.sound {W : World} {P : Content → Prop} {h : Heap} {i : Nat} {f : Sec → Sec} (u : Upd W P h i f) (x : Sec) :
    (f x).parent = x.parent ∧ (x.plugins.head? = some 0 → (f x).plugins.head? = some 0) := by
  cases u with
  | plugin hp =>
    refine ⟨rfl, fun h => ?_⟩
    simp only [Sec.usePlugin]
    cases hx : x.plugins with
    | nil => rw [hx] at h; cases h
    | cons a b => rw [hx] at h; exact h
  | _ => exact ⟨rfl, id⟩

theorem KeepsSound.inv (W : World) : EvalInv W (fun _ => True) KeepsSound where
  refl := fun _ s => ⟨Nat.le_refl _, id⟩
  trans := fun h h' => ⟨Nat.le_trans h.1 h'.1, h'.2 ∘ h.2⟩
  len := fun h => h.1
  upd := fun _ u => ⟨by simp [Heap.length_upd], fun h => h.upd _ _ u.sound⟩
  content := ContentInv.true W
  body := fun _ _ _ => ⟨by simp [Heap.length_upd], fun h => h.upd _ _ fun _ => ⟨rfl, id⟩⟩
  failed := fun {i s s'} hi h => by
    have hl := h.1
    simp [St.inline] at hl
    exact ⟨by omega, fun hs => h.2 (hs.add _ (fun p e => by cases e; exact hi) (hs i hi).2)⟩
  inline := fun {i s s'} hi h => by
    have hl := h.1
    simp [St.inline] at hl
    refine ⟨by simp [St.linkInline, Heap.length_upd]; omega, fun hs => ?_⟩
    have := h.2 (hs.add _ (fun p e => by cases e; exact hi) (hs i hi).2)
    simp only [St.linkInline]
    apply Sound.upd
    · apply Sound.upd this
      exact fun _ => ⟨rfl, id⟩
    · exact fun _ => ⟨rfl, id⟩
  failedFile := fun {i s s' path} hi h => by
    have hl := h.1
    simp [St.file] at hl
    exact ⟨by omega, fun hs => h.2 (hs.add _ (fun p e => by cases e; exact hi) rfl)⟩
  file := fun {i s s' path} hi _ h => by
    have hl := h.1
    simp [St.file] at hl
    refine ⟨by simp [St.link, Heap.length_upd]; omega, fun hs => ?_⟩
    have := h.2 (hs.add _ (fun p e => by cases e; exact hi) rfl)
    exact this.upd _ _ fun _ => ⟨rfl, id⟩
  remember := fun _ _ _ _ _ h => h

/-- In such states looking for the file of a section ends. -/
theorem Sound.filePath {h : Heap} (hs : Sound h) : ∀ (i n : Nat), i < h.length → i < n → ∃ p, h.filePath n i = some p := by
  intro i
  induction i using Nat.strongRecOn with
  | ind i ih =>
    intro n hi hn
    obtain ⟨m, rfl⟩ : ∃ m, n = m + 1 := ⟨n - 1, by omega⟩
    rw [Heap.filePath]
    split
    · exact ⟨_, rfl⟩
    · cases hp : (h.get i).parent with
      | none => exact ⟨[], rfl⟩
      | some p =>
        have := (hs i hi).1 p hp
        exact ih p this m (by omega) (by omega)

theorem MoreTags.sound {h h' : Heap} (m : MoreTags h h') (hs : Sound h) : Sound h' := by
  intro j hj
  rw [m.1] at hj
  obtain ⟨gs, e⟩ := m.2 j
  rw [e]
  exact hs j hj

/-- States reached by loading documents, successfully or not, one after the other; sections loaded below another
one are given an existing section. Plugin lists start with baselit, as everywhere in the repository
(booklitcmd/command.go:122-124, tests/example.go:31). -/
inductive Reach (W : World) : St → Prop
  | start : Reach W ⟨[], []⟩
  | load {s : St} (n : Nat) (parent : Option Nat) (path : Str) (plugins : List Nat) :
      Reach W s → (∀ p, parent = some p → p < s.heap.length) → plugins.head? = some 0 →
      Reach W (loadFile W n parent path plugins s).2

theorem loadFile_run (W : World) (n : Nat) (parent : Option Nat) (path : Str) (plugins : List Nat) (s : St) :
    loadFile W n parent path plugins s =
      match evalFile W n parent path plugins s with
      | (.ok i, s') =>
        match s'.heap.collect n i with
        | .ok h => (.ok i, { s' with heap := h })
        | .err e => (.err e, s')
        | .panic => (.panic, s')
        | .more => (.more, s')
      | (.err e, s') => (.err e, s')
      | (.panic, s') => (.panic, s')
      | (.more, s') => (.more, s') := by
  rw [loadFile, M.bind_run, M.bind]
  cases evalFile W n parent path plugins s with
  | mk r s' => cases r <;> rfl

/-- A successful load is a successful evaluation and a successful collection. -/
theorem loadFile_ok {W : World} {n : Nat} {parent : Option Nat} {path : Str} {plugins : List Nat} {s s' : St} {i : Nat}
    (h : loadFile W n parent path plugins s = (.ok i, s')) :
    ∃ s1 h2, evalFile W n parent path plugins s = (.ok i, s1) ∧ s1.heap.collect n i = .ok h2 ∧
      s' = { s1 with heap := h2 } := by
  rw [loadFile_run] at h
  cases he : evalFile W n parent path plugins s with
  | mk r s1 =>
    rw [he] at h
    cases r with
    | err _ => cases h
    | panic => cases h
    | more => cases h
    | ok j =>
      dsimp only at h
      cases hc : s1.heap.collect n j with
      | err _ => rw [hc] at h; cases h
      | panic => rw [hc] at h; cases h
      | more => rw [hc] at h; cases h
      | ok h2 =>
        rw [hc] at h
        injection h with h1 h3
        injection h1 with h1
        subst h1 h3
        exact ⟨s1, h2, rfl, hc, rfl⟩

theorem Reach.sound {W : World} {s : St} (h : Reach W s) : Sound s.heap := by
  induction h with
  | start => exact Sound.nil
  | @load s n parent path plugins _ hp h0 ih =>
    have hfile : Sound (s.file parent path plugins).heap := ih.add _ hp h0
    have heval : Sound (evalFile W n parent path plugins s).2.heap := by
      rcases keeps_file (KeepsSound.inv W) n parent path plugins s with ⟨e, h⟩ | h | h | ⟨s', ⟨h1, h2⟩ | ⟨h1, h2, h3⟩⟩
      · rw [h]; exact ih
      · rw [h]; exact ih
      · rw [h]; exact ih
      · rw [h1]; exact h2.2 hfile
      · rw [h2]; exact h3.2 hfile
    rw [loadFile_run]
    revert heval
    cases evalFile W n parent path plugins s with
    | mk r s' =>
      cases r with
      | ok i =>
        intro heval
        dsimp only
        cases hc : s'.heap.collect n i with
        | ok h => exact (collect_more n _ _ _ hc).sound heval
        | _ => exact heval
      | _ => exact id

end Booklit
