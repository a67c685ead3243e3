import Verif.Lemmas.Sound
import Verif.Lemmas.AuxL
import Verif.Spec.Single

/-!
More instances of the proof rule.
-/

namespace Booklit

/-- A title that is set stays. -/
def TitleKept (i : Nat) (s s' : St) : Prop :=
  Frame i s s' ∧ (i < s.heap.length → (s.heap.get i).title ≠ .str [] →
    (s'.heap.get i).title = (s.heap.get i).title ∧ (s'.heap.get i).titleLoc = (s.heap.get i).titleLoc ∧
    (s'.heap.get i).tags = (s.heap.get i).tags ∧ (s'.heap.get i).primaryTag = (s.heap.get i).primaryTag)

theorem TitleKept.inv (W : World) : EvalInv W (fun _ => True) TitleKept where
  refl := fun i s => ⟨Frame.refl i s, fun _ _ => ⟨rfl, rfl, rfl, rfl⟩⟩
  trans := fun {i s s' s''} h h' => ⟨h.1.trans h'.1, fun hi ht => by
    obtain ⟨a, b, c, d⟩ := h.2 hi ht
    obtain ⟨a', b', c', d'⟩ := h'.2 (Nat.lt_of_lt_of_le hi h.1.1) (by rw [a]; exact ht)
    exact ⟨a'.trans a, b'.trans b, c'.trans c, d'.trans d⟩⟩
  len := fun h => h.1.1
  upd := fun {i s f} hi u => ⟨Frame.upd _ _ _, fun _ ht => by
    dsimp only
    rw [Heap.get_upd_eq _ _ hi]
    cases u with
    | title h => exact absurd h ht
    | _ => exact ⟨rfl, rfl, rfl, rfl⟩⟩
  content := ContentInv.true W
  body := fun {i s} c hi _ => ⟨Frame.upd _ _ _, fun _ ht => by
    dsimp only
    rw [Heap.get_upd_eq _ _ hi]
    exact ⟨rfl, rfl, rfl, rfl⟩⟩
  failed := fun {i s s'} hi h => by
    refine ⟨(Frame.inv W).failed hi h.1, fun _ ht => ?_⟩
    rw [h.1.new.2 i hi]
    exact ⟨rfl, rfl, rfl, rfl⟩
  inline := fun {i s s'} hi h => by
    refine ⟨(Frame.inv W).inline hi h.1, fun _ ht => ?_⟩
    have hl := h.1.new.1
    simp only [St.linkInline]
    rw [Heap.get_upd_eq _ _ (by rw [Heap.length_upd]; omega), Heap.get_upd_ne _ _ (by omega), h.1.new.2 i hi]
    exact ⟨rfl, rfl, rfl, rfl⟩
  failedFile := fun {i s s' path} hi h => by
    refine ⟨(Frame.inv W).failedFile hi h.1, fun _ ht => ?_⟩
    rw [h.1.new.2 i hi]
    exact ⟨rfl, rfl, rfl, rfl⟩
  file := fun {i s s' path} hi hp h => by
    refine ⟨(Frame.inv W).file hi hp h.1, fun _ ht => ?_⟩
    have hl := h.1.new.1
    simp only [St.link]
    rw [Heap.get_upd_eq _ _ (by omega), h.1.new.2 i hi]
    exact ⟨rfl, rfl, rfl, rfl⟩
  remember := fun _ _ _ _ _ h => h

/-! ### Single pages -/

theorem splitPrevented_sound {h : Heap} (hs : Sound h) : ∀ (i n : Nat), i < h.length → i < n →
    h.splitPrevented n i = some false → ¬ OnSinglePage h i := by
  intro i
  induction i using Nat.strongRecOn with
  | ind i ih =>
    intro n hi hn e
    obtain ⟨m, rfl⟩ : ∃ m, n = m + 1 := ⟨n - 1, by omega⟩
    rw [Heap.splitPrevented] at e
    intro hu
    split at e
    · cases e
    · next hf =>
      cases hu with
      | here h => exact hf h
      | above hp hu =>
        rw [hp] at e
        exact ih _ ((hs i hi).1 _ hp) m (by have := (hs i hi).1 _ hp; omega) (by have := (hs i hi).1 _ hp; omega) e hu

theorem OnSinglePage.keep {h h' : Heap} (hs : Sound h) (he : ∀ j, j < h.length →
    (h'.get j).parent = (h.get j).parent ∧ ((h.get j).preventSplit = true → (h'.get j).preventSplit = true)) {i : Nat}
    (hi : i < h.length) (u : OnSinglePage h i) : OnSinglePage h' i := by
  induction u with
  | here h => exact .here ((he _ hi).2 h)
  | @above i p hp u ih =>
    exact .above (by rw [(he _ hi).1, hp]) (ih (by have := (hs i hi).1 p hp; omega))

/-- Below a single page nothing gets split. -/
def Unsplit (i : Nat) (s s' : St) : Prop :=
  Grow i s s' ∧ KeepsSound i s s' ∧ (i < s.heap.length → (s.heap.get i).preventSplit = true → (s'.heap.get i).preventSplit = true) ∧
  (Sound s.heap → i < s.heap.length → OnSinglePage s.heap i → (s'.heap.get i).split = (s.heap.get i).split ∧
    ∀ j, s.heap.length ≤ j → j < s'.heap.length → (s'.heap.get j).split = false)

theorem Unsplit.on {i : Nat} {s s' : St} (h : Unsplit i s s') (hs : Sound s.heap) (hi : i < s.heap.length)
    (u : OnSinglePage s.heap i) : OnSinglePage s'.heap i := by
  refine u.keep hs (fun j hj => ?_) hi
  by_cases e : j = i
  · subst e
    exact ⟨(h.1.2 hj).1, h.2.2.1 hj⟩
  · rw [h.1.1.2 j hj e]
    exact ⟨rfl, id⟩

theorem Unsplit.new {i : Nat} {x : Sec} {s s' : St} (h : Unsplit s.heap.length { s with heap := s.heap ++ [x] } s')
    (hi : i < s.heap.length) (hx : x.parent = some i)
    (hsp : x.split = false) (hpl : Sound s.heap → x.plugins.head? = some 0) (hs : Sound s.heap) (u : OnSinglePage s.heap i) :
    ∀ j, s.heap.length ≤ j → j < s'.heap.length → (s'.heap.get j).split = false := by
  have hs1 : Sound (s.heap ++ [x]) := hs.add x (fun p e => by rw [hx] at e; cases e; exact hi) (hpl hs)
  have u1 : OnSinglePage (s.heap ++ [x]) s.heap.length := by
    refine .above (p := i) (by rw [Heap.get_append_eq]; exact hx) ?_
    refine u.keep hs (fun j hj => ?_) hi
    rw [Heap.get_append_lt _ _ hj]
    exact ⟨rfl, id⟩
  obtain ⟨h1, h2⟩ := h.2.2.2 hs1 (by simp) u1
  intro j hj hj'
  by_cases e : j = s.heap.length
  · subst e
    rw [h1]
    dsimp only
    rw [Heap.get_append_eq]
    exact hsp
  · exact h2 j (by simp; omega) hj'

theorem Unsplit.inv (W : World) : EvalInv W (fun _ => True) Unsplit where
  refl := fun i s => ⟨Grow.refl i s, (KeepsSound.inv W).refl i s, fun _ => id, fun _ _ _ => ⟨rfl, fun j h1 h2 => by omega⟩⟩
  trans := fun {i s s' s''} h h' => by
    refine ⟨h.1.trans h'.1, (KeepsSound.inv W).trans h.2.1 h'.2.1,
      fun hi hp => h'.2.2.1 (Nat.lt_of_lt_of_le hi h.1.1.1) (h.2.2.1 hi hp), fun hs hi u => ?_⟩
    have hi' := Nat.lt_of_lt_of_le hi h.1.1.1
    obtain ⟨a, b⟩ := h.2.2.2 hs hi u
    obtain ⟨a', b'⟩ := h'.2.2.2 (h.2.1.2 hs) hi' (h.on hs hi u)
    refine ⟨a'.trans a, fun j h1 h2 => ?_⟩
    by_cases e : j < s'.heap.length
    · rw [h'.1.1.2 j e (by omega)]; exact b j h1 e
    · exact b' j (by omega) h2
  len := fun h => h.1.1.1
  upd := fun {i s f} hi u => by
    refine ⟨(Grow.inv W).upd hi u, (KeepsSound.inv W).upd hi u, fun _ hp => ?_, fun hs _ on => ⟨?_, fun j h1 h2 => ?_⟩⟩
    · dsimp only
      rw [Heap.get_upd_eq _ _ hi]
      cases u with
      | prevent => rfl
      | _ => exact hp
    · dsimp only
      rw [Heap.get_upd_eq _ _ hi]
      cases u with
      | split hp => exact absurd on (splitPrevented_sound hs i _ hi (by omega) hp)
      | _ => rfl
    · simp [Heap.length_upd] at h2; omega
  content := ContentInv.true W
  body := fun {i s} c hi _ => by
    refine ⟨(Grow.inv W).body c hi trivial, (KeepsSound.inv W).body c hi trivial, fun _ hp => ?_, fun hs _ on => ⟨?_, fun j h1 h2 => ?_⟩⟩
    · dsimp only
      rw [Heap.get_upd_eq _ _ hi]
      exact hp
    · dsimp only
      rw [Heap.get_upd_eq _ _ hi]
    · simp [Heap.length_upd] at h2; omega
  failed := fun {i s s'} hi h => by
    refine ⟨(Grow.inv W).failed hi h.1, (KeepsSound.inv W).failed hi h.2.1, fun _ hp => ?_, fun hs _ on => ⟨?_, ?_⟩⟩
    · rw [h.1.1.new.2 i hi]; exact hp
    · rw [h.1.1.new.2 i hi]
    · exact Unsplit.new h hi rfl rfl (fun hs => (hs i hi).2) hs on
  inline := fun {i s s'} hi h => by
    have hl := h.1.1.new.1
    have ei : ((s'.linkInline i s.heap.length).heap.get i) =
        { (s.heap.get i) with children := (s.heap.get i).children ++ [s.heap.length] } := by
      simp only [St.linkInline]
      rw [Heap.get_upd_eq _ _ (by rw [Heap.length_upd]; omega), Heap.get_upd_ne _ _ (by omega), h.1.1.new.2 i hi]
    refine ⟨(Grow.inv W).inline hi h.1, (KeepsSound.inv W).inline hi h.2.1, fun _ hp => ?_, fun hs _ on => ⟨?_, fun j h1 h2 => ?_⟩⟩
    · rw [ei]; exact hp
    · rw [ei]
    · have := Unsplit.new h hi rfl rfl (fun hs => (hs i hi).2) hs on j h1 (by simpa [St.linkInline, Heap.length_upd] using h2)
      simp only [St.linkInline]
      rw [Heap.get_field (g := Sec.split) (hg := ?_), Heap.get_field (g := Sec.split) (hg := ?_)]
      · exact this
      · exact fun _ => rfl
      · exact fun _ => rfl
  failedFile := fun {i s s' path} hi h => by
    refine ⟨(Grow.inv W).failedFile hi h.1, (KeepsSound.inv W).failedFile hi h.2.1, fun _ hp => ?_, fun hs _ on => ⟨?_, ?_⟩⟩
    · rw [h.1.1.new.2 i hi]; exact hp
    · rw [h.1.1.new.2 i hi]
    · exact Unsplit.new h hi rfl rfl (fun hs => rfl) hs on
  file := fun {i s s' path} hi hp h => by
    have hl := h.1.1.new.1
    have ei : ((s'.link i s.heap.length).heap.get i) =
        { (s.heap.get i) with children := (s.heap.get i).children ++ [s.heap.length] } := by
      simp only [St.link]
      rw [Heap.get_upd_eq _ _ (by omega), h.1.1.new.2 i hi]
    refine ⟨(Grow.inv W).file hi hp h.1, (KeepsSound.inv W).file hi hp h.2.1, fun _ hp => ?_, fun hs _ on => ⟨?_, fun j h1 h2 => ?_⟩⟩
    · rw [ei]; exact hp
    · rw [ei]
    · have := Unsplit.new h hi rfl rfl (fun hs => rfl) hs on j h1 (by simpa [St.link, Heap.length_upd] using h2)
      simp only [St.link]
      rw [Heap.get_field (g := Sec.split) (hg := ?_)]
      · exact this
      · exact fun _ => rfl
  remember := fun _ _ _ _ _ h => h

end Booklit
