import Verif.Lemmas.ClosedL
import Verif.Lemmas.CallsL
import Verif.Spec.Origin

/-!
Two runs of the same evaluation with different fuel: neither crashes, and they agree.
-/

namespace Booklit

variable {W : World}

theorem FileOf.filePath {h : Heap} {i : Nat} {p : Str} (f : FileOf h i p) : ∀ {n : Nat} {p' : Str},
    h.filePath n i = some p' → p' = p := by
  induction f with
  | own hp =>
    intro n p' e
    cases n with
    | zero => cases e
    | succ n => rw [Heap.filePath, if_pos (by simpa using hp)] at e; cases e; rfl
  | up hp hj _ ih =>
    intro n p' e
    cases n with
    | zero => cases e
    | succ n => rw [Heap.filePath, if_neg (by simpa using hp), hj] at e; exact ih e
  | top hp hj =>
    intro n p' e
    cases n with
    | zero => cases e
    | succ n => rw [Heap.filePath, if_neg (by simpa using hp), hj] at e; cases e; rfl

theorem FileOf.keep {h h' : Heap} (hs : Sound h) (he : ∀ j, j < h.length →
    (h'.get j).path = (h.get j).path ∧ (h'.get j).parent = (h.get j).parent) {i : Nat} {p : Str} (f : FileOf h i p) :
    i < h.length → FileOf h' i p := by
  induction f with
  | own hp => intro hi; rw [← (he _ hi).1] at hp ⊢; exact .own hp
  | up hp hj _ ih =>
    intro hi
    exact .up (by rw [(he _ hi).1]; exact hp) (by rw [(he _ hi).2]; exact hj) (ih (by have := (hs _ hi).1 _ hj; omega))
  | top hp hj => intro hi; exact .top (by rw [(he _ hi).1]; exact hp) (by rw [(he _ hi).2]; exact hj)

/-- A state in which section `i` of file `p` is evaluated. `C` is what is known of cached nodes. -/
structure Ok (C : Str → Node → Prop) (p : Str) (i : Nat) (s : St) : Prop where
  lt : i < s.heap.length
  sound : Sound s.heap
  cache : ∀ e ∈ s.cache, C e.1 e.2.1
  file : FileOf s.heap i p

variable {C : Str → Node → Prop}

theorem Ok.filePath {p : Str} {i : Nat} {s : St} (o : Ok C p i s) : s.heap.filePath (s.heap.length + 1) i = some p := by
  have := o.lt
  obtain ⟨q, hq⟩ := o.sound.filePath i (s.heap.length + 1) o.lt (by omega)
  rw [hq, o.file.filePath hq]

theorem Ok.upd {p : Str} {i j : Nat} {s : St} (o : Ok C p i s) (f : Sec → Sec)
    (hf : ∀ x, (f x).parent = x.parent ∧ (f x).path = x.path ∧ (x.plugins.head? = some 0 → (f x).plugins.head? = some 0)) :
    Ok C p i { s with heap := s.heap.upd j f } := by
  refine ⟨by simpa [Heap.length_upd] using o.lt, o.sound.upd j f fun x => ⟨(hf x).1, (hf x).2.2⟩, o.cache, ?_⟩
  refine o.file.keep o.sound (fun j' _ => ?_) o.lt
  exact ⟨Heap.get_field s.heap j j' f Sec.path fun x => (hf x).2.1, Heap.get_field s.heap j j' f Sec.parent fun x => (hf x).1⟩

/-- Results that agree, are no panic, and are not out of fuel unless `A`. -/
inductive RRel (A : Prop) {α β : Type} (Q : α → β → Prop) : Res α → Res β → Prop
  | ok {a : α} {b : β} : Q a b → RRel A Q (.ok a) (.ok b)
  | err (e : Err) : RRel A Q (.err e) (.err e)
  | more : A → RRel A Q .more .more

theorem RRel.weaken {A : Prop} {α β : Type} {Q Q' : α → β → Prop} {r : Res α} {r' : Res β} (h : RRel A Q r r')
    (hq : ∀ a b, r = .ok a → Q a b → Q' a b) : RRel A Q' r r' := by
  cases h with
  | ok h => exact .ok (hq _ _ rfl h)
  | err e => exact .err e
  | more h => exact .more h

/-- Two computations that agree. -/
def Both (A : Prop) (G : St → Prop) {α β : Type} (m : M α) (m' : M β) (Q : α → β → Prop) : Prop :=
  ∀ s, G s → (m s).2 = (m' s).2 ∧ G (m s).2 ∧ RRel A Q (m s).1 (m' s).1

variable {A : Prop} {G : St → Prop}

theorem both_pure {α β : Type} {a : α} {b : β} {Q : α → β → Prop} (h : Q a b) : Both A G (Pure.pure a : M α) (Pure.pure b) Q :=
  fun _ hs => ⟨rfl, hs, .ok h⟩

theorem both_err {α β : Type} {e : Err} {Q : α → β → Prop} : Both A G (M.lift (.err e) : M α) (M.lift (.err e)) Q :=
  fun _ hs => ⟨rfl, hs, .err e⟩

theorem both_bind {α β γ δ : Type} {m : M α} {m' : M β} {f : α → M γ} {f' : β → M δ} {Q : α → β → Prop} {Q' : γ → δ → Prop}
    (hm : Both A G m m' Q) (hf : ∀ a b, Q a b → Both A G (f a) (f' b) Q') : Both A G (m >>= f) (m' >>= f') Q' := by
  intro s hs
  obtain ⟨e, hg, hr⟩ := hm s hs
  simp only [M.bind_run, M.bind]
  revert e hg hr
  cases m s with
  | mk r s1 =>
    cases m' s with
    | mk r' s1' =>
      intro e hg hr
      dsimp only at e hg hr
      subst e
      cases hr with
      | ok h => exact hf _ _ h s1 hg
      | err e => exact ⟨rfl, hg, .err e⟩
      | more h => exact ⟨rfl, hg, .more h⟩

/-- With a known state. -/
theorem both_get {α β : Type} {f : St → M α} {f' : St → M β} {Q : α → β → Prop}
    (h : ∀ s, G s → (f s s).2 = (f' s s).2 ∧ G (f s s).2 ∧ RRel A Q (f s s).1 (f' s s).1) :
    Both A G (M.get >>= f) (M.get >>= f') Q := h

theorem both_weaken {α β : Type} {m : M α} {m' : M β} {Q Q' : α → β → Prop} (h : Both A G m m' Q) (hq : ∀ a b, Q a b → Q' a b) :
    Both A G m m' Q' := by
  intro s hs
  obtain ⟨e, hg, hr⟩ := h s hs
  exact ⟨e, hg, hr.weaken fun a b _ => hq a b⟩

/-- A condition on the results of one of the runs can be added. -/
theorem both_yields {α : Type} {m m' : M α} {Q : α → α → Prop} {P : α → Prop} (h : Both A G m m' Q) (hy : Yields m P) :
    Both A G m m' fun a b => Q a b ∧ P a := by
  intro s hs
  obtain ⟨e, hg, hr⟩ := h s hs
  refine ⟨e, hg, hr.weaken fun a b ha hq => ⟨hq, hy s a (m s).2 ?_⟩⟩
  rw [← ha]

theorem both_attempt {α : Type} {m m' : M α} {Q : α → α → Prop} (h : Both A G m m' Q) :
    Both A G (M.attempt m) (M.attempt m') (· = ·) := by
  intro s hs
  obtain ⟨e, hg, hr⟩ := h s hs
  simp only [M.attempt]
  revert e hg hr
  cases m s with
  | mk r s1 =>
    cases m' s with
    | mk r' s1' =>
      intro e hg hr
      dsimp only at e hg hr
      subst e
      cases hr with
      | ok h => exact ⟨rfl, hg, .ok rfl⟩
      | err e => exact ⟨rfl, hg, .ok rfl⟩
      | more h => exact ⟨rfl, hg, .more h⟩

theorem both_upd {p : Str} {i j : Nat} (f : Sec → Sec) (hf : ∀ x, (f x).parent = x.parent ∧ (f x).path = x.path ∧
    (x.plugins.head? = some 0 → (f x).plugins.head? = some 0)) : Both A (Ok C p i) (M.upd j f) (M.upd j f) (· = ·) :=
  fun _ hs => ⟨rfl, hs.upd f hf, .ok rfl⟩

theorem both_filePath {p : Str} {i : Nat} : Both A (Ok C p i) (filePathM i) (filePathM i) fun a b => a = p ∧ b = p := by
  intro s hs
  refine ⟨rfl, hs, ?_⟩
  simp only [filePathM]
  rw [hs.filePath]
  exact .ok ⟨rfl, rfl⟩

/-- Nothing or a shut content. -/
def ShutR (c : Content) : Prop := c.isNil = false → c.shut = true

/-- Content made of the texts `t`. -/
def Lit (c : Content) (t : Str) : Prop :=
  (c = .nil ∧ t = []) ∨ c = .str t ∨ ∃ ss : List Str, c = .seq (ss.map .str) ∧ t = ss.flatten

theorem Lit.append {c : Content} {t : Str} (h : Lit c t) (s : Str) : Lit (Booklit.append c [.str s]) (t ++ s) := by
  rcases h with ⟨rfl, rfl⟩ | rfl | ⟨ss, rfl, rfl⟩
  · exact .inr (.inl rfl)
  · exact .inr (.inr ⟨[t, s], rfl, by simp⟩)
  · exact .inr (.inr ⟨ss ++ [s], by simp [Booklit.append, Content.isNil], by simp⟩)

/-- What is known of the result of evaluating a node after `r`. -/
structure ResOk (n : Node) (r a : Content) : Prop where
  yields : n.yields = true ∨ r.isNil = false → a.isNil = false
  shut : n.closed = true → ShutR r → ShutR a
  literal : ∀ x, n.literal = some x → ∀ y, Lit r y → Lit a (y ++ x)

theorem append_not_nil {r c : Content} (h : c.isNil = false) : (append r [c]).isNil = false := by
  simp only [append, h, Bool.false_eq_true, if_false]
  cases r with
  | nil => exact h
  | _ => rfl

theorem append_shut {r c : Content} (hr : ShutR r) (hc : c.shut = true) : (append r [c]).shut = true := by
  have hn : c.isNil = false := by have := all_self hc; simp at this; exact this.1
  simp only [append, hn, Bool.false_eq_true, if_false]
  cases r with
  | nil => exact hc
  | seq cs =>
    have := hr rfl
    simp only [Content.shut, Content.all, Bool.and_eq_true, allL_iff] at this hc ⊢
    refine ⟨⟨rfl, rfl⟩, fun x hx => ?_⟩
    rcases List.mem_append.1 hx with hx | hx
    · exact this.2 x hx
    · rw [List.mem_singleton.1 hx]; exact hc
  | _ =>
    have := hr rfl
    simp only [Content.shut] at this hc ⊢
    rw [Content.all, allL, allL, allL, this, hc]
    rfl

end Booklit
