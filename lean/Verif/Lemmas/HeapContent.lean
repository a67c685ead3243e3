import Verif.Lemmas.Sound
import Verif.Lemmas.AuxL

/-!
A condition on contents that evaluation keeps holds for everything stored in the sections.
-/

namespace Booklit

variable {W : World} {P : Content → Prop}

/-- Title, body and partials satisfy `P`. -/
def SecOk (P : Content → Prop) (x : Sec) : Prop := P x.title ∧ P x.body ∧ ∀ p ∈ x.partials, P p.2

/-- All sections do. -/
def HeapOk (P : Content → Prop) (h : Heap) : Prop := ∀ j, j < h.length → SecOk P (h.get j)

theorem HeapOk.upd {h : Heap} (hs : HeapOk P h) (i : Nat) (f : Sec → Sec)
    (hf : i < h.length → SecOk P (h.get i) → SecOk P (f (h.get i))) : HeapOk P (h.upd i f) := by
  intro j hj
  rw [Heap.length_upd] at hj
  by_cases e : j = i
  · subst e
    rw [Heap.get_upd_eq _ _ hj]
    exact hf hj (hs j hj)
  · rw [Heap.get_upd_ne _ _ e]
    exact hs j hj

theorem HeapOk.add {h : Heap} (hs : HeapOk P h) (x : Sec) (hx : SecOk P x) : HeapOk P (h ++ [x]) := by
  intro j hj
  by_cases e : j < h.length
  · rw [Heap.get_append_lt _ _ e]; exact hs j e
  · have : j = h.length := by simp at hj; omega
    subst this
    rw [Heap.get_append_eq]
    exact hx

def KeepsContent (P : Content → Prop) (_ : Nat) (s s' : St) : Prop :=
  s.heap.length ≤ s'.heap.length ∧ (HeapOk P s.heap → HeapOk P s'.heap)

theorem Upd.secOk {h : Heap} {i : Nat} {f : Sec → Sec} (u : Upd W P h i f) (hx : SecOk P (h.get i)) : SecOk P (f (h.get i)) := by
  cases u with
  | title ht hn t hc l hl => exact ⟨hc, hx.2⟩
  | partial_ n c hc =>
    refine ⟨hx.1, hx.2.1, fun p hp => ?_⟩
    simp only [Sec.setPartial, List.mem_cons, List.mem_filter] at hp
    rcases hp with rfl | hp
    · exact hc
    · exact hx.2.2 p hp.1
  | _ => exact hx

theorem KeepsContent.inv (C : ContentInv W P) : EvalInv W P (KeepsContent P) where
  refl := fun i s => ⟨Nat.le_refl _, id⟩
  trans := fun h h' => ⟨Nat.le_trans h.1 h'.1, fun x => h'.2 (h.2 x)⟩
  len := fun h => h.1
  upd := fun {i s f} _ u => ⟨by simp [Heap.length_upd], fun hs => hs.upd i f fun _ hx => u.secOk hx⟩
  content := C
  body := fun {i s} c _ hc => ⟨by simp [Heap.length_upd], fun hs => hs.upd i _ fun _ hx => ⟨hx.1, hc, hx.2.2⟩⟩
  failed := fun {i s s'} hi h => by
    have hl := h.1
    simp [St.inline] at hl
    exact ⟨by omega, fun hs => h.2 (hs.add _ ⟨C.str [], C.str [], by simp [Sec.fresh]⟩)⟩
  inline := fun {i s s'} hi h => by
    have hl := h.1
    simp [St.inline] at hl
    refine ⟨by simp [St.linkInline, Heap.length_upd]; omega, fun hs => ?_⟩
    have := h.2 (hs.add _ ⟨C.str [], C.str [], by simp [Sec.fresh]⟩)
    simp only [St.linkInline]
    apply HeapOk.upd
    · apply HeapOk.upd this
      exact fun _ hx => hx
    · exact fun _ hx => hx
  failedFile := fun {i s s' path} hi h => by
    have hl := h.1
    simp [St.file] at hl
    exact ⟨by omega, fun hs => h.2 (hs.add _ ⟨C.str [], C.str [], by simp [Sec.fresh]⟩)⟩
  file := fun {i s s' path} hi _ h => by
    have hl := h.1
    simp [St.file] at hl
    refine ⟨by simp [St.link, Heap.length_upd]; omega, fun hs => ?_⟩
    have := h.2 (hs.add _ ⟨C.str [], C.str [], by simp [Sec.fresh]⟩)
    exact this.upd _ _ fun _ hx => hx
  remember := fun _ _ _ _ _ h => h

theorem MoreTags.heapOk {h h' : Heap} (m : MoreTags h h') (hs : HeapOk P h) : HeapOk P h' := by
  intro j hj
  rw [m.1] at hj
  obtain ⟨gs, e⟩ := m.2 j
  rw [e]
  exact hs j hj

theorem evalFile_heapOk (C : ContentInv W P) {n : Nat} {parent : Option Nat} {path : Str} {plugins : List Nat} {s : St}
    (hs : HeapOk P s.heap) : HeapOk P (evalFile W n parent path plugins s).2.heap := by
  have hfile : HeapOk P (s.file parent path plugins).heap := hs.add _ ⟨C.str [], C.str [], by simp [Sec.fresh]⟩
  rcases keeps_file (KeepsContent.inv C) n parent path plugins s with ⟨e, h⟩ | h | h | ⟨s', ⟨h1, h2⟩ | ⟨h1, h2, h3⟩⟩
  · rw [h]; exact hs
  · rw [h]; exact hs
  · rw [h]; exact hs
  · rw [h1]; exact h2.2 hfile
  · rw [h2]; exact h3.2 hfile

theorem Reach.heapOk (C : ContentInv W P) {s : St} (h : Reach W s) : HeapOk P s.heap := by
  induction h with
  | start => intro j hj; simp at hj
  | @load s n parent path plugins _ hp h0 ih =>
    have heval := evalFile_heapOk C (n := n) (parent := parent) (path := path) (plugins := plugins) ih
    rw [loadFile_run]
    revert heval
    cases evalFile W n parent path plugins s with
    | mk r s' =>
      cases r with
      | ok i =>
        intro heval
        dsimp only
        cases hc : s'.heap.collect n i with
        | ok h => exact (collect_more n _ _ _ hc).heapOk heval
        | _ => exact heval
      | _ => exact id

/-! ### Conditions on all parts of a content -/

/-- Evaluation keeps a condition on all parts when it holds of what evaluation itself makes. -/
theorem contentInv_all {p : Content → Bool} (W : World)
    (str : ∀ s, p (.str s) = true) (nil : p .nil = true) (seq : ∀ cs, p (.seq cs) = true)
    (para : ∀ {xs}, xs ≠ [] → (∀ x, xs = [x] → isFlow x = some true) → p (.para xs) = true)
    (pre : ∀ xs, p (.pre xs) = true) (aux : ∀ c, p (.aux c) = true) (toc : ∀ i, p (.toc i) = true)
    (styled : ∀ s c, p (.styled s false c []) = true) (link : ∀ c u, p (.link c u) = true)
    (ref : ∀ i t c l, p (.ref i t c false l) = true) (target : ∀ t l a c, p (.target t l a c) = true)
    (list : ∀ xs o, p (.list xs o) = true) (image : ∀ a b, p (.image a b) = true)
    (table : ∀ rows, p (.table rows) = true) (defs : ∀ ds, p (.defs ds) = true)
    (foreign : ∀ {q name f} h i args, W.foreign q name = some f → (∀ c, Raw.content c ∈ args → c.all p = true) →
      (∀ c, f.run h i args = .content c → c.all p = true) ∧ (∀ c, f.run h i args = .both c none → c.all p = true)) :
    ContentInv W fun c => c.all p = true where
  str := fun s => by simp [Content.all, str]
  append := fun {r c} hr hc => by
    simp only [Booklit.append]
    split
    · next hn =>
      cases c with
      | nil =>
        cases r with
        | nil => simp [Content.all, nil]
        | _ => exact hr rfl
      | _ => simp [Content.isNil] at hn
    · cases r with
      | nil => exact hc
      | seq cs =>
        have := hr rfl
        simp only [Content.all, Bool.and_eq_true, allL_iff] at this ⊢
        refine ⟨seq _, fun x hx => ?_⟩
        rcases List.mem_append.1 hx with hx | hx
        · exact this.2 x hx
        · rw [List.mem_singleton.1 hx]; exact hc
      | _ =>
        have := hr rfl
        dsimp only
        rw [Content.all, allL, allL, allL, this, hc, seq]
        rfl
  para := fun {xs} hne hx hf => by
    simp only [Content.all, Bool.and_eq_true, allL_iff]
    exact ⟨para hne hf, hx⟩
  pre := fun {xs} hx => by simp only [Content.all, Bool.and_eq_true, allL_iff]; exact ⟨pre _, hx⟩
  aux := fun {c} hc => by simp only [Content.all, Bool.and_eq_true]; exact ⟨aux _, hc⟩
  toc := fun i => by simp [Content.all, toc]
  styled := fun {c} s hc => by simp [Content.all, allP, styled, hc]
  link := fun {c} u hc => by simp [Content.all, link, hc]
  ref := fun {c} i t l hc => by
    simp only [Content.all, ref, Bool.true_and]
    cases c with
    | nil => simp [Content.all, nil]
    | _ => exact hc rfl
  target := fun {ti c} t l h1 hc => by
    simp only [Content.all, target, h1, Bool.true_and]
    cases c with
    | nil => simp [Content.all, nil]
    | _ => exact hc rfl
  list := fun {xs} o hx => by simp only [Content.all, Bool.and_eq_true, allL_iff]; exact ⟨list _ _, hx⟩
  items := fun {xs o} h => by simp only [Content.all, Bool.and_eq_true, allL_iff] at h; exact h.2
  image := fun a b => by simp [Content.all, image]
  table := fun {rows} h => by simp only [Content.all, Bool.and_eq_true, allR_iff]; exact ⟨table _, h⟩
  defs := fun {ds} h => by simp only [Content.all, Bool.and_eq_true, allD_iff]; exact ⟨defs _, h⟩
  foreign := fun h i args hf ha =>
    ⟨fun c hc _ => (foreign h i args hf ha).1 c hc, fun c hc _ => (foreign h i args hf ha).2 c hc⟩

end Booklit
