import Verif.Lemmas.Sound

/-!
A proof rule for properties of single sections: what every write to a section keeps holds of every section in every
state reached by loading documents.
-/

namespace Booklit

structure SecInv (W : World) (P : Content → Prop) (Q : Nat → Sec → Prop) : Prop where
  content : ContentInv W P
  fresh : ∀ i parent path plugins, Q i { Sec.fresh parent path with plugins := plugins }
  upd : ∀ {h : Heap} {i f}, Upd W P h i f → Q i (h.get i) → Q i (f (h.get i))
  body : ∀ {i x} c, P c → Q i x → Q i { x with body := c }
  loc : ∀ {i x} l, Q i x → Q i { x with loc := l }
  child : ∀ {i x} c, Q i x → Q i { x with children := x.children ++ [c] }
  tags : ∀ {i x} (ts : List Target), Q i x → Q i { x with tags := x.tags ++ ts.map (Target.tag i) }

/-- Holds of all sections. -/
def AllSec (Q : Nat → Sec → Prop) (h : Heap) : Prop := ∀ i, i < h.length → Q i (h.get i)

variable {W : World} {P : Content → Prop} {Q : Nat → Sec → Prop}

theorem AllSec.upd {h : Heap} (ha : AllSec Q h) {i : Nat} {f : Sec → Sec} (hf : Q i (h.get i) → Q i (f (h.get i))) :
    AllSec Q (h.upd i f) := by
  intro j hj
  rw [Heap.length_upd] at hj
  by_cases e : j = i
  · subst e
    rw [Heap.get_upd_eq _ _ hj]
    exact hf (ha j hj)
  · rw [Heap.get_upd_ne _ _ e]
    exact ha j hj

theorem AllSec.add {h : Heap} (ha : AllSec Q h) {x : Sec} (hx : Q h.length x) : AllSec Q (h ++ [x]) := by
  intro j hj
  by_cases e : j < h.length
  · rw [Heap.get_append_lt _ _ e]; exact ha j e
  · have : j = h.length := by simp at hj; omega
    subst this
    rw [Heap.get_append_eq]
    exact hx

def KeepsSec (Q : Nat → Sec → Prop) (_ : Nat) (s s' : St) : Prop :=
  s.heap.length ≤ s'.heap.length ∧ (AllSec Q s.heap → AllSec Q s'.heap)

theorem SecInv.inv (I : SecInv W P Q) : EvalInv W P (KeepsSec Q) where
  refl := fun _ s => ⟨Nat.le_refl _, id⟩
  trans := fun h h' => ⟨Nat.le_trans h.1 h'.1, h'.2 ∘ h.2⟩
  len := fun h => h.1
  upd := fun _ u => ⟨by simp [Heap.length_upd], fun h => h.upd (I.upd u)⟩
  content := I.content
  body := fun c _ hc => ⟨by simp [Heap.length_upd], fun h => h.upd (I.body c hc)⟩
  failed := fun {i s s'} hi h => by
    have hl := h.1
    simp [St.inline] at hl
    exact ⟨by omega, fun hs => h.2 (hs.add (I.fresh _ _ _ _))⟩
  inline := fun {i s s'} hi h => by
    have hl := h.1
    simp [St.inline] at hl
    refine ⟨by simp [St.linkInline, Heap.length_upd]; omega, fun hs => ?_⟩
    have := h.2 (hs.add (I.fresh _ _ _ _))
    simp only [St.linkInline]
    exact (this.upd (I.loc _)).upd (I.child _)
  failedFile := fun {i s s' path} hi h => by
    have hl := h.1
    simp [St.file] at hl
    exact ⟨by omega, fun hs => h.2 (hs.add (I.fresh _ _ _ _))⟩
  file := fun {i s s' path} hi _ h => by
    have hl := h.1
    simp [St.file] at hl
    refine ⟨by simp [St.link, Heap.length_upd]; omega, fun hs => ?_⟩
    have := h.2 (hs.add (I.fresh _ _ _ _))
    exact this.upd (I.child _)
  remember := fun _ _ _ _ _ h => h

theorem SecInv.addTargets (I : SecInv W P Q) {h : Heap} (ha : AllSec Q h) (i : Nat) (ts : List Target) :
    AllSec Q (h.addTargets i ts) := by
  intro j hj
  rw [Heap.length_addTargets] at hj
  by_cases e : j = i
  · subst e
    rw [Heap.get_addTargets_eq ts h hj]
    exact I.tags ts (ha j hj)
  · rw [Heap.get_addTargets_ne e]; exact ha j hj

mutual
theorem SecInv.collect (I : SecInv W P Q) : ∀ (n : Nat) (h : Heap) (i : Nat) (h' : Heap), h.collect n i = .ok h' →
    AllSec Q h → AllSec Q h'
  | 0, h, i, h', e, _ => by cases e
  | n + 1, h, i, h', e, ha => by
    rw [collect_succ] at e
    split at e
    · cases e
    · exact SecInv.collectAll I n _ _ h' e (I.addTargets ha i _)
theorem SecInv.collectAll (I : SecInv W P Q) : ∀ (n : Nat) (cs : List Nat) (h : Heap) (h' : Heap), h.collectAll n cs = .ok h' →
    AllSec Q h → AllSec Q h'
  | n, [], h, h', e, ha => by cases e; exact ha
  | n, c :: cs, h, h', e, ha => by
    rw [collectAll_cons] at e
    cases hc : h.collect n c with
    | ok h1 =>
      rw [hc] at e
      exact SecInv.collectAll I n cs h1 h' e (SecInv.collect I n h c h1 hc ha)
    | err _ => rw [hc] at e; cases e
    | panic => rw [hc] at e; cases e
    | more => rw [hc] at e; cases e
end

theorem SecInv.reach (I : SecInv W P Q) {s : St} (h : Reach W s) : AllSec Q s.heap := by
  induction h with
  | start => intro i hi; simp at hi
  | @load s n parent path plugins _ hp h0 ih =>
    have hfile : AllSec Q (s.file parent path plugins).heap := ih.add (I.fresh _ _ _ _)
    have heval : AllSec Q (evalFile W n parent path plugins s).2.heap := by
      rcases keeps_file I.inv n parent path plugins s with ⟨e, h⟩ | h | h | ⟨s', ⟨h1, h2⟩ | ⟨h1, h2, h3⟩⟩
      · rw [h]; exact ih
      · rw [h]; exact ih
      · rw [h]; exact ih
      · rw [h1]; exact h2.2 hfile
      · rw [h2]; exact h3.2 hfile
    rw [loadFile_run]
    revert heval
    cases evalFile W n parent path plugins s with
    | mk r s' =>
      cases r with
      | ok i =>
        intro heval
        dsimp only
        cases hc : s'.heap.collect n i with
        | ok h => exact I.collect n _ _ _ hc heval
        | _ => exact heval
      | _ => exact id

/-- Tags belong to the section that has them. A section without tags of its own (unanchored ones) has the zero primary
tag and no title; otherwise the primary tag is the first of its own tags, which come first and all have the title. -/
def OwnTags (i : Nat) (x : Sec) : Prop :=
  ∃ own anchored, x.tags = own ++ anchored ∧ (∀ g ∈ own ++ anchored, g.sec = some i) ∧
    (∀ g ∈ own, g.anchor = [] ∧ g.title = x.title) ∧ (∀ g ∈ anchored, g.anchor = g.name) ∧
    x.primaryTag = own.headD Tag.zero ∧ (own = [] → x.title = .str [])

theorem OwnTags.inv (W : World) : SecInv W (fun _ => True) OwnTags where
  content := ContentInv.true W
  fresh := fun i parent path plugins => ⟨[], [], rfl, by simp, by simp, by simp, rfl, fun _ => rfl⟩
  upd := fun {h i f} u hq => by
    cases u with
    | title ht hn t hc l hl =>
      refine ⟨_, [], (List.append_nil _).symm, ?_, ?_, by simp, rfl, ?_⟩
      · intro g hg
        simp only [List.append_nil, List.mem_map] at hg
        obtain ⟨n, _, rfl⟩ := hg
        rfl
      · intro g hg
        simp only [List.mem_map] at hg
        obtain ⟨n, _, rfl⟩ := hg
        exact ⟨rfl, rfl⟩
      · intro e
        exact (hn (List.map_eq_nil_iff.1 e)).elim
    | _ => exact hq
  body := fun _ _ h => h
  loc := fun _ h => h
  child := fun _ h => h
  tags := fun {i x} ts h => by
    obtain ⟨own, an, h1, h2, h3, h4, h5, h6⟩ := h
    refine ⟨own, an ++ ts.map (Target.tag i), by simp [h1], ?_, h3, ?_, h5, h6⟩
    · intro g hg
      rw [← List.append_assoc, List.mem_append] at hg
      rcases hg with hg | hg
      · exact h2 g hg
      · obtain ⟨t, _, rfl⟩ := List.mem_map.1 hg
        rfl
    · intro g hg
      rcases List.mem_append.1 hg with hg | hg
      · exact h4 g hg
      · obtain ⟨t, _, rfl⟩ := List.mem_map.1 hg
        rfl

end Booklit
