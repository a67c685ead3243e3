import Verif.Lemmas.EvalInv
import Verif.Lemmas.TreeL

/-!
Instances of the proof rule: what evaluation leaves alone, and the trees it builds.
-/

namespace Booklit

theorem Heap.length_upd (h : Heap) (i : Nat) (f : Sec → Sec) : (h.upd i f).length = h.length := by
  simp [Heap.upd]

theorem Heap.get_upd_ne (h : Heap) {i j : Nat} (f : Sec → Sec) (e : j ≠ i) : (h.upd i f).get j = h.get j := by
  simp [Heap.get, Heap.upd, List.getD_eq_getElem?_getD, Ne.symm e]

theorem Heap.get_upd_eq (h : Heap) {i : Nat} (f : Sec → Sec) (hi : i < h.length) : (h.upd i f).get i = f (h.get i) := by
  simp [Heap.get, Heap.upd, List.getD_eq_getElem?_getD, hi]

theorem Heap.get_append_lt (h : Heap) (x : Sec) {j : Nat} (hj : j < h.length) : Heap.get (h ++ [x]) j = h.get j := by
  simp [Heap.get, List.getD_eq_getElem?_getD, List.getElem?_append_left hj]

theorem Heap.get_append_eq (h : Heap) (x : Sec) : Heap.get (h ++ [x]) h.length = x := by
  simp [Heap.get, List.getD_eq_getElem?_getD]

/-- Sections other than `i` are left alone. -/
def Frame (i : Nat) (s s' : St) : Prop :=
  s.heap.length ≤ s'.heap.length ∧ ∀ j, j < s.heap.length → j ≠ i → s'.heap.get j = s.heap.get j

theorem Frame.refl (i : Nat) (s : St) : Frame i s s := ⟨Nat.le_refl _, fun _ _ _ => rfl⟩

theorem Frame.trans {i : Nat} {s s' s'' : St} (h : Frame i s s') (h' : Frame i s' s'') : Frame i s s'' :=
  ⟨Nat.le_trans h.1 h'.1, fun j hj hn => (h'.2 j (Nat.lt_of_lt_of_le hj h.1) hn).trans (h.2 j hj hn)⟩

theorem Frame.upd (i : Nat) (s : St) (f : Sec → Sec) : Frame i s { s with heap := s.heap.upd i f } :=
  ⟨by simp [Heap.length_upd], fun j _ hn => Heap.get_upd_ne _ _ hn⟩

/-- An evaluation in a new section leaves all the old ones alone. -/
theorem Frame.new {x : Sec} {s s' : St} (h : Frame s.heap.length { s with heap := s.heap ++ [x] } s') :
    s.heap.length < s'.heap.length ∧ ∀ j, j < s.heap.length → s'.heap.get j = s.heap.get j := by
  have hl : s.heap.length < s'.heap.length := by have := h.1; simp at this; omega
  refine ⟨hl, fun j hj => ?_⟩
  rw [h.2 j (by simp; omega) (by omega)]
  exact Heap.get_append_lt _ _ hj

theorem Frame.inv (W : World) : EvalInv W (fun _ => True) Frame where
  refl := Frame.refl
  trans := Frame.trans
  len := fun h => h.1
  upd := fun _ _ => Frame.upd _ _ _
  content := ContentInv.true W
  body := fun _ _ _ => Frame.upd _ _ _
  failed := fun {i s s'} _ h => ⟨Nat.le_of_lt h.new.1, fun j hj _ => h.new.2 j hj⟩
  inline := fun {i s s'} _ h => by
    refine ⟨by simp [St.linkInline, Heap.length_upd]; exact Nat.le_of_lt h.new.1, fun j hj hn => ?_⟩
    simp only [St.linkInline]
    rw [Heap.get_upd_ne _ _ hn, Heap.get_upd_ne _ _ (by omega)]
    exact h.new.2 j hj
  failedFile := fun {i s s' path} _ h => ⟨Nat.le_of_lt h.new.1, fun j hj _ => h.new.2 j hj⟩
  file := fun {i s s' path} _ _ h => by
    refine ⟨by simp [St.link, Heap.length_upd]; exact Nat.le_of_lt h.new.1, fun j hj hn => ?_⟩
    simp only [St.link]
    rw [Heap.get_upd_ne _ _ hn]
    exact h.new.2 j hj
  remember := fun _ _ _ _ _ h => h

/-- Trees of sections below section `p`, all between `lo` and `hi`. -/
structure Forest (h : Heap) (lo p : Nat) (ts : List Tree) : Prop where
  nodup : (Tree.idsL ts).Nodup
  range : ∀ j ∈ Tree.idsL ts, lo ≤ j ∧ j < h.length
  top : ∀ t ∈ ts, (h.get t.root).parent = some p
  children : ∀ t ∈ ts, ∀ s, t.Sub s → (h.get s.root).children = s.kids.map Tree.root
  parent : ∀ t ∈ ts, ∀ s, t.Sub s → ∀ k ∈ s.kids, (h.get k.root).parent = some s.root

/-- Evaluation in section `i` adds trees of new sections to its children. -/
def Grow (i : Nat) (s s' : St) : Prop :=
  Frame i s s' ∧ (i < s.heap.length → (s'.heap.get i).parent = (s.heap.get i).parent ∧
    (s'.heap.get i).path = (s.heap.get i).path ∧
    ∃ ts, (s'.heap.get i).children = (s.heap.get i).children ++ ts.map Tree.root ∧
      Forest s'.heap s.heap.length i ts)

theorem Tree.idsL_append : ∀ (ts us : List Tree), Tree.idsL (ts ++ us) = Tree.idsL ts ++ Tree.idsL us
  | [], us => rfl
  | t :: ts, us => by simp [Tree.idsL, Tree.idsL_append ts us]

theorem Tree.mem_idsL : ∀ {ts : List Tree} {j : Nat}, j ∈ Tree.idsL ts ↔ ∃ t ∈ ts, j ∈ t.ids
  | [], j => by simp [Tree.idsL]
  | t :: ts, j => by simp [Tree.idsL, Tree.mem_idsL (ts := ts)]

theorem Tree.root_mem_ids (t : Tree) : t.root ∈ t.ids := by
  cases t; simp [Tree.ids, Tree.root]

theorem Tree.Sub.root_mem {t s : Tree} (h : t.Sub s) : s.root ∈ t.ids := by
  rw [Tree.mem_ids]
  exact ⟨s, h, rfl⟩

theorem Forest.nil (h : Heap) (lo p : Nat) : Forest h lo p [] := by
  constructor <;> simp [Tree.idsL]

/-- Forests do not depend on other sections. -/
theorem Forest.keep {h h' : Heap} {lo p : Nat} {ts : List Tree} (f : Forest h lo p ts) (hl : h.length ≤ h'.length)
    (he : ∀ j ∈ Tree.idsL ts, (h'.get j).children = (h.get j).children ∧ (h'.get j).parent = (h.get j).parent) :
    Forest h' lo p ts := by
  have hsub : ∀ t ∈ ts, ∀ s, t.Sub s → s.root ∈ Tree.idsL ts := fun t ht s hs =>
    Tree.mem_idsL.2 ⟨t, ht, hs.root_mem⟩
  refine ⟨f.nodup, fun j hj => ⟨(f.range j hj).1, Nat.lt_of_lt_of_le (f.range j hj).2 hl⟩, fun t ht => ?_,
    fun t ht s hs => ?_, fun t ht s hs k hk => ?_⟩
  · rw [(he _ (Tree.mem_idsL.2 ⟨t, ht, t.root_mem_ids⟩)).2]; exact f.top t ht
  · rw [(he _ (hsub t ht s hs)).1]; exact f.children t ht s hs
  · obtain ⟨ks, hks⟩ := hs
    obtain ⟨m, hm, rfl⟩ := List.getElem_of_mem hk
    have : t.Sub (s.kids[m]) := ⟨ks ++ [m], .step hks (by simp [hm])⟩
    rw [(he _ (hsub t ht _ this)).2]; exact f.parent t ht s ⟨ks, hks⟩ _ hk

theorem Forest.append {h : Heap} {lo mid p : Nat} {ts us : List Tree} (f : Forest h lo p ts) (hb : ∀ j ∈ Tree.idsL ts, j < mid)
    (hm : lo ≤ mid) (g : Forest h mid p us) : Forest h lo p (ts ++ us) := by
  refine ⟨?_, ?_, ?_, ?_, ?_⟩
  · rw [Tree.idsL_append, List.nodup_append]
    refine ⟨f.nodup, g.nodup, fun a ha b hb' e => ?_⟩
    have := hb a ha
    have := (g.range b hb').1
    omega
  · intro j hj
    rw [Tree.idsL_append, List.mem_append] at hj
    rcases hj with hj | hj
    · exact f.range j hj
    · have := g.range j hj; omega
  · intro t ht
    rcases List.mem_append.1 ht with h | h
    · exact f.top t h
    · exact g.top t h
  · intro t ht
    rcases List.mem_append.1 ht with h | h
    · exact f.children t h
    · exact g.children t h
  · intro t ht
    rcases List.mem_append.1 ht with h | h
    · exact f.parent t h
    · exact g.parent t h

theorem Grow.refl (i : Nat) (s : St) : Grow i s s :=
  ⟨Frame.refl i s, fun _ => ⟨rfl, rfl, [], by simp, Forest.nil _ _ _⟩⟩

theorem Grow.trans {i : Nat} {s s' s'' : St} (h : Grow i s s') (h' : Grow i s' s'') : Grow i s s'' := by
  refine ⟨h.1.trans h'.1, fun hi => ?_⟩
  obtain ⟨p1, q1, ts, c1, f1⟩ := h.2 hi
  obtain ⟨p2, q2, us, c2, f2⟩ := h'.2 (Nat.lt_of_lt_of_le hi h.1.1)
  refine ⟨p2.trans p1, q2.trans q1, ts ++ us, by rw [c2, c1]; simp, ?_⟩
  refine Forest.append (mid := s'.heap.length) ?_ (fun j hj => (f1.range j hj).2) h.1.1 f2
  refine f1.keep h'.1.1 fun j hj => ?_
  have := f1.range j hj
  rw [h'.1.2 j this.2 (by omega)]
  exact ⟨rfl, rfl⟩

/-- A write that keeps the place in the tree. -/
theorem Grow.upd (i : Nat) (s : St) (f : Sec → Sec) (hf : ∀ x, (f x).parent = x.parent ∧ (f x).path = x.path ∧
    (f x).children = x.children) : Grow i s { s with heap := s.heap.upd i f } := by
  refine ⟨Frame.upd _ _ _, fun hi => ?_⟩
  dsimp only
  rw [Heap.get_upd_eq _ _ hi]
  exact ⟨(hf _).1, (hf _).2.1, [], by simp [(hf _).2.2], Forest.nil _ _ _⟩

theorem Upd.place {W : World} {P : Content → Prop} {h : Heap} {i : Nat} {f : Sec → Sec} (u : Upd W P h i f) (x : Sec) :
    (f x).parent = x.parent ∧ (f x).path = x.path ∧ (f x).children = x.children := by
  cases u <;> exact ⟨rfl, rfl, rfl⟩

/-- The tree of a section evaluated to its end. -/
theorem Forest.node {h : Heap} {lo p i : Nat} {ts : List Tree} (hi : lo ≤ i) (hl : i < h.length) (f : Forest h (i + 1) i ts)
    (hp : (h.get i).parent = some p) (hc : (h.get i).children = ts.map Tree.root) : Forest h lo p [.node i ts] := by
  have hsub : ∀ s, (Tree.node i ts).Sub s → s = .node i ts ∨ ∃ t ∈ ts, t.Sub s := by
    rintro s ⟨ks, hks⟩
    rcases hks.uncons with ⟨_, rfl⟩ | ⟨k, ls, c, _, hc1, hc2⟩
    · exact .inl rfl
    · exact .inr ⟨c, List.mem_of_getElem? hc1, ls, hc2⟩
  refine ⟨?_, ?_, ?_, ?_, ?_⟩
  · simp only [Tree.idsL, Tree.ids, List.append_nil, List.nodup_cons]
    exact ⟨fun hm => by have := (f.range i hm).1; omega, f.nodup⟩
  · intro j hj
    simp only [Tree.idsL, Tree.ids, List.append_nil, List.mem_cons] at hj
    rcases hj with rfl | hj
    · exact ⟨hi, hl⟩
    · have := f.range j hj; omega
  · intro t ht
    simp only [List.mem_singleton] at ht
    subst ht
    exact hp
  · intro t ht s hs
    simp only [List.mem_singleton] at ht
    subst ht
    rcases hsub s hs with rfl | ⟨t, ht, hs⟩
    · exact hc
    · exact f.children t ht s hs
  · intro t ht s hs k hk
    simp only [List.mem_singleton] at ht
    subst ht
    rcases hsub s hs with rfl | ⟨t, ht, hs⟩
    · exact f.top k hk
    · exact f.parent t ht s hs k hk

/-- A section is added to the children of `i` after being evaluated. -/
theorem Grow.child {i : Nat} {x : Sec} {s s' : St} (hi : i < s.heap.length) (hx : x.parent = some i) (hc : x.children = [])
    (h : Grow s.heap.length { s with heap := s.heap ++ [x] } s') (g : Sec → Sec)
    (hg : ∀ y, (g y).parent = y.parent ∧ (g y).children = y.children) :
    Grow i s (St.mk ((s'.heap.upd s.heap.length g).upd i fun y => { y with children := y.children ++ [s.heap.length] })
      s'.cache) := by
  obtain ⟨hl, hold⟩ := h.1.new
  have hlt : s.heap.length < s'.heap.length := hl
  refine ⟨⟨by simp [Heap.length_upd]; omega, fun j hj hn => ?_⟩, fun _ => ?_⟩
  · dsimp only
    rw [Heap.get_upd_ne _ _ hn, Heap.get_upd_ne _ _ (by omega)]
    exact hold j hj
  · obtain ⟨p1, _, ts, c1, f1⟩ := h.2 (by simp)
    have e0 : Heap.get (s.heap ++ [x]) s.heap.length = x := Heap.get_append_eq _ _
    dsimp only at p1 c1 f1
    rw [e0] at p1 c1
    have f1' : Forest s'.heap (s.heap.length + 1) s.heap.length ts := by simpa using f1
    have ei : ((s'.heap.upd s.heap.length g).upd i fun y => { y with children := y.children ++ [s.heap.length] }).get i =
        { (s.heap.get i) with children := (s.heap.get i).children ++ [s.heap.length] } := by
      rw [Heap.get_upd_eq _ _ (by simp [Heap.length_upd]; omega), Heap.get_upd_ne _ _ (by omega), hold i hi]
    have ec : ((s'.heap.upd s.heap.length g).upd i fun y => { y with children := y.children ++ [s.heap.length] }).get
        s.heap.length = g (s'.heap.get s.heap.length) := by
      rw [Heap.get_upd_ne _ _ (by omega), Heap.get_upd_eq _ _ hlt]
    dsimp only
    refine ⟨by rw [ei], by rw [ei], [.node s.heap.length ts], by rw [ei]; simp [Tree.root], ?_⟩
    refine Forest.node (Nat.le_refl _) (by simp [Heap.length_upd]; omega) ?_ ?_ ?_
    · refine f1'.keep (by simp [Heap.length_upd]) fun j hj => ?_
      have := f1'.range j hj
      rw [Heap.get_upd_ne _ _ (by omega), Heap.get_upd_ne _ _ (by omega)]
      exact ⟨rfl, rfl⟩
    · rw [ec, (hg _).1, p1, hx]
    · rw [ec, (hg _).2, c1, hc]; simp

/-- A section that failed is not added. -/
theorem Grow.new {i : Nat} {x : Sec} {s s' : St} (hi : i < s.heap.length)
    (h : Grow s.heap.length { s with heap := s.heap ++ [x] } s') : Grow i s s' := by
  obtain ⟨hl, hold⟩ := h.1.new
  refine ⟨⟨Nat.le_of_lt hl, fun j hj _ => hold j hj⟩, fun _ => ?_⟩
  rw [hold i hi]
  exact ⟨rfl, rfl, [], by simp, Forest.nil _ _ _⟩

theorem Heap.upd_id (h : Heap) (i : Nat) : h.upd i (fun y => y) = h := List.modify_id i h

theorem Grow.inv (W : World) : EvalInv W (fun _ => True) Grow where
  refl := Grow.refl
  trans := Grow.trans
  len := fun h => h.1.1
  upd := fun _ u => Grow.upd _ _ _ u.place
  content := ContentInv.true W
  body := fun _ _ _ => Grow.upd _ _ _ fun _ => ⟨rfl, rfl, rfl⟩
  failed := fun hi h => h.new hi
  inline := fun {i s s'} hi h => Grow.child hi rfl rfl h _ fun _ => ⟨rfl, rfl⟩
  failedFile := fun hi h => h.new hi
  file := fun {i s s' path} hi _ h => by
    have := Grow.child hi rfl rfl h (fun y => y) fun _ => ⟨rfl, rfl⟩
    rw [Heap.upd_id] at this
    exact this
  remember := fun _ _ _ _ _ h => h

end Booklit
