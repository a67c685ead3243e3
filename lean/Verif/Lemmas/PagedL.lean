import Verif.Lemmas.SplitCallsL
import Verif.Lemmas.SectionL

/-!
Which sections of a document are split.
-/

namespace Booklit

variable {W : World}

/-- What the calls of `\single-page` and `\split-sections` do to a face, below a single page if `up`. -/
structure Paged (up : Bool) (f g : Face) (cs : List PageCall) : Prop where
  single : g.single = true ↔ f.single = true ∨ .single ∈ cs
  resets : g.resets = true ↔ f.resets = true ∨ .split ∈ cs
  splits : g.splits = true ↔ f.splits = true ∨ ((up || f.single) = false ∧ SplitFirst cs)

theorem Paged.none {up : Bool} {f g : Face} (h1 : g.single = f.single) (h2 : g.splits = f.splits)
    (h3 : g.resets = f.resets) : Paged up f g [] :=
  ⟨by rw [h1]; simp, by rw [h3]; simp, by rw [h2]; simp [SplitFirst.nil]⟩

theorem Paged.trans {up : Bool} {f g k : Face} {as bs : List PageCall} (a : Paged up f g as) (b : Paged up g k bs) :
    Paged up f k (as ++ bs) := by
  have hs : (up || g.single) = false ↔ (up || f.single) = false ∧ .single ∉ as := by
    have := a.single
    cases up <;> cases hf : f.single <;> cases hg : g.single <;> simp_all
  refine ⟨?_, ?_, ?_⟩
  · rw [b.single, a.single, List.mem_append, or_assoc]
  · rw [b.resets, a.resets, List.mem_append, or_assoc]
  · rw [b.splits, a.splits, hs, SplitFirst.append]
    constructor
    · rintro ((h | ⟨h1, h2⟩) | ⟨⟨h1, h2⟩, h3⟩)
      · exact .inl h
      · exact .inr ⟨h1, .inl h2⟩
      · exact .inr ⟨h1, .inr ⟨h2, h3⟩⟩
    · rintro (h | ⟨h1, h2 | ⟨h2, h3⟩⟩)
      · exact .inl (.inl h)
      · exact .inl (.inr ⟨h1, h2⟩)
      · exact .inr ⟨⟨h1, h2⟩, h3⟩

theorem Paged.more {up : Bool} {f g k : Face} {cs : List PageCall} (a : Paged up g k cs) (h1 : g.single = f.single)
    (h2 : g.splits = f.splits) (h3 : g.resets = f.resets) : Paged up f k cs := (Paged.none h1 h2 h3).trans a

theorem pageCalls_append (as bs : List Node) :
    Node.pageCalls.seq (as ++ bs) = Node.pageCalls.seq as ++ Node.pageCalls.seq bs := by
  induction as with
  | nil => simp [Node.pageCalls.seq]
  | cons a as ih => rw [List.cons_append, Node.pageCalls.seq, Node.pageCalls.seq, ih, List.append_assoc]

theorem pageCalls_lines (ls : List (List Node)) : Node.pageCalls.lines ls = Node.pageCalls.seq ls.flatten := by
  induction ls with
  | nil => simp [Node.pageCalls.lines, Node.pageCalls.seq]
  | cons l ls ih => rw [Node.pageCalls.lines, List.flatten_cons, pageCalls_append, ih]

theorem pageCalls_call {fn : Str} {as : List Node} {loc : Location} (h1 : methodName fn ≠ q%"Section")
    (h2 : methodName fn ≠ q%"SinglePage") (h3 : methodName fn ≠ q%"SplitSections") :
    (Node.invoke fn as loc).pageCalls = Node.pageCalls.seq as := by
  rw [Node.pageCalls, if_neg h1, if_neg h2, if_neg h3, List.append_nil]

theorem Runs.pages {h : Heap} {lo : Nat} {up : Bool} {file : Str} {ns : List Node} {f g : Face} (a : Runs W h lo up file ns f g) :
    Paged up f g (Node.pageCalls.seq ns) := by
  induction a with
  | nil => exact .none rfl rfl rfl
  | str _ ih => rw [Node.pageCalls.seq, Node.pageCalls]; exact ih
  | seq _ _ i1 i2 => rw [Node.pageCalls.seq, Node.pageCalls]; exact i1.trans i2
  | para _ _ i1 i2 => rw [Node.pageCalls.seq, Node.pageCalls, pageCalls_lines]; exact i1.trans i2
  | pre _ _ i1 i2 => rw [Node.pageCalls.seq, Node.pageCalls, pageCalls_lines]; exact i1.trans i2
  | inline h1 h2 h3 h4 h5 h6 _ _ i2 =>
    rw [Node.pageCalls.seq, Node.pageCalls, if_pos h1]
    exact i2.more rfl rfl rfl
  | incl h1 h2 h3 h4 h5 h6 h7 h8 h9 _ i1 _ i3 =>
    rw [Node.pageCalls.seq, pageCalls_call (by rw [h1]; decide) (by rw [h1]; decide) (by rw [h1]; decide)]
    rw [Node.pageCalls.seq, Node.pageCalls.seq, List.append_nil] at i1
    rw [Node.pageCalls.seq, Node.pageCalls.seq, List.append_nil]
    exact i1.trans (i3.more rfl rfl rfl)
  | use h1 h2 h3 h4 _ i1 i2 =>
    rw [Node.pageCalls.seq, pageCalls_call (by rw [h1]; decide) (by rw [h1]; decide) (by rw [h1]; decide)]
    exact i1.trans (i2.more rfl rfl rfl)
  | styled h1 h2 h3 _ i1 i2 =>
    rw [Node.pageCalls.seq, pageCalls_call (by rw [h1]; decide) (by rw [h1]; decide) (by rw [h1]; decide)]
    exact i1.trans (i2.more rfl rfl rfl)
  | title h1 h2 h3 h4 _ i1 i2 =>
    rw [Node.pageCalls.seq, pageCalls_call (by rw [h1]; decide) (by rw [h1]; decide) (by rw [h1]; decide)]
    exact i1.trans (i2.more rfl rfl rfl)
  | single h1 _ ih =>
    rw [Node.pageCalls.seq, Node.pageCalls, if_neg (by rw [h1]; decide), if_pos h1]
    refine Paged.trans ⟨by simp, by simp [Node.pageCalls.seq], ?_⟩ ih
    have : ¬ SplitFirst [.single] := by
      rintro ⟨a, b, e, hm⟩
      cases a with
      | nil => cases e
      | cons x a =>
        injection e with e1 _
        subst e1
        exact hm List.mem_cons_self
    simp [Node.pageCalls.seq, this]
  | @splits up _ _ _ _ f _ h1 _ ih =>
    rw [Node.pageCalls.seq, Node.pageCalls, if_neg (by rw [h1]; decide), if_neg (by rw [h1]; decide), if_pos h1]
    refine Paged.trans ⟨by simp [Node.pageCalls.seq], by simp, ?_⟩ ih
    have : SplitFirst [.split] := ⟨[], [], rfl, by simp⟩
    simp [Node.pageCalls.seq, this]
  | omits h1 _ ih =>
    rw [Node.pageCalls.seq, pageCalls_call (by rw [h1]; decide) (by rw [h1]; decide) (by rw [h1]; decide)]
    exact ih.more rfl rfl rfl
  | part h1 h2 h3 h4 _ i1 i2 =>
    rw [Node.pageCalls.seq, pageCalls_call (by rw [h1]; decide) (by rw [h1]; decide) (by rw [h1]; decide)]
    exact i1.trans (i2.more rfl rfl rfl)
  | @other up file fn as loc ns f g k h1 h2 _ i1 i2 =>
    have hne : ∀ {x : Str}, x ∈ actions → methodName fn ≠ x := fun hx e => h1 (e ▸ hx)
    rw [Node.pageCalls.seq, pageCalls_call (hne (by decide)) (hne (by decide)) (hne (by decide))]
    exact i1.trans i2

theorem Plan.up_eq {h : Heap} {file : Str} {up up' : Bool} {ps' cs' : List Nat} {st : List Node} {ps cs : List Nat}
    (a : Plan W h file up' ps' cs' st up ps cs) : up' = (up || st.any Node.isSingle) := by
  induction a with
  | nil => simp
  | @single fn loc st up ps cs h1 _ ih =>
    have hx : (Node.invoke fn [] loc).isSingle = true := by simp only [Node.isSingle, h1]; decide
    rw [ih, List.any_cons, hx]; simp
  | @use up fn a loc t p st ps cs h1 _ _ _ ih =>
    have hx : (Node.invoke fn [a] loc).isSingle = false := by simp only [Node.isSingle, h1]; decide
    rw [ih, List.any_cons, hx]; simp
  | @kid up call c st ps cs h1 _ ih =>
    rw [ih, List.any_cons, h1.isKid.2.2]; simp

/-- The place of an element chosen by a filter. -/
theorem filter_at {α : Type} (p : α → Bool) : ∀ (l : List α) (k : Nat), k < (l.filter p).length →
    ∃ pre x post, l = pre ++ x :: post ∧ p x = true ∧ (pre.filter p).length = k
  | [], k, h => by simp at h
  | y :: l, k, h => by
    cases hy : p y with
    | false =>
      rw [List.filter_cons_of_neg (by simp [hy])] at h
      obtain ⟨pre, x, post, rfl, h1, h2⟩ := filter_at p l k h
      exact ⟨y :: pre, x, post, rfl, h1, by rw [List.filter_cons_of_neg (by simp [hy])]; exact h2⟩
    | true =>
      rw [List.filter_cons_of_pos hy] at h
      cases k with
      | zero => exact ⟨[], y, l, rfl, hy, rfl⟩
      | succ k =>
        obtain ⟨pre, x, post, rfl, h1, h2⟩ := filter_at p l k (by simpa using h)
        exact ⟨y :: pre, x, post, rfl, h1, by rw [List.filter_cons_of_pos hy, List.length_cons, h2]⟩

end Booklit
