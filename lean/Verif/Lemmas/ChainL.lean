import Verif.Lemmas.OutlineL
import Verif.Spec.Chain

/-!
Includes of a document that loads.
-/

namespace Booklit

variable {W : World}

theorem includesAll_append : ∀ (as bs : List Node), includesAll (as ++ bs) = includesAll as ++ includesAll bs
  | [], bs => by simp [includesAll]
  | a :: as, bs => by rw [List.cons_append, includesAll, includesAll, includesAll_append as bs, List.append_assoc]

theorem includesLines_eq : ∀ (ls : List (List Node)), includesLines ls = includesAll ls.flatten
  | [] => by simp [includesLines, includesAll]
  | l :: ls => by rw [includesLines, List.flatten_cons, includesAll_append, includesLines_eq ls]

theorem baseOf_include {fn : Str} : baseOf fn = some .includeSection → methodName fn = q%"IncludeSection" := by
  intro h
  have key : ∀ (l : List (Str × Base)), (∀ p ∈ l, p.2 = .includeSection → p.1 = q%"IncludeSection") →
      l.lookup (methodName fn) = some .includeSection → methodName fn = q%"IncludeSection" := by
    intro l
    induction l with
    | nil => intro _ h; cases h
    | cons p l ih =>
      intro hl h
      rw [List.lookup_cons] at h
      split at h
      · rename_i e
        rw [eq_of_beq e]
        exact hl p List.mem_cons_self (Option.some.inj h)
      · exact ih (fun p hp => hl p (List.mem_cons_of_mem _ hp)) h
  exact key baseMethods (by decide) h

theorem includes_call {fn : Str} {as : List Node} {loc : Location} (h : methodName fn ≠ q%"IncludeSection") :
    (Node.invoke fn as loc).includes = includesAll as := by
  rw [Node.includes, if_neg fun e => h (baseOf_include e), List.nil_append]

theorem Wrote.unique {p : Str} {m n : Node} (h1 : W.Wrote p m) (h2 : W.Wrote p n) : m = n := by
  obtain ⟨i, a, b⟩ := h1
  obtain ⟨j, c, d⟩ := h2
  rw [a] at c
  cases c
  rw [b] at d
  cases d
  rfl

/-- What is true of the files included when it is true of those they include, and they exist. -/
theorem Runs.included {P : Str → Prop}
    (hP : ∀ p n, W.Wrote p n → (∀ a ∈ n.includes, ∀ t, a.literal = some t → P (joinPath (dirPath p) t)) → P p)
    {h : Heap} {lo : Nat} {up : Bool} {file : Str} {ns : List Node} {f g : Face} (r : Runs W h lo up file ns f g) :
    ∀ a ∈ includesAll ns, ∀ t, a.literal = some t → P (joinPath (dirPath file) t) := by
  induction r with
  | nil => intro a ha; simp [includesAll] at ha
  | str _ ih => rw [includesAll, Node.includes]; exact ih
  | seq _ _ i1 i2 =>
    intro a ha
    rw [includesAll, Node.includes] at ha
    exact (List.mem_append.1 ha).elim (i1 a) (i2 a)
  | para _ _ i1 i2 =>
    intro a ha
    rw [includesAll, Node.includes, includesLines_eq] at ha
    exact (List.mem_append.1 ha).elim (i1 a) (i2 a)
  | pre _ _ i1 i2 =>
    intro a ha
    rw [includesAll, Node.includes, includesLines_eq] at ha
    exact (List.mem_append.1 ha).elim (i1 a) (i2 a)
  | inline h1 h2 h3 h4 h5 h6 _ i1 i2 =>
    intro a ha
    rw [includesAll, includes_call (by rw [h1]; decide)] at ha
    exact (List.mem_append.1 ha).elim (i1 a) (i2 a)
  | @incl up file fn a n p loc ns f g k c h1 h2 h3 h4 h5 h6 h7 h8 h9 _ i1 i2 i3 =>
    intro b hb t ht
    rw [includesAll, Node.includes] at hb
    rcases List.mem_append.1 hb with hb | hb
    · rcases List.mem_append.1 hb with hb | hb
      · split at hb
        · rw [List.mem_singleton] at hb
          subst hb
          have := h3 t ht
          subst this
          refine hP _ _ h8 fun a ha => ?_
          exact i2 a (by simpa [includesAll] using ha)
        · cases hb
      · exact i1 b hb t ht
    · exact i3 b hb t ht
  | use h1 h2 h3 h4 _ i1 i2 =>
    intro a ha
    rw [includesAll, includes_call (by rw [h1]; decide)] at ha
    exact (List.mem_append.1 ha).elim (i1 a) (i2 a)
  | styled h1 h2 h3 _ i1 i2 =>
    intro a ha
    rw [includesAll, includes_call (by rw [h1]; decide)] at ha
    exact (List.mem_append.1 ha).elim (i1 a) (i2 a)
  | title h1 h2 h3 h4 _ i1 i2 =>
    intro a ha
    rw [includesAll, includes_call (by rw [h1]; decide)] at ha
    exact (List.mem_append.1 ha).elim (i1 a) (i2 a)
  | single h1 _ ih =>
    intro a ha
    rw [includesAll, includes_call (by rw [h1]; decide)] at ha
    exact ih a (by simpa [includesAll] using ha)
  | splits h1 _ ih =>
    intro a ha
    rw [includesAll, includes_call (by rw [h1]; decide)] at ha
    exact ih a (by simpa [includesAll] using ha)
  | omits h1 _ ih =>
    intro a ha
    rw [includesAll, includes_call (by rw [h1]; decide)] at ha
    exact ih a (by simpa [includesAll] using ha)
  | part h1 h2 h3 h4 _ i1 i2 =>
    intro a ha
    rw [includesAll, includes_call (by rw [h1]; decide)] at ha
    exact (List.mem_append.1 ha).elim (i1 a) (i2 a)
  | other h1 h2 _ i1 i2 =>
    intro a ha
    rw [includesAll, includes_call (fun e => h1 (e ▸ by decide))] at ha
    exact (List.mem_append.1 ha).elim (i1 a) (i2 a)

end Booklit
