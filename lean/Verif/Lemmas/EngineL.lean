import Verif.Lemmas.FuelL
import Verif.Lemmas.ShippedL

/-!
Executing templates with more fuel gives the same results.
-/

namespace Booklit

theorem top_mono {h : Heap} : ∀ {n m : Nat}, n ≤ m → ∀ {i t}, h.top n i = some t → h.top m i = some t := by
  intro n
  induction n with
  | zero => intro m _ i t e; cases e
  | succ n ih =>
    intro m hm i t e
    obtain ⟨m, rfl⟩ : ∃ k, m = k + 1 := ⟨m - 1, by omega⟩
    rw [Heap.top] at e ⊢
    cases hp : (h.get i).parent with
    | none => rw [hp] at e; exact e
    | some p => rw [hp] at e; exact ih (by omega) e

theorem contains_mono {h : Heap} : ∀ (n : Nat),
    (∀ {m i j b}, n ≤ m → h.contains n i j = some b → h.contains m i j = some b) ∧
    (∀ {m cs j b}, n ≤ m → h.containsAny n cs j = some b → h.containsAny m cs j = some b) := by
  intro n
  induction n with
  | zero =>
    refine ⟨fun _ e => (by cases e), fun {m cs j b} _ e => ?_⟩
    cases cs with
    | nil => cases m <;> exact e
    | cons c cs => cases e
  | succ n ih =>
    refine ⟨fun {m i j b} hm e => ?_, fun {m cs j b} hm e => ?_⟩
    · obtain ⟨m, rfl⟩ : ∃ k, m = k + 1 := ⟨m - 1, by omega⟩
      rw [Heap.contains] at e ⊢
      split at e
      · rename_i hij; rw [if_pos hij]; exact e
      · rename_i hij; rw [if_neg hij]; exact ih.2 (by omega) e
    · obtain ⟨m, rfl⟩ : ∃ k, m = k + 1 := ⟨m - 1, by omega⟩
      cases cs with
      | nil => exact e
      | cons c cs =>
        rw [Heap.containsAny] at e ⊢
        cases hc : h.contains n c j with
        | none => rw [hc] at e; cases e
        | some x =>
          rw [hc] at e
          rw [ih.1 (by omega) hc]
          cases x with
          | true => exact e
          | false => exact ih.2 (by omega) e

theorem hasAnchors_mono {h : Heap} : ∀ (n : Nat),
    (∀ {m i b}, n ≤ m → h.hasAnchors n i = some b → h.hasAnchors m i = some b) ∧
    (∀ {m cs b}, n ≤ m → h.hasAnchorsAny n cs = some b → h.hasAnchorsAny m cs = some b) := by
  intro n
  induction n with
  | zero =>
    refine ⟨fun _ e => (by cases e), fun {m cs b} _ e => ?_⟩
    cases cs with
    | nil => cases m <;> exact e
    | cons c cs => cases e
  | succ n ih =>
    refine ⟨fun {m i b} hm e => ?_, fun {m cs b} hm e => ?_⟩
    · obtain ⟨m, rfl⟩ : ∃ k, m = k + 1 := ⟨m - 1, by omega⟩
      rw [Heap.hasAnchors] at e ⊢
      split at e
      · rename_i h1; rw [if_pos h1]; exact e
      · rename_i h1
        rw [if_neg h1]
        split at e
        · rename_i h2; rw [if_pos h2]; exact e
        · rename_i h2; rw [if_neg h2]; exact ih.2 (by omega) e
    · obtain ⟨m, rfl⟩ : ∃ k, m = k + 1 := ⟨m - 1, by omega⟩
      cases cs with
      | nil => exact e
      | cons c cs =>
        rw [Heap.hasAnchorsAny] at e ⊢
        cases hc : h.hasAnchors n c with
        | none => rw [hc] at e; cases e
        | some x =>
          rw [hc] at e
          rw [ih.1 (by omega) hc]
          cases x with
          | true => exact e
          | false => exact ih.2 (by omega) e

theorem nextSibling_mono {h : Heap} : ∀ {n m : Nat}, n ≤ m → ∀ {i t}, h.nextSibling n i = some t → h.nextSibling m i = some t := by
  intro n
  induction n with
  | zero => intro m _ i t e; cases e
  | succ n ih =>
    intro m hm i t e
    obtain ⟨m, rfl⟩ : ∃ k, m = k + 1 := ⟨m - 1, by omega⟩
    rw [Heap.nextSibling] at e ⊢
    cases hp : (h.get i).parent with
    | none => rw [hp] at e; exact e
    | some p =>
      rw [hp] at e
      cases hn : nextIn i false (h.get p).children with
      | some c => simp only [hn] at e ⊢; exact e
      | none => simp only [hn] at e ⊢; exact ih (by omega) e

theorem next_mono {h : Heap} {n m : Nat} (hm : n ≤ m) {i t} (e : h.next n i = some t) : h.next m i = some t := by
  rw [Heap.next] at e ⊢
  split at e
  · rename_i hs
    rw [if_pos hs]
    cases hc : (h.get i).children with
    | nil => rw [hc] at e; exact nextSibling_mono hm e
    | cons c cs => rw [hc] at e; exact e
  · rename_i hs
    rw [if_neg hs]
    exact nextSibling_mono hm e

theorem unknownTag_le {α : Type} {h : Heap} {n m : Nat} (hm : n ≤ m) (s t l) :
    (h.unknownTag n s t l : Res α).Le (h.unknownTag m s t l) :=
  Res.Le.bind (.ofFuel fun a e => filePath_up hm e) fun p _ =>
    Res.Le.bind (.ofFuel fun a e => tagsUp_mono _ _ _ _ e _ hm) fun gs _ => .rfl

theorem ambiguousTag_le {α : Type} {h : Heap} {n m : Nat} (hm : n ≤ m) (s t l ls) :
    (h.ambiguousTag n s t l ls : Res α).Le (h.ambiguousTag m s t l ls) := by
  refine Res.Le.bind (Res.Le.resMap fun x _ => ?_) fun ds _ => Res.Le.bind (.ofFuel fun a e => filePath_up hm e) fun p _ => .rfl
  cases x.1 with
  | none => exact .rfl
  | some i => exact Res.Le.map (.ofFuel fun a e => filePath_up hm e)

namespace Tmpl

open Templates

/-- What templates find out, the second time with more fuel. -/
structure Env.Le (E F : Env) : Prop where
  h : E.h = F.h
  isHtml : E.isHtml = F.isHtml
  render : ∀ c, (E.render c).Le (F.render c)
  call : ∀ n v, (E.call n v).Le (F.call n v)
  text : ∀ c, (E.text c).Le (F.text c)
  number : ∀ i, (E.number i).Le (F.number i)
  header : ∀ i, (E.header i).Le (F.header i)
  depth : ∀ i, (E.depth i).Le (F.depth i)
  url : ∀ g, (E.url g).Le (F.url g)
  htmlURL : ∀ g, (E.htmlURL g).Le (F.htmlURL g)
  tagOf : ∀ s t o l, (E.tagOf s t o l).Le (F.tagOf s t o l)
  top : ∀ i, (E.top i).Le (F.top i)
  contains : ∀ i j, (E.contains i j).Le (F.contains i j)
  hasAnchors : ∀ i, (E.hasAnchors i).Le (F.hasAnchors i)
  next : ∀ i, (E.next i).Le (F.next i)

section
variable {E F : Env} (H : E.Le F)
include H

theorem secField_le (i f args) : (secField E i f args).Le (secField F i f args) := by
  unfold secField
  rw [← H.h]
  split <;> first
    | exact .rfl
    | exact (H.number i).map
    | exact (H.depth i).map
    | exact (H.top i).map
    | exact (H.next i).map
    | exact (H.hasAnchors i).map
    | exact (H.contains i _).map
    | exact (H.text _).recover.map

theorem anyField_le (c f args) : (anyField E c f args).Le (anyField F c f args) := by
  unfold anyField
  split <;> first
    | exact .rfl
    | exact (H.text c).recover.map

theorem conField_le (c f args) : (conField E c f args).Le (conField F c f args) := by
  unfold conField
  split <;> first
    | exact .rfl
    | exact secField_le H _ _ _
    | exact (H.tagOf _ _ _ _).map
    | exact anyField_le H _ _ _
    | (split <;> first
        | exact .rfl
        | exact (H.tagOf _ _ _ _).bind fun _ _ => .rfl)

theorem field_le (v f args) : (Val.field E v f args).Le (Val.field F v f args) := by
  unfold Val.field
  split <;> first
    | exact conField_le H _ _ _
    | exact .rfl

theorem apply_le (f args) : (Fn.apply E f args).Le (Fn.apply F f args) := by
  unfold Fn.apply
  rw [H.isHtml]
  split <;> first
    | exact .rfl
    | exact (H.render _).map
    | exact (H.url _).map
    | exact (H.htmlURL _).map
    | exact (H.text _).recover.map
    | exact (H.header _).map

/-- The arguments of a function that are evaluated. -/
def evalGiven (E : Env) (root dot : Val) (vars : Vars) (f : Fn) (args : List Expr) : Res (List Val) :=
  match f with
  | .and => evalTo E root dot vars false args
  | .or => evalTo E root dot vars true args
  | _ => evalL E root dot vars args

omit H in
theorem eval_call (E : Env) (root dot : Val) (vars : Vars) (f : Fn) (args : List Expr) :
    eval E root dot vars (.call f args) = (evalGiven E root dot vars f args).bind fun vs => f.apply E vs := by
  cases f <;> simp only [eval, evalGiven]

mutual
theorem eval_le (root dot vars) : ∀ e, (eval E root dot vars e).Le (eval F root dot vars e)
  | .dot | .root | .var _ | .str _ | .num _ => by simp only [eval]; exact .rfl
  | .field e f args => by
    simp only [eval]
    exact (eval_le root dot vars e).bind fun v _ => (evalL_le root dot vars args).bind fun vs _ => field_le H v f vs
  | .call f args => by
    rw [eval_call, eval_call]
    refine Res.Le.bind ?_ fun vs _ => apply_le H f vs
    unfold evalGiven
    split
    · exact evalTo_le root dot vars false args
    · exact evalTo_le root dot vars true args
    · exact evalL_le root dot vars args
theorem evalTo_le (root dot vars b) : ∀ es, (evalTo E root dot vars b es).Le (evalTo F root dot vars b es)
  | [] => by simp only [evalTo]; exact .rfl
  | e :: es => by
    simp only [evalTo]
    refine (eval_le root dot vars e).bind fun v _ => ?_
    split
    · exact .rfl
    · exact (evalTo_le root dot vars b es).map
theorem evalL_le (root dot vars) : ∀ es, (evalL E root dot vars es).Le (evalL F root dot vars es)
  | [] => by simp only [evalL]; exact .rfl
  | e :: es => by
    simp only [evalL]
    exact (eval_le root dot vars e).bind fun v _ => (evalL_le root dot vars es).map
end

theorem print_le (v) : (Val.print E v).Le (Val.print F v) := by
  unfold Val.print
  split <;> first
    | exact .rfl
    | exact (H.text _).recover

theorem escape_le (c v) : (Ctx.escape E c v).Le (Ctx.escape F c v) := by
  unfold Ctx.escape
  split <;> first
    | exact .rfl
    | exact print_le H _
    | exact (print_le H _).map

mutual
theorem execL_le (root dot vars) : ∀ ns, (execL E root dot vars ns).Le (execL F root dot vars ns)
  | [] => by simp only [execL]; exact .rfl
  | n :: ns => by
    by_cases hd : ∃ x e, n = .decl x e
    · obtain ⟨x, e, rfl⟩ := hd
      simp only [execL]
      exact (eval_le H root dot vars e).bind fun v _ => execL_le root dot _ ns
    · rw [execL, execL]
      · exact (exec_le root dot vars n).bind fun s _ => (execL_le root dot vars ns).map
      · exact fun x e he => hd ⟨x, e, he⟩
      · exact fun x e he => hd ⟨x, e, he⟩
theorem exec_le (root dot vars) : ∀ n, (exec E root dot vars n).Le (exec F root dot vars n)
  | .text _ | .decl _ _ => by simp only [exec]; exact .rfl
  | .act c e => by
    simp only [exec]
    exact (eval_le H root dot vars e).bind fun v _ => escape_le H c v
  | .ite e a b => by
    simp only [exec]
    refine (eval_le H root dot vars e).bind fun v _ => ?_
    split
    · exact execL_le root dot vars a
    · exact execL_le root dot vars b
  | .with_ e a b => by
    simp only [exec]
    refine (eval_le H root dot vars e).bind fun v _ => ?_
    split
    · exact execL_le root v vars a
    · exact execL_le root dot vars b
  | .loop i x e a b => by
    simp only [exec]
    refine (eval_le H root dot vars e).bind fun v _ => ?_
    split
    · exact .rfl
    · exact execL_le root dot vars b
    · exact (Res.Le.resMap fun p _ => execL_le root p.2 _ a).map
  | .call name none => by
    simp only [exec]
    exact H.call name .null
  | .call name (some e) => by
    simp only [exec]
    exact (eval_le H root dot vars e).bind fun v _ => H.call name v
end

end

theorem tagURL_le {h : Heap} {ext : Str} {n m : Nat} (hm : n ≤ m) (g : Tag) : (Heap.tagURL h ext n g).Le (Heap.tagURL h ext m g) := by
  unfold Heap.tagURL
  split
  · exact .rfl
  · exact .ofFuel fun a e => sectionURL_mono hm e

theorem tagOf_le {S : Site} {h : Heap} {n m : Nat} (hm : n ≤ m) (s t o l) : (Heap.tagOf S h n s t o l).Le (Heap.tagOf S h m s t o l) := by
  unfold Heap.tagOf
  cases hr : h.refTag n S.brokenOk s t o l with
  | none => exact .inl rfl
  | some r =>
    rw [refTag_mono hm hr]
    cases r with
    | tag g => exact .rfl
    | nothing => exact .rfl
    | unknown => exact unknownTag_le hm s t l
    | ambiguous ls => exact ambiguousTag_le hm s t l ls

theorem envOf_le {M : Mode} {S : Site} {h : Heap} {n m : Nat} (hm : n ≤ m) {f g : Task → Res Str} (A : ∀ t, (f t).Le (g t)) :
    (envOf M S h n f).Le (envOf M S h m g) where
  h := rfl
  isHtml := rfl
  render c := A _
  call n v := A _
  text := heapText_le hm
  number i := .ofFuel fun a e => number_mono hm e
  header i := .ofFuel fun a e => headerDepth_mono hm e
  depth i := .ofFuel fun a e => pageDepth_mono hm e
  url := tagURL_le hm
  htmlURL := tagURL_le hm
  tagOf := tagOf_le hm
  top i := .ofFuel fun a e => top_mono hm e
  contains i j := .ofFuel fun a e => (contains_mono _).1 hm e
  hasAnchors i := .ofFuel fun a e => (hasAnchors_mono _).1 hm e
  next i := .ofFuel fun a e => next_mono hm e

theorem run_le {M : Mode} {T : Compiled} {S : Site} {h : Heap} : ∀ {n m : Nat}, n ≤ m → ∀ t, (run M T S h n t).Le (run M T S h m t) := by
  intro n
  induction n with
  | zero => intro m _ t; exact .inl rfl
  | succ n ih =>
    intro m hm t
    obtain ⟨m, rfl⟩ : ∃ k, m = k + 1 := ⟨m - 1, by omega⟩
    have A := ih (m := m) (by omega)
    cases t with
    | content c =>
      simp only [run]
      split
      · exact .rfl
      · split
        · exact .rfl
        · exact A _
      · exact A _
    | template f v =>
      simp only [run]
      split
      · exact .rfl
      · exact execL_le (envOf_le (by omega) A) v v [] _

end Tmpl

end Booklit
