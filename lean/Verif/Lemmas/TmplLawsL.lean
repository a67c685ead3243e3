import Verif.Spec.TmplLaws

/-!
Helper lemmas for C105: rewriting a template does not change what it does.
-/

namespace Booklit.Tmpl

theorem Res.bind_assoc' {α β γ : Type} (r : Res α) (f : α → Res β) (g : β → Res γ) : (r.bind f).bind g = r.bind fun a => (f a).bind g := by
  cases r <;> rfl

theorem Res.map_bind' {α β γ : Type} (r : Res α) (f : α → β) (g : β → Res γ) : (r.map f).bind g = r.bind fun a => g (f a) := by
  cases r <;> rfl

theorem Res.map_app (r : Res Str) (s t : Str) : (r.map (t ++ ·)).map (s ++ ·) = r.map (s ++ t ++ ·) := by
  cases r <;> simp [Res.map]

theorem Res.map_nil (r : Res Str) : r.map ([] ++ ·) = r := by cases r <;> rfl

/-- Nodes one after the other. -/
theorem execL_app (E : Env) (root dot : Val) : ∀ (a : List TNode) (vars : Vars) (ns : List TNode), NoDecl a →
    execL E root dot vars (a ++ ns) = (execL E root dot vars a).bind fun s => (execL E root dot vars ns).map (s ++ ·) := by
  intro a
  induction a with
  | nil => intro vars ns _; rw [List.nil_append, execL]; exact (Res.map_nil _).symm
  | cons n a ih =>
    intro vars ns hn
    have hn' : NoDecl a := fun x e h => hn x e (List.mem_cons_of_mem _ h)
    have hd : ∀ x e, n ≠ .decl x e := fun x e h => hn x e (h ▸ List.mem_cons_self)
    rw [List.cons_append, execL.eq_3 _ _ _ _ _ _ hd, execL.eq_3 _ _ _ _ _ _ hd, ih vars ns hn', Res.bind_assoc']
    cases exec E root dot vars n with
    | ok s =>
      cases execL E root dot vars a with
      | ok t => exact Res.map_app _ _ _
      | _ => rfl
    | _ => rfl

/-- One node and the rest. -/
theorem execL_one (E : Env) (root dot : Val) (vars : Vars) {n : TNode} (ns : List TNode) (hd : ∀ x e, n ≠ .decl x e) :
    execL E root dot vars (n :: ns) = (exec E root dot vars n).bind fun s => (execL E root dot vars ns).map (s ++ ·) :=
  execL.eq_3 _ _ _ _ _ _ hd

/-- Just one node. -/
theorem execL_single (E : Env) (root dot : Val) (vars : Vars) {n : TNode} (hd : ∀ x e, n ≠ .decl x e) :
    execL E root dot vars [n] = exec E root dot vars n := by
  rw [execL_one _ _ _ _ _ hd, execL]
  cases exec E root dot vars n <;> simp [Res.bind, Res.map]

/-- A node can be replaced by one that does the same. -/
theorem execL_swap (E : Env) (root dot : Val) (vars : Vars) {n m : TNode} (ns : List TNode) (hn : ∀ x e, n ≠ .decl x e) (hm : ∀ x e, m ≠ .decl x e)
    (h : exec E root dot vars n = exec E root dot vars m) : execL E root dot vars (n :: ns) = execL E root dot vars (m :: ns) := by
  rw [execL_one _ _ _ _ _ hn, execL_one _ _ _ _ _ hm, h]

theorem question_bool (E : Env) (root dot : Val) (vars : Vars) {e : Expr} (h : Question e) {v : Val} (hv : eval E root dot vars e = .ok v) :
    ∃ b, v = .bool b := by
  cases h with
  | not x =>
    simp only [eval, evalL] at hv
    cases hx : eval E root dot vars x <;> rw [hx] at hv <;> simp only [Res.bind, Res.map, Fn.apply] at hv <;> first | (cases hv; exact ⟨_, rfl⟩) | cases hv
  | eq x y =>
    simp only [eval, evalL] at hv
    cases hx : eval E root dot vars x <;> rw [hx] at hv <;> try cases hv
    cases hy : eval E root dot vars y <;> rw [hy] at hv <;> try cases hv
    rename_i a b
    replace hv : a.same b = .ok v := hv
    cases a <;> cases b <;> simp only [Val.same] at hv <;> first | (cases hv; exact ⟨_, rfl⟩) | cases hv

/-- A truth value is printed as a word. -/
theorem escape_bool (E : Env) {c : Ctx} (h : c.Wordy) (b : Bool) : c.escape E (.bool b) = .ok (if b then q%"true" else q%"false") := by
  cases h <;> cases b <;> rfl

theorem exec_answer (E : Env) (root dot : Val) (vars : Vars) {c : Ctx} {e : Expr} (hc : c.Wordy)
    (he : ∀ v, eval E root dot vars e = .ok v → ∃ b, v = .bool b) :
    exec E root dot vars (.act c e) = exec E root dot vars (.ite e [.text q%"true"] [.text q%"false"]) := by
  rw [exec, exec]
  cases hv : eval E root dot vars e with
  | ok v =>
    obtain ⟨b, rfl⟩ := he v hv
    show c.escape E (.bool b) = _
    rw [escape_bool E hc]
    cases b <;> rfl
  | _ => rfl

theorem exec_ifAnd (E : Env) (root dot : Val) (vars : Vars) (x y : Expr) (a b : List TNode) :
    exec E root dot vars (.ite (.call .and [x, y]) a b) = exec E root dot vars (.ite x [.ite y a b] b) := by
  rw [exec, exec, eval, evalTo, evalTo, evalTo]
  cases eval E root dot vars x with
  | ok v =>
    cases hv : v.truth with
    | false => simp [Res.bind, Fn.apply, hv]
    | true =>
      simp only [Res.bind, hv, if_true]
      rw [execL_single _ _ _ _ (by intro _ _ h; cases h), exec]
      cases eval E root dot vars y with
      | ok w => cases hw : w.truth <;> simp [Res.bind, Res.map, Fn.apply, hv, hw]
      | _ => rfl
  | _ => rfl

theorem exec_ifOr (E : Env) (root dot : Val) (vars : Vars) (x y : Expr) (a b : List TNode) :
    exec E root dot vars (.ite (.call .or [x, y]) a b) = exec E root dot vars (.ite x a [.ite y a b]) := by
  rw [exec, exec, eval, evalTo, evalTo, evalTo]
  cases eval E root dot vars x with
  | ok v =>
    cases hv : v.truth with
    | true => simp [Res.bind, Fn.apply, hv]
    | false =>
      simp only [Res.bind, hv, if_false, Bool.false_eq_true]
      rw [execL_single _ _ _ _ (by intro _ _ h; cases h), exec]
      cases eval E root dot vars y with
      | ok w => cases hw : w.truth <;> simp [Res.bind, Res.map, Fn.apply, hv, hw]
      | _ => rfl
  | _ => rfl

/-- Rewriting changes nothing. -/
theorem Rewritten.exec {a b : List TNode} (h : Rewritten a b) : ∀ (E : Env) (root dot : Val) (vars : Vars),
    execL E root dot vars a = execL E root dot vars b := by
  induction h with
  | refl a => intros; rfl
  | symm _ ih => intro E root dot vars; exact (ih E root dot vars).symm
  | trans _ _ ih ih' => intro E root dot vars; exact (ih E root dot vars).trans (ih' E root dot vars)
  | after n _ ih =>
    intro E root dot vars
    by_cases hd : ∃ x e, n = .decl x e
    · obtain ⟨x, e, rfl⟩ := hd
      rw [execL, execL]
      congr 1; funext v; exact ih _ _ _ _
    · have hd' : ∀ x e, n ≠ .decl x e := fun x e h => hd ⟨x, e, h⟩
      rw [execL_one _ _ _ _ _ hd', execL_one _ _ _ _ _ hd', ih]
  | ite e _ _ ih ih' =>
    intro E root dot vars
    refine execL_swap _ _ _ _ _ (by intro _ _ h; cases h) (by intro _ _ h; cases h) ?_
    rw [Tmpl.exec, Tmpl.exec]; congr 1; funext v; rw [ih, ih']
  | with_ e _ _ ih ih' =>
    intro E root dot vars
    refine execL_swap _ _ _ _ _ (by intro _ _ h; cases h) (by intro _ _ h; cases h) ?_
    rw [Tmpl.exec, Tmpl.exec]; congr 1; funext v; rw [ih, ih']
  | loop i x e _ _ ih ih' =>
    intro E root dot vars
    refine execL_swap _ _ _ _ _ (by intro _ _ h; cases h) (by intro _ _ h; cases h) ?_
    rw [Tmpl.exec, Tmpl.exec]; congr 1; funext v
    simp only [ih, ih']
  | texts s t ns =>
    intro E root dot vars
    rw [execL_one _ _ _ _ _ (by intro _ _ h; cases h), execL_one _ _ _ _ _ (by intro _ _ h; cases h),
      execL_one _ _ _ _ _ (by intro _ _ h; cases h), Tmpl.exec, Tmpl.exec, Tmpl.exec]
    exact Res.map_app _ _ _
  | empty ns =>
    intro E root dot vars
    rw [execL_one _ _ _ _ _ (by intro _ _ h; cases h), Tmpl.exec]
    exact Res.map_nil _
  | ifNot e a b ns =>
    intro E root dot vars
    refine execL_swap _ _ _ _ _ (by intro _ _ h; cases h) (by intro _ _ h; cases h) ?_
    rw [Tmpl.exec, Tmpl.exec]
    simp only [eval, evalL]
    cases eval E root dot vars e with
    | ok v =>
      show (if (Val.bool (!v.truth)).truth = true then _ else _) = if v.truth = true then _ else _
      rw [show (Val.bool (!v.truth)).truth = !v.truth from rfl]
      cases v.truth <;> rfl
    | _ => rfl
  | ifAnd x y a b ns =>
    intro E root dot vars
    exact execL_swap _ _ _ _ _ (by intro _ _ h; cases h) (by intro _ _ h; cases h) (exec_ifAnd _ _ _ _ _ _ _ _)
  | ifOr x y a b ns =>
    intro E root dot vars
    exact execL_swap _ _ _ _ _ (by intro _ _ h; cases h) (by intro _ _ h; cases h) (exec_ifOr _ _ _ _ _ _ _ _)
  | ifThen e a b ns ha hb =>
    intro E root dot vars
    rw [execL_one _ _ _ _ _ (by intro _ _ h; cases h), execL_single _ _ _ _ (by intro _ _ h; cases h), Tmpl.exec, Tmpl.exec]
    cases eval E root dot vars e with
    | ok v => cases hv : v.truth <;> simp [Res.bind, hv, execL_app, ha, hb]
    | _ => rfl
  | ifBefore s e a b ns =>
    intro E root dot vars
    rw [execL_one _ _ _ _ _ (by intro _ _ h; cases h), execL_one _ _ _ _ _ (by intro _ _ h; cases h),
      execL_one _ _ _ _ _ (by intro _ _ h; cases h), Tmpl.exec, Tmpl.exec, Tmpl.exec]
    cases eval E root dot vars e with
    | ok v =>
      have key : ∀ r : Res Str, ((r.bind fun t => (execL E root dot vars ns).map (t ++ ·)).map (s ++ ·))
          = ((r.map (s ++ ·)).bind fun t => (execL E root dot vars ns).map (t ++ ·)) := by
        intro r
        cases r with
        | ok t => exact Res.map_app _ _ _
        | _ => rfl
      simp only [Res.bind]
      rw [execL_one _ _ _ _ _ (by intro _ _ h; cases h), execL_one _ _ _ _ _ (by intro _ _ h; cases h), Tmpl.exec]
      cases v.truth
      · exact key (execL E root dot vars b)
      · exact key (execL E root dot vars a)
    | _ => rfl
  | withElse e a b ns =>
    intro E root dot vars
    refine execL_swap _ _ _ _ _ (by intro _ _ h; cases h) (by intro _ _ h; cases h) ?_
    rw [Tmpl.exec, Tmpl.exec, execL_single _ _ _ _ (by intro _ _ h; cases h), Tmpl.exec]
    cases eval E root dot vars e with
    | ok v => cases hv : v.truth <;> simp [Res.bind, hv]
    | _ => rfl
  | withDot c e b ns =>
    intro E root dot vars
    refine execL_swap _ _ _ _ _ (by intro _ _ h; cases h) (by intro _ _ h; cases h) ?_
    rw [Tmpl.exec, Tmpl.exec, execL_single _ _ _ _ (by intro _ _ h; cases h), Tmpl.exec]
    cases eval E root dot vars e with
    | ok v =>
      simp only [Res.bind]
      rw [execL_single _ _ _ _ (by intro _ _ h; cases h), Tmpl.exec, eval]
      rfl
    | _ => rfl
  | withCall f e b ns =>
    intro E root dot vars
    refine execL_swap _ _ _ _ _ (by intro _ _ h; cases h) (by intro _ _ h; cases h) ?_
    rw [Tmpl.exec, Tmpl.exec, execL_single _ _ _ _ (by intro _ _ h; cases h), Tmpl.exec]
    cases eval E root dot vars e with
    | ok v =>
      simp only [Res.bind]
      rw [execL_single _ _ _ _ (by intro _ _ h; cases h), Tmpl.exec, eval]
      rfl
    | _ => rfl
  | inline x c e =>
    intro E root dot vars
    rw [execL, execL_single _ _ _ _ (by intro _ _ h; cases h), Tmpl.exec]
    congr 1; funext v
    rw [execL_single _ _ _ _ (by intro _ _ h; cases h), Tmpl.exec, eval, Vars.find, List.find?_cons_of_pos (by simp)]
    rfl
  | answer ns hc he =>
    intro E root dot vars
    exact execL_swap _ _ _ _ _ (by intro _ _ h; cases h) (by intro _ _ h; cases h)
      (exec_answer E root dot vars hc fun v hv => question_bool E root dot vars he hv)

theorem join_comm (a b : Ctx) : a.join b = b.join a := by
  unfold Ctx.join
  by_cases h : a = b
  · subst h; rfl
  · rw [if_neg h, if_neg (Ne.symm h), Bool.and_comm]
    split
    · rfl
    · cases a <;> cases b <;> try rfl
      dsimp only
      split
      · rename_i h2; obtain ⟨rfl, rfl, rfl⟩ := h2; simp
      · rename_i h2; rw [if_neg]; rintro ⟨rfl, rfl, rfl⟩; exact h2 ⟨rfl, rfl, rfl⟩

/-- What can be put together with a state can be put together with it again. -/
theorem join_again {a b d : Ctx} (h : a.join b = some d) : d.join b = some d := by
  unfold Ctx.join at h
  by_cases hab : a = b
  · rw [if_pos hab] at h; cases h; subst hab; unfold Ctx.join; rw [if_pos rfl]
  · rw [if_neg hab] at h
    by_cases hs : (a.sep && b.sep) = true
    · rw [if_pos hs] at h; cases h
      unfold Ctx.join
      by_cases hb : Ctx.tagSep = b
      · rw [if_pos hb]
      · rw [if_neg hb, if_pos]
        simp only [Bool.and_eq_true] at hs ⊢
        exact ⟨rfl, hs.2⟩
    · rw [if_neg hs] at h
      cases a <;> cases b <;> try cases h
      dsimp only at h
      split at h
      · rename_i h2; obtain ⟨rfl, rfl, rfl⟩ := h2
        cases h
        unfold Ctx.join
        split
        · rfl
        · split
          · rename_i hx; cases hx
          · simp
      · cases h

/-- Two annotated templates that come to the same. -/
def SameNotes (x y : Option (List TNode × Ctx)) : Prop :=
  (x = none ∧ y = none) ∨ ∃ ms ms' d, x = some (ms, d) ∧ y = some (ms', d) ∧ Rewritten ms ms'

/-- A node in front of the same nodes. -/
theorem annotateL_node {c : Ctx} {n m : TNode} (ns : List TNode)
    (h : (annotate c n = none ∧ annotate c m = none) ∨ ∃ n' m' d, annotate c n = some (n', d) ∧ annotate c m = some (m', d) ∧
      ∀ ns, Rewritten (n' :: ns) (m' :: ns)) : SameNotes (annotateL c (n :: ns)) (annotateL c (m :: ns)) := by
  rw [annotateL, annotateL]
  rcases h with ⟨a, b⟩ | ⟨n', m', d, a, b, r⟩
  · rw [a, b]; exact .inl ⟨rfl, rfl⟩
  · rw [a, b]
    dsimp only [Option.bind]
    cases annotateL d ns with
    | none => exact .inl ⟨rfl, rfl⟩
    | some q => exact .inr ⟨_, _, _, rfl, rfl, r q.1⟩

theorem annotateL_one (c : Ctx) (n : TNode) : annotateL c [n] = (annotate c n).map fun p => ([p.1], p.2) := by
  rw [annotateL]
  cases annotate c n <;> rfl

/-- Branches that come to the same. -/
theorem SameNotes.branch {x x' y y' : Option (List TNode × Ctx)} (hx : SameNotes x x') (hy : SameNotes y y') (mk : List TNode → List TNode → TNode)
    (join : Ctx → Ctx → Option Ctx)
    (hm : ∀ {a a' b b'}, Rewritten a a' → Rewritten b b' → ∀ ns, Rewritten (mk a b :: ns) (mk a' b' :: ns)) :
    let f := fun (x y : Option (List TNode × Ctx)) => x.bind fun p => y.bind fun q => (join p.2 q.2).map fun d => (mk p.1 q.1, d)
    (f x y = none ∧ f x' y' = none) ∨ ∃ n' m' d, f x y = some (n', d) ∧ f x' y' = some (m', d) ∧ ∀ ns, Rewritten (n' :: ns) (m' :: ns) := by
  intro f
  rcases hx with ⟨rfl, rfl⟩ | ⟨a, a', d, rfl, rfl, ra⟩
  · exact .inl ⟨rfl, rfl⟩
  · rcases hy with ⟨rfl, rfl⟩ | ⟨b, b', d', rfl, rfl, rb⟩
    · exact .inl ⟨rfl, rfl⟩
    · cases hj : join d d' with
      | none => left; constructor <;> simp [f, hj]
      | some j => right; exact ⟨mk a b, mk a' b', j, by simp [f, hj], by simp [f, hj], hm ra rb⟩

/-- Templates turned have the same states at their actions. -/
theorem Turned.notes {a b : List TNode} (h : Turned a b) : ∀ c : Ctx, SameNotes (annotateL c a) (annotateL c b) := by
  have self : ∀ x : Option (List TNode × Ctx), SameNotes x x := by
    intro x
    cases x with
    | none => exact .inl ⟨rfl, rfl⟩
    | some p => exact .inr ⟨_, _, _, rfl, rfl, .refl _⟩
  induction h with
  | refl a => intro c; exact self _
  | symm _ ih =>
    intro c
    rcases ih c with ⟨a, b⟩ | ⟨ms, ms', d, a, b, r⟩
    · exact .inl ⟨b, a⟩
    · exact .inr ⟨_, _, _, b, a, r.symm⟩
  | trans _ _ ih ih' =>
    intro c
    rcases ih c with ⟨a, b⟩ | ⟨ms, ms', d, a, b, r⟩
    · rcases ih' c with ⟨a', b'⟩ | ⟨_, _, _, a', b', r'⟩
      · exact .inl ⟨a, b'⟩
      · rw [b] at a'; cases a'
    · rcases ih' c with ⟨a', b'⟩ | ⟨_, _, _, a', b', r'⟩
      · rw [b] at a'; cases a'
      · rw [b] at a'; cases a'; exact .inr ⟨_, _, _, a, b', r.trans r'⟩
  | after n _ ih =>
    intro c
    rw [annotateL, annotateL]
    cases annotate c n with
    | none => exact .inl ⟨rfl, rfl⟩
    | some p =>
      dsimp only [Option.bind]
      rcases ih p.2 with ⟨a, b⟩ | ⟨ms, ms', d, a, b, r⟩
      · rw [a, b]; exact .inl ⟨rfl, rfl⟩
      · rw [a, b]; exact .inr ⟨_, _, _, rfl, rfl, .after _ r⟩
  | ite e _ _ ih ih' =>
    intro c
    refine annotateL_node _ ?_
    rw [annotate, annotate]
    exact SameNotes.branch (ih c) (ih' c) (.ite e) Ctx.join fun ra rb ns => .ite e ra rb
  | with_ e _ _ ih ih' =>
    intro c
    refine annotateL_node _ ?_
    rw [annotate, annotate]
    exact SameNotes.branch (ih c) (ih' c) (.with_ e) Ctx.join fun ra rb ns => .with_ e ra rb
  | loop i x e _ _ ih ih' =>
    intro c
    refine annotateL_node _ ?_
    rw [annotate, annotate]
    have := SameNotes.branch (ih c) (ih' c) (.loop i x e) (fun a b => if a = c ∧ b = c then some c else none) fun ra rb ns => .loop i x e ra rb
    have e2 : ∀ (P : Prop) [Decidable P] (t : TNode), (if P then some (t, c) else none) = (if P then some c else none).map fun d => (t, d) := by
      intro P _ t; by_cases h : P <;> simp [h]
    simp only [e2]
    exact this
  | ifNot e a b ns =>
    intro c
    refine annotateL_node _ ?_
    rw [annotate, annotate]
    cases ha : annotateL c a with
    | none => left; cases annotateL c b <;> exact ⟨rfl, rfl⟩
    | some p =>
      cases hb : annotateL c b with
      | none => exact .inl ⟨rfl, rfl⟩
      | some q =>
        dsimp only [Option.bind]
        rw [join_comm q.2 p.2]
        cases p.2.join q.2 with
        | none => exact .inl ⟨rfl, rfl⟩
        | some d => exact .inr ⟨_, _, _, rfl, rfl, fun ns => .ifNot _ _ _ _⟩
  | ifAnd x y a b ns =>
    intro c
    refine annotateL_node _ ?_
    rw [annotate, annotate, annotateL_one, annotate]
    cases ha : annotateL c a with
    | none => exact .inl ⟨rfl, rfl⟩
    | some p =>
      cases hb : annotateL c b with
      | none => exact .inl ⟨rfl, rfl⟩
      | some q =>
        dsimp only [Option.bind]
        cases hj : p.2.join q.2 with
        | none => exact .inl ⟨rfl, rfl⟩
        | some d =>
          dsimp only [Option.map]
          rw [join_again hj]
          exact .inr ⟨_, _, _, rfl, rfl, fun ns => .ifAnd _ _ _ _ _⟩
  | ifOr x y a b ns =>
    intro c
    refine annotateL_node _ ?_
    rw [annotate, annotate, annotateL_one, annotate]
    cases ha : annotateL c a with
    | none => exact .inl ⟨rfl, rfl⟩
    | some p =>
      cases hb : annotateL c b with
      | none => exact .inl ⟨rfl, rfl⟩
      | some q =>
        dsimp only [Option.bind]
        cases hj : p.2.join q.2 with
        | none => exact .inl ⟨rfl, rfl⟩
        | some d =>
          dsimp only [Option.map]
          rw [join_comm p.2 d, join_again ((join_comm q.2 p.2).trans hj)]
          exact .inr ⟨_, _, _, rfl, rfl, fun ns => .ifOr _ _ _ _ _⟩
  | withDot k e b ns =>
    intro c
    refine annotateL_node _ ?_
    rw [annotate, annotate, annotateL_one, annotateL_one, annotate, annotate]
    by_cases ho : c.open_ = true
    · rw [if_pos ho, if_pos ho]
      dsimp only [Option.bind, Option.map]
      cases annotateL c b with
      | none => exact .inl ⟨rfl, rfl⟩
      | some q =>
        dsimp only
        cases c.join q.2 with
        | none => exact .inl ⟨rfl, rfl⟩
        | some d => exact .inr ⟨_, _, _, rfl, rfl, fun ns => .withDot _ _ _ _⟩
    · rw [if_neg ho, if_neg ho]; exact .inl ⟨rfl, rfl⟩
  | withCall f e b ns =>
    intro c
    refine annotateL_node _ ?_
    rw [annotate, annotate, annotateL_one, annotateL_one, annotate, annotate]
    by_cases ho : c = .text
    · rw [if_pos ho, if_pos ho]
      dsimp only [Option.bind, Option.map]
      cases annotateL c b with
      | none => exact .inl ⟨rfl, rfl⟩
      | some q =>
        dsimp only
        cases c.join q.2 with
        | none => exact .inl ⟨rfl, rfl⟩
        | some d => exact .inr ⟨_, _, _, rfl, rfl, fun ns => .withCall _ _ _ _⟩
    · rw [if_neg ho, if_neg ho]; exact .inl ⟨rfl, rfl⟩
  | inline x k e =>
    intro c
    rw [annotateL, show annotate c (.decl x e) = some (.decl x e, c) by rw [annotate]]
    dsimp only [Option.bind]
    rw [annotateL_one, annotateL_one, annotate, annotate]
    by_cases ho : c.open_ = true
    · rw [if_pos ho, if_pos ho]; exact .inr ⟨_, _, _, rfl, rfl, .inline _ _ _⟩
    · rw [if_neg ho, if_neg ho]; exact .inl ⟨rfl, rfl⟩

/-- Templates rewritten do the same. -/
theorem run_rewritten {T T' : Compiled} (h : RewrittenAll T T') (M : Mode) (S : Site) (hp : Heap) :
    ∀ (n : Nat) (t : Task), run M T S hp n t = run M T' S hp n t := by
  intro n
  induction n with
  | zero => intro t; rfl
  | succ n ih =>
    have e : run M T S hp n = run M T' S hp n := funext ih
    intro t
    cases t with
    | content c => rw [Tmpl.run, Tmpl.run, e]
    | template f v =>
      rw [Tmpl.run, Tmpl.run, e]
      rcases h f with ⟨a, b⟩ | ⟨ns, ns', a, b, r⟩
      · rw [a, b]
      · rw [a, b]; exact r.exec _ _ _ _

end Booklit.Tmpl
