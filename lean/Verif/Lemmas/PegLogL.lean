import Verif.Model.PegLog
import Verif.Lemmas.PegMaxFail

/-!
The interpreter with a log: its results are those without, and what is kept by each attempt at a token is kept by all.
-/

namespace Booklit.Peg

open Booklit

theorem runWith_run {L : Type} (note : Expr → PSt → L → L) (g : Grammar) : ∀ (n : Nat) (t : Task) (st : PSt) (far : L), (runWith note g n t st far).map Prod.fst = run g n t st
  | 0, _, _, _ => rfl
  | n + 1, t, st, far => by
    have ih := runWith_run note g n
    cases t with
    | expr e =>
      cases e with
      | lit s => rfl
      | cls neg cs rs => rfl
      | any => rfl
      | seq es =>
        rw [runWith, run, ← ih _ _ far]
        generalize runWith note g n _ st far = x
        rcases x with _ | ⟨_ | _ | _, f⟩ <;> rfl
      | choice es => rw [runWith, run, ih]
      | star e => rw [runWith, run, ih]
      | plus e =>
        rw [runWith, run, ← ih _ _ far]
        generalize runWith note g n _ st.push far = x
        rcases x with _ | ⟨⟨v, st'⟩ | _ | _, f⟩
        · rfl
        · dsimp only [Option.map]
          rw [← ih _ _ f]
          generalize runWith note g n _ (st'.pop st) f = y
          rcases y with _ | ⟨⟨v, st''⟩ | _ | _, f'⟩
          · rfl
          · cases v <;> rfl
          · rfl
          · rfl
        · rfl
        · rfl
      | opt e =>
        rw [runWith, run, ← ih _ _ far]
        generalize runWith note g n _ st.push far = x
        rcases x with _ | ⟨_ | _ | _, f⟩ <;> rfl
      | not e =>
        rw [runWith, run, ← ih _ _ far]
        generalize runWith note g n _ _ far = x
        rcases x with _ | ⟨_ | _ | _, f⟩ <;> rfl
      | label l e =>
        rw [runWith, run, ← ih _ _ far]
        generalize runWith note g n _ _ far = x
        rcases x with _ | ⟨_ | _ | _, f⟩ <;> rfl
      | rule r =>
        rw [runWith, run, ← ih _ _ far]
        generalize runWith note g n _ _ far = x
        rcases x with _ | ⟨_ | _ | _, f⟩ <;> rfl
      | act a e =>
        rw [runWith, run, ← ih _ _ far]
        generalize runWith note g n _ _ far = x
        rcases x with _ | ⟨⟨v, st'⟩ | _ | _, f⟩
        · rfl
        · dsimp only [Option.map]
          generalize g.acts a st.pos (st'.sliceFrom st) st'.env st'.store = y
          rcases y with _ | ⟨_, _⟩ <;> rfl
        · rfl
        · rfl
    | seq es =>
      cases es with
      | nil => rfl
      | cons e es =>
        rw [runWith, run, ← ih _ _ far]
        generalize runWith note g n _ _ far = x
        rcases x with _ | ⟨⟨v, st'⟩ | _ | _, f⟩
        · rfl
        · dsimp only [Option.map]
          rw [← ih _ _ f]
          generalize runWith note g n _ st' f = y
          rcases y with _ | ⟨⟨v, st''⟩ | _ | _, f'⟩
          · rfl
          · cases v <;> rfl
          · rfl
          · rfl
        · rfl
        · rfl
    | choice es =>
      cases es with
      | nil => rfl
      | cons e es =>
        rw [runWith, run, ← ih _ _ far]
        generalize runWith note g n _ _ far = x
        rcases x with _ | ⟨⟨v, st'⟩ | _ | _, f⟩
        · rfl
        · rfl
        · exact ih _ _ f
        · rfl
    | star e =>
      rw [runWith, run, ← ih _ _ far]
      generalize runWith note g n _ _ far = x
      rcases x with _ | ⟨⟨v, st'⟩ | _ | _, f⟩
      · rfl
      · dsimp only [Option.map]
        rw [← ih _ _ f]
        generalize runWith note g n _ (st'.pop st) f = y
        rcases y with _ | ⟨⟨v, st''⟩ | _ | _, f'⟩
        · rfl
        · cases v <;> rfl
        · rfl
        · rfl
      · rfl
      · rfl

mutual
/-- The property holds of an expression and of all within it. -/
def Expr.all (p : Expr → Bool) : Expr → Bool
  | .seq es => p (.seq es) && allE p es
  | .choice es => p (.choice es) && allE p es
  | .star e => p (.star e) && e.all p
  | .plus e => p (.plus e) && e.all p
  | .opt e => p (.opt e) && e.all p
  | .not e => p (.not e) && e.all p
  | .label l e => p (.label l e) && e.all p
  | .act a e => p (.act a e) && e.all p
  | .lit s => p (.lit s)
  | .cls neg cs rs => p (.cls neg cs rs)
  | .any => p .any
  | .rule r => p (.rule r)
def allE (p : Expr → Bool) : List Expr → Bool
  | [] => true
  | e :: es => e.all p && allE p es
end

def Task.all (p : Expr → Bool) : Task → Bool
  | .expr e => e.all p
  | .seq es => allE p es
  | .choice es => allE p es
  | .star e => e.all p

mutual
theorem all_true : ∀ e : Expr, e.all (fun _ => true) = true
  | .seq es => by simp [Expr.all, allE_true es]
  | .choice es => by simp [Expr.all, allE_true es]
  | .star e => by simp [Expr.all, all_true e]
  | .plus e => by simp [Expr.all, all_true e]
  | .opt e => by simp [Expr.all, all_true e]
  | .not e => by simp [Expr.all, all_true e]
  | .label l e => by simp [Expr.all, all_true e]
  | .act a e => by simp [Expr.all, all_true e]
  | .lit s => rfl
  | .cls neg cs rs => rfl
  | .any => rfl
  | .rule r => rfl
theorem allE_true : ∀ es : List Expr, allE (fun _ => true) es = true
  | [] => rfl
  | e :: es => by simp [allE, all_true e, allE_true es]
end

theorem Task.all_true (t : Task) : t.all (fun _ => true) = true := by
  cases t with
  | expr e => exact Peg.all_true e
  | seq es => exact allE_true es
  | choice es => exact allE_true es
  | star e => exact Peg.all_true e

theorem all_seq {p : Expr → Bool} {es : List Expr} (h : Task.all p (.expr (.seq es)) = true) : Task.all p (.seq es) = true := by
  simp only [Task.all, Expr.all, Bool.and_eq_true] at h
  exact h.2

theorem all_choice {p : Expr → Bool} {es : List Expr} (h : Task.all p (.expr (.choice es)) = true) : Task.all p (.choice es) = true := by
  simp only [Task.all, Expr.all, Bool.and_eq_true] at h
  exact h.2

theorem all_star {p : Expr → Bool} {e : Expr} (h : Task.all p (.expr (.star e)) = true) : Task.all p (.star e) = true := by
  simp only [Task.all, Expr.all, Bool.and_eq_true] at h
  exact h.2

theorem all_plus {p : Expr → Bool} {e : Expr} (h : Task.all p (.expr (.plus e)) = true) : Task.all p (.expr e) = true := by
  simp only [Task.all, Expr.all, Bool.and_eq_true] at h
  exact h.2

theorem all_opt {p : Expr → Bool} {e : Expr} (h : Task.all p (.expr (.opt e)) = true) : Task.all p (.expr e) = true := by
  simp only [Task.all, Expr.all, Bool.and_eq_true] at h
  exact h.2

theorem all_not {p : Expr → Bool} {e : Expr} (h : Task.all p (.expr (.not e)) = true) : Task.all p (.expr e) = true := by
  simp only [Task.all, Expr.all, Bool.and_eq_true] at h
  exact h.2

theorem all_label {p : Expr → Bool} {l : Lbl} {e : Expr} (h : Task.all p (.expr (.label l e)) = true) : Task.all p (.expr e) = true := by
  simp only [Task.all, Expr.all, Bool.and_eq_true] at h
  exact h.2

theorem all_act {p : Expr → Bool} {a : Act} {e : Expr} (h : Task.all p (.expr (.act a e)) = true) : Task.all p (.expr e) = true := by
  simp only [Task.all, Expr.all, Bool.and_eq_true] at h
  exact h.2

theorem all_head {p : Expr → Bool} {e : Expr} {es : List Expr} (h : allE p (e :: es) = true) : Task.all p (.expr e) = true := by
  simp only [allE, Bool.and_eq_true] at h
  exact h.1

theorem all_tail {p : Expr → Bool} {e : Expr} {es : List Expr} (h : allE p (e :: es) = true) : allE p es = true := by
  simp only [allE, Bool.and_eq_true] at h
  exact h.2

/-- What is kept by each attempt at a token, with an order on the logs. -/
structure LogInv {L : Type} (note : Expr → PSt → L → L) (p : Expr → Bool) (P : PSt → L → Prop) (le : L → L → Prop) : Prop where
  refl : ∀ l, le l l
  trans : ∀ {a b c}, le a b → le b c → le a c
  lit : ∀ s st l, p (.lit s) = true → P st l → le l (note (.lit s) st l) ∧ P (runLit s st).st (note (.lit s) st l)
  cls : ∀ neg cs rs st l, p (.cls neg cs rs) = true → P st l →
    le l (note (.cls neg cs rs) st l) ∧ P (runCls neg cs rs st).st (note (.cls neg cs rs) st l)
  any : ∀ st l, p .any = true → P st l → le l (note .any st l) ∧ P (runAny st).st (note .any st l)
  same : ∀ {st st' l}, P st l → st'.rest = st.rest → st'.pos = st.pos → st'.maxFail = st.maxFail → P st' l
  back : ∀ {st st' st'' l l'}, P st l → P st' l' → le l l' → st''.rest = st.rest → st''.pos = st.pos → st''.maxFail = st'.maxFail → P st'' l'

variable {L : Type} {note : Expr → PSt → L → L} {p : Expr → Bool} {P : PSt → L → Prop} {le : L → L → Prop} {g : Grammar}

theorem LogInv.push (H : LogInv note p P le) {st : PSt} {l : L} (h : P st l) : P st.push l := H.same h rfl rfl rfl

theorem runWith_inv (H : LogInv note p P le) (hg : ∀ r, (g.rules r).all p = true) : ∀ (n : Nat) (t : Task) (st : PSt) (far : L) (r : R) (f : L),
    t.all p = true → P st far → runWith note g n t st far = some (r, f) → le far f ∧ P r.st f
  | 0, _, _, _, _, _, _, _, h => by cases h
  | n + 1, t, st, far, r, f, ha, ho, h => by
    have ih := runWith_inv H hg n
    cases t with
    | expr e =>
      cases e with
      | lit s => cases h; exact H.lit s st far ha ho
      | cls neg cs rs => cases h; exact H.cls neg cs rs st far ha ho
      | any => cases h; exact H.any st far ha ho
      | seq es =>
        rw [runWith] at h
        cases hx : runWith note g n (.seq es) st far with
        | none => rw [hx] at h; cases h
        | some x =>
          obtain ⟨x, fx⟩ := x
          have hi := ih _ _ _ _ _ (all_seq ha) ho hx
          rw [hx] at h
          cases x <;> cases h
          · exact hi
          · exact ⟨hi.1, H.back ho hi.2 hi.1 rfl rfl rfl⟩
          · exact hi
      | choice es => exact ih _ _ _ _ _ (all_choice ha) ho h
      | star e => exact ih _ _ _ _ _ (all_star ha) ho h
      | plus e =>
        rw [runWith] at h
        cases hx : runWith note g n (.expr e) st.push far with
        | none => rw [hx] at h; cases h
        | some x =>
          obtain ⟨x, fx⟩ := x
          have hi := ih _ _ _ _ _ (all_plus ha) (H.push ho) hx
          rw [hx] at h
          cases x with
          | ok v st' =>
            dsimp only at h
            cases hy : runWith note g n (.star e) (st'.pop st) fx with
            | none => rw [hy] at h; cases h
            | some y =>
              obtain ⟨y, fy⟩ := y
              have hj := ih (.star e) _ _ _ _ (all_plus ha) (H.same (st' := st'.pop st) hi.2 rfl rfl rfl) hy
              rw [hy] at h
              cases y with
              | ok w st'' => cases w <;> (cases h; exact ⟨H.trans hi.1 hj.1, hj.2⟩)
              | fail st'' => cases h; exact ⟨H.trans hi.1 hj.1, hj.2⟩
              | panic st'' => cases h; exact ⟨H.trans hi.1 hj.1, hj.2⟩
          | fail st' => cases h; exact ⟨hi.1, H.same hi.2 rfl rfl rfl⟩
          | panic st' => cases h; exact hi
      | opt e =>
        rw [runWith] at h
        cases hx : runWith note g n (.expr e) st.push far with
        | none => rw [hx] at h; cases h
        | some x =>
          obtain ⟨x, fx⟩ := x
          have hi := ih _ _ _ _ _ (all_opt ha) (H.push ho) hx
          rw [hx] at h
          cases x <;> cases h
          · exact ⟨hi.1, H.same hi.2 rfl rfl rfl⟩
          · exact ⟨hi.1, H.same hi.2 rfl rfl rfl⟩
          · exact hi
      | not e =>
        rw [runWith] at h
        cases hx : runWith note g n (.expr e) { st.push with invert := !st.invert } far with
        | none => rw [hx] at h; cases h
        | some x =>
          obtain ⟨x, fx⟩ := x
          have hi := ih _ _ _ _ _ (all_not ha) (H.same (st' := { st.push with invert := !st.invert }) ho rfl rfl rfl) hx
          rw [hx] at h
          cases x <;> cases h
          · exact ⟨hi.1, H.back ho hi.2 hi.1 rfl rfl rfl⟩
          · exact ⟨hi.1, H.back ho hi.2 hi.1 rfl rfl rfl⟩
          · exact hi
      | label l e =>
        rw [runWith] at h
        cases hx : runWith note g n (.expr e) st.push far with
        | none => rw [hx] at h; cases h
        | some x =>
          obtain ⟨x, fx⟩ := x
          have hi := ih _ _ _ _ _ (all_label ha) (H.push ho) hx
          rw [hx] at h
          cases x <;> cases h
          · exact ⟨hi.1, H.same hi.2 rfl rfl rfl⟩
          · exact ⟨hi.1, H.same hi.2 rfl rfl rfl⟩
          · exact hi
      | rule r =>
        rw [runWith] at h
        cases hx : runWith note g n (.expr (g.rules r)) st.push far with
        | none => rw [hx] at h; cases h
        | some x =>
          obtain ⟨x, fx⟩ := x
          have hi := ih (.expr (g.rules r)) _ _ _ _ (hg r) (H.push ho) hx
          rw [hx] at h
          cases x <;> cases h
          · exact ⟨hi.1, H.same hi.2 rfl rfl rfl⟩
          · exact ⟨hi.1, H.same hi.2 rfl rfl rfl⟩
          · exact hi
      | act a e =>
        rw [runWith] at h
        cases hx : runWith note g n (.expr e) st far with
        | none => rw [hx] at h; cases h
        | some x =>
          obtain ⟨x, fx⟩ := x
          have hi := ih _ _ _ _ _ (all_act ha) ho hx
          rw [hx] at h
          cases x with
          | ok v st' =>
            dsimp only at h
            cases hy : g.acts a st.pos (st'.sliceFrom st) st'.env st'.store with
            | none => rw [hy] at h; cases h; exact hi
            | some y =>
              obtain ⟨v', s⟩ := y
              rw [hy] at h
              cases h
              exact ⟨hi.1, H.same hi.2 rfl rfl rfl⟩
          | fail st' => cases h; exact hi
          | panic st' => cases h; exact hi
    | seq es =>
      cases es with
      | nil => cases h; exact ⟨H.refl _, ho⟩
      | cons e es =>
        rw [runWith] at h
        cases hx : runWith note g n (.expr e) st far with
        | none => rw [hx] at h; cases h
        | some x =>
          obtain ⟨x, fx⟩ := x
          have hi := ih _ _ _ _ _ (all_head ha) ho hx
          rw [hx] at h
          cases x with
          | ok v st' =>
            dsimp only at h
            cases hy : runWith note g n (.seq es) st' fx with
            | none => rw [hy] at h; cases h
            | some y =>
              obtain ⟨y, fy⟩ := y
              have hj := ih (.seq es) _ _ _ _ (all_tail ha) hi.2 hy
              rw [hy] at h
              cases y with
              | ok w st'' => cases w <;> (cases h; exact ⟨H.trans hi.1 hj.1, hj.2⟩)
              | fail st'' => cases h; exact ⟨H.trans hi.1 hj.1, hj.2⟩
              | panic st'' => cases h; exact ⟨H.trans hi.1 hj.1, hj.2⟩
          | fail st' => cases h; exact hi
          | panic st' => cases h; exact hi
    | choice es =>
      cases es with
      | nil => cases h; exact ⟨H.refl _, ho⟩
      | cons e es =>
        rw [runWith] at h
        cases hx : runWith note g n (.expr e) st.push far with
        | none => rw [hx] at h; cases h
        | some x =>
          obtain ⟨x, fx⟩ := x
          have hi := ih _ _ _ _ _ (all_head ha) (H.push ho) hx
          rw [hx] at h
          cases x with
          | ok v st' => cases h; exact ⟨hi.1, H.same hi.2 rfl rfl rfl⟩
          | fail st' =>
            have hj := ih (.choice es) _ _ _ _ (all_tail ha) (H.same (st' := st'.pop st) hi.2 rfl rfl rfl) h
            exact ⟨H.trans hi.1 hj.1, hj.2⟩
          | panic st' => cases h; exact hi
    | star e =>
      rw [runWith] at h
      cases hx : runWith note g n (.expr e) st.push far with
      | none => rw [hx] at h; cases h
      | some x =>
        obtain ⟨x, fx⟩ := x
        have hi := ih (.expr e) _ _ _ _ ha (H.push ho) hx
        rw [hx] at h
        cases x with
        | ok v st' =>
          dsimp only at h
          cases hy : runWith note g n (.star e) (st'.pop st) fx with
          | none => rw [hy] at h; cases h
          | some y =>
            obtain ⟨y, fy⟩ := y
            have hj := ih _ _ _ _ _ ha (H.same (st' := st'.pop st) hi.2 rfl rfl rfl) hy
            rw [hy] at h
            cases y with
            | ok w st'' => cases w <;> (cases h; exact ⟨H.trans hi.1 hj.1, hj.2⟩)
            | fail st'' => cases h; exact ⟨H.trans hi.1 hj.1, hj.2⟩
            | panic st'' => cases h; exact ⟨H.trans hi.1 hj.1, hj.2⟩
        | fail st' => cases h; exact ⟨hi.1, H.same hi.2 rfl rfl rfl⟩
        | panic st' => cases h; exact hi

end Booklit.Peg
