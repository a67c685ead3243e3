import Verif.Lemmas.PegAdv

/-!
A weakest-precondition calculus for runs: `wp g n t st K` says that every run of the task with fuel at most
`n` either fails, or succeeds with a value and state satisfying `K`; in particular it does not panic.
-/

namespace Booklit.Peg

open Booklit

/-- Every run of `t` from `st` with fuel at most `n` that succeeds satisfies `K`; none panics. -/
def wp (g : Grammar) (n : Nat) (t : Task) (st : PSt) (K : Val → PSt → Prop) : Prop :=
  ∀ m, m ≤ n → ∀ r, run g m t st = some r →
    match r with
    | .ok v st' => K v st'
    | .fail _ => True
    | .panic _ => False

theorem wp.mono {g n t st} {K K' : Val → PSt → Prop} (h : wp g n t st K)
    (hk : ∀ v st', (∃ w, Moved st w st') → K v st' → K' v st') : wp g n t st K' := by
  intro m hm r hr
  have := h m hm r hr
  cases r with
  | ok v st' => exact hk v st' (run_sound _ _ _ _ _ hr).adv.1 this
  | fail _ => trivial
  | panic _ => exact this

theorem wp_lit {g n s st} {K : Val → PSt → Prop}
    (h : ∀ next b p, st.rest = s ++ next → K (.bytes s) ((st.skip s next).failAt b p)) :
    wp g n (.expr (.lit s)) st K := by
  intro m _ r hr
  cases m with
  | zero => simp [run] at hr
  | succ m =>
    simp only [run, Option.some.injEq] at hr
    by_cases hn : ∃ next, st.rest = s ++ next
    · obtain ⟨next, hn⟩ := hn
      rw [runLit_ok hn] at hr; subst hr; exact h _ _ _ hn
    · rw [runLit_fail hn] at hr; subst hr; trivial

theorem wp_cls {g n neg cs rs st} {K : Val → PSt → Prop}
    (h : ∀ c next b p, st.rest = c :: next → clsMatches neg cs rs c = true →
      K (.bytes [c]) ((st.skip [c] next).failAt b p)) :
    wp g n (.expr (.cls neg cs rs)) st K := by
  intro m _ r hr
  cases m with
  | zero => simp [run] at hr
  | succ m =>
    simp only [run, Option.some.injEq] at hr
    by_cases hn : ∀ c r, st.rest = c :: r → clsMatches neg cs rs c = false
    · rw [runCls_fail hn] at hr; subst hr; trivial
    · simp only [Classical.not_forall] at hn
      obtain ⟨c, r', hr', hc⟩ := hn
      have hc : clsMatches neg cs rs c = true := by simpa using hc
      rw [runCls_ok hr' hc] at hr
      subst hr; exact h _ _ _ _ hr' hc

theorem wp_any {g n st} {K : Val → PSt → Prop}
    (h : ∀ c next b p, st.rest = c :: next → K (.bytes [c]) ((st.skip [c] next).failAt b p)) :
    wp g n (.expr .any) st K := by
  intro m _ r hr
  cases m with
  | zero => simp [run] at hr
  | succ m =>
    simp only [run, Option.some.injEq] at hr
    cases hn : st.rest with
    | nil => rw [runAny_fail hn] at hr; subst hr; trivial
    | cons c next => rw [runAny_ok hn] at hr; subst hr; exact h _ _ _ _ hn

theorem wp_seq {g n es st} {K : Val → PSt → Prop} (h : wp g n (.seq es) st K) : wp g n (.expr (.seq es)) st K := by
  intro m hm r hr
  cases m with
  | zero => simp [run] at hr
  | succ m =>
    simp only [run] at hr
    cases hr' : run g m (.seq es) st with
    | none => simp [hr'] at hr
    | some r' =>
      have := h m (by omega) r' hr'
      rw [hr'] at hr
      cases r' <;> cases hr <;> first | exact this | trivial

theorem wp_nil {g n st} {K : Val → PSt → Prop} (h : K (.list []) st) : wp g n (.seq []) st K := by
  intro m hm r hr
  cases m with
  | zero => simp [run] at hr
  | succ m => simp only [run] at hr; cases hr; exact h

theorem wp_cons {g n e es st} {K : Val → PSt → Prop}
    (h : wp g n (.expr e) st fun v st' => wp g n (.seq es) st' fun w st'' => ∀ vs, w = .list vs → K (.list (v :: vs)) st'') :
    wp g n (.seq (e :: es)) st K := by
  intro m hm r hr
  cases m with
  | zero => simp [run] at hr
  | succ m =>
    have hb := run_sound g _ _ _ _ hr
    simp only [run] at hr
    cases hr' : run g m (.expr e) st with
    | none => simp [hr'] at hr
    | some r' =>
      have h1 := h m (by omega) r' hr'
      rw [hr'] at hr
      cases r' with
      | ok v st' =>
        simp only at hr h1
        cases hs : run g m (.seq es) st' with
        | none => simp [hs] at hr
        | some r'' =>
          have h2 := h1 m (by omega) r'' hs
          have hsh := (run_shape g m).2 _ _ _ hs
          rw [hs] at hr
          cases r'' with
          | ok w st'' => cases w <;> first | exact hsh.elim | (cases hr; exact h2 _ rfl)
          | fail _ => cases hr; trivial
          | panic _ => cases hr; exact h2
      | fail st' => cases hr; trivial
      | panic st' => exact h1.elim

theorem wp_choice {g n es st} {K : Val → PSt → Prop} (h : wp g n (.choice es) st K) :
    wp g n (.expr (.choice es)) st K := by
  intro m hm r hr
  cases m with
  | zero => simp [run] at hr
  | succ m => simp only [run] at hr; exact h m (by omega) r hr

theorem wp_choice_nil {g n st} {K : Val → PSt → Prop} : wp g n (.choice []) st K := by
  intro m hm r hr
  cases m with
  | zero => simp [run] at hr
  | succ m => simp only [run] at hr; cases hr; trivial

theorem wp_alt {g n e es st} {K : Val → PSt → Prop}
    (h1 : wp g n (.expr e) st.push fun v st' => K v (st'.pop st))
    (h2 : ∀ st', st'.rest = st.rest → st'.pos = st.pos → st'.env = st.env → wp g n (.choice es) st' K) :
    wp g n (.choice (e :: es)) st K := by
  intro m hm r hr
  cases m with
  | zero => simp [run] at hr
  | succ m =>
    simp only [run] at hr
    cases hr' : run g m (.expr e) st.push with
    | none => simp [hr'] at hr
    | some r' =>
      have h3 := h1 m (by omega) r' hr'
      rw [hr'] at hr
      cases r' with
      | ok v st' => cases hr; exact h3
      | fail st' =>
        have ha := (run_sound _ _ _ _ _ hr').adv.2 rfl
        exact h2 (st'.pop st) ha.1 ha.2 rfl m (by omega) r hr
      | panic _ => exact h3.elim

theorem wp_label {g n l e st} {K : Val → PSt → Prop}
    (h : wp g n (.expr e) st.push fun v st' => K v ((st'.pop st).bind l v)) :
    wp g n (.expr (.label l e)) st K := by
  intro m hm r hr
  cases m with
  | zero => simp [run] at hr
  | succ m =>
    simp only [run] at hr
    cases hr' : run g m (.expr e) st.push with
    | none => simp [hr'] at hr
    | some r' =>
      have := h m (by omega) r' hr'
      rw [hr'] at hr
      cases r' <;> cases hr <;> first | exact this | trivial

theorem wp_opt {g n e st} {K : Val → PSt → Prop}
    (h : wp g n (.expr e) st.push fun v st' => K v (st'.pop st))
    (h2 : ∀ st', st'.rest = st.rest → st'.pos = st.pos → st'.env = st.env → K .nil st') :
    wp g n (.expr (.opt e)) st K := by
  intro m hm r hr
  cases m with
  | zero => simp [run] at hr
  | succ m =>
    simp only [run] at hr
    cases hr' : run g m (.expr e) st.push with
    | none => simp [hr'] at hr
    | some r' =>
      have := h m (by omega) r' hr'
      rw [hr'] at hr
      cases r' with
      | ok v st' => cases hr; exact this
      | fail st' =>
        have ha := (run_sound _ _ _ _ _ hr').adv.2 rfl
        cases hr; exact h2 _ ha.1 ha.2 rfl
      | panic _ => exact this.elim

theorem wp_not {g n e st} {K : Val → PSt → Prop}
    (h : wp g n (.expr e) { st.push with invert := !st.invert } fun _ _ => True)
    (h2 : ∀ st', st'.rest = st.rest → st'.pos = st.pos → st'.env = st.env → K .nil st') :
    wp g n (.expr (.not e)) st K := by
  intro m hm r hr
  cases m with
  | zero => simp [run] at hr
  | succ m =>
    simp only [run] at hr
    cases hr' : run g m (.expr e) { st.push with invert := !st.invert } with
    | none => simp [hr'] at hr
    | some r' =>
      have := h m (by omega) r' hr'
      rw [hr'] at hr
      cases r' with
      | ok v st' => cases hr; trivial
      | fail st' => cases hr; exact h2 _ rfl rfl rfl
      | panic _ => exact this.elim

theorem wp_act {g n a e st} {K : Val → PSt → Prop}
    (h : wp g n (.expr e) st fun _ st' =>
      ∃ v' s, g.acts a st.pos (st'.sliceFrom st) st'.env st'.store = some (v', s) ∧ K v' { st' with store := s }) :
    wp g n (.expr (.act a e)) st K := by
  intro m hm r hr
  cases m with
  | zero => simp [run] at hr
  | succ m =>
    simp only [run] at hr
    cases hr' : run g m (.expr e) st with
    | none => simp [hr'] at hr
    | some r' =>
      have := h m (by omega) r' hr'
      rw [hr'] at hr
      cases r' with
      | ok v st' =>
        obtain ⟨v', s, ha, hk⟩ := this
        simp only [ha] at hr
        cases hr; exact hk
      | fail _ => cases hr; trivial
      | panic _ => exact this.elim

theorem wp_rule {g n r st} {K : Val → PSt → Prop}
    (h : wp g n (.expr (g.rules r)) st.push fun v st' => K v (st'.pop st)) :
    wp g (n + 1) (.expr (.rule r)) st K := by
  intro m hm r hr
  cases m with
  | zero => simp [run] at hr
  | succ m =>
    simp only [run] at hr
    rename_i r'
    cases hr' : run g m (.expr (g.rules r')) st.push with
    | none => simp [hr'] at hr
    | some r' =>
      have := h m (by omega) r' hr'
      rw [hr'] at hr
      cases r' <;> cases hr <;> first | exact this | trivial

/-- Loops: `I` is an invariant of the state, `Q` holds of each element. -/
theorem wp_loop {g n e} {I : PSt → Prop} {Q : Val → Prop}
    (hI : ∀ a b : PSt, a.rest = b.rest → a.pos = b.pos → a.env = b.env → I a → I b)
    (h : ∀ st, I st → wp g n (.expr e) st.push fun v st' => Q v ∧ I (st'.pop st)) :
    ∀ st, I st → wp g n (.star e) st fun v st' => ∃ vs, v = .list vs ∧ (∀ x ∈ vs, Q x) ∧ I st' := by
  intro st hst m hm
  induction m generalizing st with
  | zero => intro r hr; simp [run] at hr
  | succ m ih =>
    intro r hr
    simp only [run] at hr
    cases hr' : run g m (.expr e) st.push with
    | none => simp [hr'] at hr
    | some r' =>
      have h1 := h st hst m (by omega) r' hr'
      rw [hr'] at hr
      cases r' with
      | ok v st' =>
        simp only at hr h1
        cases hs : run g m (.star e) (st'.pop st) with
        | none => simp [hs] at hr
        | some r'' =>
          have h2 := ih (st'.pop st) h1.2 (by omega) r'' hs
          rw [hs] at hr
          cases r'' with
          | ok w st'' =>
            obtain ⟨vs, rfl, hv, hi⟩ := h2
            cases hr
            exact ⟨_, rfl, by simpa using ⟨h1.1, hv⟩, hi⟩
          | fail _ => cases hr; trivial
          | panic _ => exact h2.elim
      | fail st' =>
        have ha := (run_sound _ _ _ _ _ hr').adv.2 rfl
        cases hr
        exact ⟨[], rfl, by simp, hI st _ ha.1.symm ha.2.symm rfl hst⟩
      | panic _ => exact h1.elim

theorem wp_star {g n e st} {K : Val → PSt → Prop} (h : wp g n (.star e) st K) : wp g n (.expr (.star e)) st K := by
  intro m hm r hr
  cases m with
  | zero => simp [run] at hr
  | succ m => simp only [run] at hr; exact h m (by omega) r hr

theorem wp_plus {g n e st} {K : Val → PSt → Prop}
    (h : wp g n (.expr e) st.push fun v st' => wp g n (.star e) (st'.pop st) fun w st'' =>
      ∀ vs, w = .list vs → K (.list (v :: vs)) st'') :
    wp g n (.expr (.plus e)) st K := by
  intro m hm r hr
  cases m with
  | zero => simp [run] at hr
  | succ m =>
    simp only [run] at hr
    cases hr' : run g m (.expr e) st.push with
    | none => simp [hr'] at hr
    | some r' =>
      have h1 := h m (by omega) r' hr'
      rw [hr'] at hr
      cases r' with
      | ok v st' =>
        simp only at hr h1
        cases hs : run g m (.star e) (st'.pop st) with
        | none => simp [hs] at hr
        | some r'' =>
          have h2 := h1 m (by omega) r'' hs
          have hsh := (run_shape g m).1 _ _ _ hs
          rw [hs] at hr
          cases r'' with
          | ok w st'' => cases w <;> first | exact hsh.elim | (cases hr; exact h2 _ rfl)
          | fail _ => cases hr; trivial
          | panic _ => cases hr; exact h2
      | fail st' => cases hr; trivial
      | panic st' => exact h1.elim

end Booklit.Peg
