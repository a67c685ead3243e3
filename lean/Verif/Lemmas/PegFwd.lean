import Verif.Lemmas.PegShape

/-!
Forward reasoning about the interpreter: what is read from a given input. Positions and the furthest
failure are abstracted away.
-/

namespace Booklit.Peg

open Booklit

abbrev Env := List (Lbl × Val)

/-- On input `inp` with store `s` and frame `env` the task succeeds, leaves `next` and store `s'`, and its
value and new frame satisfy `K`. -/
def Ok (t : Task) (inp : Str) (s : Option Nat) (env : Env) (next : Str) (s' : Option Nat) (K : Val → Env → Prop) : Prop :=
  ∀ st : PSt, st.rest = inp → st.store = s → st.env = env →
    ∃ v st', Big booklit t st (.ok v st') ∧ st'.rest = next ∧ st'.store = s' ∧ K v st'.env

/-- On input `inp` with store `s` the task fails, leaving store `s'`. -/
def No (t : Task) (inp : Str) (s s' : Option Nat) : Prop :=
  ∀ st : PSt, st.rest = inp → st.store = s → ∃ st', Big booklit t st (.fail st') ∧ st'.store = s'

/-- A rule reads its input; the frame is untouched. -/
def OkR (r : Rule) (inp : Str) (s : Option Nat) (next : Str) (s' : Option Nat) (Q : Val → Prop) : Prop :=
  ∀ env, Ok (.expr (.rule r)) inp s env next s' fun v e => Q v ∧ e = env

abbrev NoR (r : Rule) (inp : Str) (s s' : Option Nat) : Prop := No (.expr (.rule r)) inp s s'

variable {inp next mid : Str} {s s' s1 : Option Nat} {env : Env} {K K1 : Val → Env → Prop}

theorem Ok.mono {t} (h : Ok t inp s env next s' K1) (hk : ∀ v e, K1 v e → K v e) : Ok t inp s env next s' K := by
  intro st h1 h2 h3
  obtain ⟨v, st', hb, hr, hs, hK⟩ := h st h1 h2 h3
  exact ⟨v, st', hb, hr, hs, hk _ _ hK⟩

theorem OkR.mono {r} {Q Q1 : Val → Prop} (h : OkR r inp s next s' Q1) (hk : ∀ v, Q1 v → Q v) : OkR r inp s next s' Q :=
  fun env => (h env).mono fun _ _ ⟨a, b⟩ => ⟨hk _ a, b⟩

theorem fail_rest {e st st'} (h : Big booklit (.expr e) st (.fail st')) : st'.rest = st.rest := (h.adv.2 rfl).1

theorem ok_rule {r} (h : Ok (.expr (rules r)) inp s [] next s' fun v _ => Q v) : OkR r inp s next s' Q := by
  intro env st h1 h2 h3
  obtain ⟨v, st', hb, hr, hs, hK⟩ := h st.push h1 h2 rfl
  exact ⟨v, st'.pop st, .ruleOk hb, hr, hs, hK, h3⟩

theorem no_rule {r} (h : No (.expr (rules r)) inp s s') : NoR r inp s s' := by
  intro st h1 h2
  obtain ⟨st', hb, hs⟩ := h st.push h1 h2
  exact ⟨st'.pop st, .ruleFail hb, hs⟩

theorem ok_lit {l : Str} (h : inp = l ++ next) (hk : K (.bytes l) env) : Ok (.expr (.lit l)) inp s env next s K := by
  intro st h1 h2 h3
  have hb := Big.lit (g := booklit) l st
  rw [runLit_ok (h1.trans h)] at hb
  exact ⟨_, _, hb, by simp [PSt.skip], by simp [PSt.skip, h2], by simpa [PSt.skip, h3] using hk⟩

theorem no_lit {l : Str} (h : ¬ ∃ n, inp = l ++ n) : No (.expr (.lit l)) inp s s := by
  intro st h1 h2
  have hb := Big.lit (g := booklit) l st
  rw [runLit_fail (by rw [h1]; exact h)] at hb
  exact ⟨_, hb, by simp [h2]⟩

theorem ok_cls {neg cs rs c} (h : inp = c :: next) (hc : clsMatches neg cs rs c = true) (hk : K (.bytes [c]) env) :
    Ok (.expr (.cls neg cs rs)) inp s env next s K := by
  intro st h1 h2 h3
  have hb := Big.cls (g := booklit) neg cs rs st
  rw [runCls_ok (h1.trans h) hc] at hb
  exact ⟨_, _, hb, by simp [PSt.skip], by simp [PSt.skip, h2], by simpa [PSt.skip, h3] using hk⟩

theorem no_cls {neg cs rs} (h : ∀ c ∈ inp.head?, clsMatches neg cs rs c = false) : No (.expr (.cls neg cs rs)) inp s s := by
  intro st h1 h2
  have hb := Big.cls (g := booklit) neg cs rs st
  rw [runCls_fail (by intro c r hr; apply h; rw [h1] at hr; simp [hr])] at hb
  exact ⟨_, hb, by simp [h2]⟩

theorem ok_any {c} (h : inp = c :: next) (hk : K (.bytes [c]) env) : Ok (.expr .any) inp s env next s K := by
  intro st h1 h2 h3
  have hb := Big.any (g := booklit) st
  rw [runAny_ok (h1.trans h)] at hb
  exact ⟨_, _, hb, by simp [PSt.skip], by simp [PSt.skip, h2], by simpa [PSt.skip, h3] using hk⟩

theorem no_any : No (.expr .any) [] s s := by
  intro st h1 h2
  have hb := Big.any (g := booklit) st
  rw [runAny_fail h1] at hb
  exact ⟨_, hb, by simp [h2]⟩

theorem ok_seq {es} (h : Ok (.seq es) inp s env next s' K) : Ok (.expr (.seq es)) inp s env next s' K := by
  intro st h1 h2 h3
  obtain ⟨v, st', hb, hr⟩ := h st h1 h2 h3
  exact ⟨v, st', .seqOk hb, hr⟩

theorem no_seq {es} (h : No (.seq es) inp s s') : No (.expr (.seq es)) inp s s' := by
  intro st h1 h2
  obtain ⟨st', hb, hs⟩ := h st h1 h2
  exact ⟨_, .seqFail hb, hs⟩

theorem ok_nil (hk : K (.list []) env) : Ok (.seq []) inp s env inp s K := by
  intro st h1 h2 h3
  exact ⟨_, _, .nil, h1, h2, by rw [h3]; exact hk⟩

theorem ok_cons {e es} (h : Ok (.expr e) inp s env mid s1 K1)
    (h' : ∀ v env1, K1 v env1 → Ok (.seq es) mid s1 env1 next s' fun w e => ∀ vs, w = .list vs → K (.list (v :: vs)) e) :
    Ok (.seq (e :: es)) inp s env next s' K := by
  intro st h1 h2 h3
  obtain ⟨v, st', hb, hr, hs, hK⟩ := h st h1 h2 h3
  obtain ⟨w, st'', hb', hr', hs', hK'⟩ := h' v _ hK st' hr hs rfl
  obtain ⟨n, hn⟩ := run_complete _ hb'
  have := (run_shape booklit n).2 _ _ _ (hn n (Nat.le_refl _))
  cases w with
  | list vs => exact ⟨_, _, .consOk hb hb', hr', hs', hK' vs rfl⟩
  | _ => simp [R.isList] at this

theorem no_cons {e es} (h : No (.expr e) inp s s') : No (.seq (e :: es)) inp s s' := by
  intro st h1 h2
  obtain ⟨st', hb, hs⟩ := h st h1 h2
  exact ⟨_, .consFail hb, hs⟩

theorem no_cons' {e es} (h : ∀ env, Ok (.expr e) inp s env mid s1 K1) (h' : No (.seq es) mid s1 s') :
    No (.seq (e :: es)) inp s s' := by
  intro st h1 h2
  obtain ⟨v, st', hb, hr, hs, hK⟩ := h st.env st h1 h2 rfl
  obtain ⟨st'', hb', hs'⟩ := h' st' hr hs
  exact ⟨_, .consFail' hb hb', hs'⟩

theorem ok_choice {es} (h : Ok (.choice es) inp s env next s' K) : Ok (.expr (.choice es)) inp s env next s' K := by
  intro st h1 h2 h3
  obtain ⟨v, st', hb, hr⟩ := h st h1 h2 h3
  exact ⟨v, st', .choice hb, hr⟩

theorem no_choice {es} (h : No (.choice es) inp s s') : No (.expr (.choice es)) inp s s' := by
  intro st h1 h2
  obtain ⟨st', hb, hs⟩ := h st h1 h2
  exact ⟨_, .choice hb, hs⟩

theorem ok_alt {e es} (h : Ok (.expr e) inp s [] next s' fun v _ => K v env) : Ok (.choice (e :: es)) inp s env next s' K := by
  intro st h1 h2 h3
  obtain ⟨v, st', hb, hr, hs, hK⟩ := h st.push h1 h2 rfl
  exact ⟨v, _, .choiceOk hb, hr, hs, by simpa [PSt.pop, h3] using hK⟩

theorem ok_next {e es} (h : No (.expr e) inp s s1) (h' : Ok (.choice es) inp s1 env next s' K) :
    Ok (.choice (e :: es)) inp s env next s' K := by
  intro st h1 h2 h3
  obtain ⟨st', hb, hs⟩ := h st.push h1 h2
  obtain ⟨v, st'', hb', hr⟩ := h' (st'.pop st) ((fail_rest hb).trans h1) hs h3
  exact ⟨v, _, .choiceNext hb hb', hr⟩

theorem no_next {e es} (h : No (.expr e) inp s s1) (h' : No (.choice es) inp s1 s') : No (.choice (e :: es)) inp s s' := by
  intro st h1 h2
  obtain ⟨st', hb, hs⟩ := h st.push h1 h2
  obtain ⟨st'', hb', hs'⟩ := h' (st'.pop st) ((fail_rest hb).trans h1) hs
  exact ⟨_, .choiceNext hb hb', hs'⟩

theorem no_choice_nil : No (.choice []) inp s s := fun _ _ h2 => ⟨_, .choiceNil, h2⟩

theorem ok_label {l e} (h : Ok (.expr e) inp s [] next s' fun v _ => K v ((l, v) :: env)) :
    Ok (.expr (.label l e)) inp s env next s' K := by
  intro st h1 h2 h3
  obtain ⟨v, st', hb, hr, hs, hK⟩ := h st.push h1 h2 rfl
  exact ⟨v, _, .labelOk hb, hr, hs, by simpa [PSt.bind, PSt.pop, h3] using hK⟩

theorem no_label {l e} (h : No (.expr e) inp s s') : No (.expr (.label l e)) inp s s' := by
  intro st h1 h2
  obtain ⟨st', hb, hs⟩ := h st.push h1 h2
  exact ⟨_, .labelFail hb, hs⟩

theorem ok_opt {e} (h : Ok (.expr e) inp s [] next s' fun v _ => K v env) : Ok (.expr (.opt e)) inp s env next s' K := by
  intro st h1 h2 h3
  obtain ⟨v, st', hb, hr, hs, hK⟩ := h st.push h1 h2 rfl
  exact ⟨v, _, .optOk hb, hr, hs, by simpa [PSt.pop, h3] using hK⟩

theorem ok_none {e} (h : No (.expr e) inp s s') (hk : K .nil env) : Ok (.expr (.opt e)) inp s env inp s' K := by
  intro st h1 h2 h3
  obtain ⟨st', hb, hs⟩ := h st.push h1 h2
  exact ⟨_, _, .optNone hb, (fail_rest hb).trans h1, hs, by simpa [PSt.pop, h3] using hk⟩

theorem ok_not {e} (h : No (.expr e) inp s s') (hk : K .nil env) : Ok (.expr (.not e)) inp s env inp s' K := by
  intro st h1 h2 h3
  obtain ⟨st', hb, hs⟩ := h { st.push with invert := !st.invert } h1 h2
  exact ⟨_, _, .notOk hb, h1, hs, by simpa [PSt.pop, PSt.restore, h3] using hk⟩

theorem no_not {e} (h : Ok (.expr e) inp s [] next s' fun _ _ => True) : No (.expr (.not e)) inp s s' := by
  intro st h1 h2
  obtain ⟨v, st', hb, hr, hs, hK⟩ := h { st.push with invert := !st.invert } h1 h2 rfl
  exact ⟨_, .notFail hb, hs⟩

theorem ok_act {a e w} (h : Ok (.expr e) inp s env next s1 K1) (hw : inp = w ++ next)
    (hk : ∀ v env1 pos, K1 v env1 → ∃ v', act a pos w env1 s1 = some (v', s') ∧ K v' env1) :
    Ok (.expr (.act a e)) inp s env next s' K := by
  intro st h1 h2 h3
  obtain ⟨v, st', hb, hr, hs, hK⟩ := h st h1 h2 h3
  obtain ⟨v', e1, e2⟩ := hk v st'.env st.pos hK
  refine ⟨v', { st' with store := s' }, .actOk hb ?_, hr, rfl, e2⟩
  have : st'.sliceFrom st = w := by
    unfold PSt.sliceFrom
    rw [h1, hr, hw]; simp
  rw [this, hs]; exact e1

theorem no_act {a e} (h : No (.expr e) inp s s') : No (.expr (.act a e)) inp s s' := by
  intro st h1 h2
  obtain ⟨st', hb, hs⟩ := h st h1 h2
  exact ⟨_, .actFail hb, hs⟩

theorem ok_star {e} (h : Ok (.star e) inp s env next s' K) : Ok (.expr (.star e)) inp s env next s' K := by
  intro st h1 h2 h3
  obtain ⟨v, st', hb, hr⟩ := h st h1 h2 h3
  exact ⟨v, st', .star hb, hr⟩

theorem star_list {e st v st'} (h : Big booklit (.star e) st (.ok v st')) : ∃ vs, v = .list vs := by
  obtain ⟨n, hn⟩ := run_complete _ h
  have := (run_shape booklit n).1 _ _ _ (hn n (Nat.le_refl _))
  cases v with
  | list vs => exact ⟨vs, rfl⟩
  | _ => simp [R.isLoop] at this

theorem ok_stop {e} (h : No (.expr e) inp s s') (hk : K (.list []) env) : Ok (.star e) inp s env inp s' K := by
  intro st h1 h2 h3
  obtain ⟨st', hb, hs⟩ := h st.push h1 h2
  exact ⟨_, _, .starStop hb, (fail_rest hb).trans h1, hs, by simpa [PSt.pop, h3] using hk⟩

theorem ok_more {e} {Q : Val → Prop} (h : Ok (.expr e) inp s [] mid s1 fun v _ => Q v)
    (h' : ∀ v, Q v → Ok (.star e) mid s1 env next s' fun w e => ∀ vs, w = .list vs → K (.list (v :: vs)) e) :
    Ok (.star e) inp s env next s' K := by
  intro st h1 h2 h3
  obtain ⟨v, st', hb, hr, hs, hK⟩ := h st.push h1 h2 rfl
  obtain ⟨w, st'', hb', hr', hs', hK'⟩ := h' v hK (st'.pop st) hr hs h3
  obtain ⟨vs, rfl⟩ := star_list hb'
  exact ⟨_, _, .starMore hb hb', hr', hs', hK' vs rfl⟩

theorem ok_plus {e} {Q : Val → Prop} (h : Ok (.expr e) inp s [] mid s1 fun v _ => Q v)
    (h' : ∀ v, Q v → Ok (.star e) mid s1 env next s' fun w e => ∀ vs, w = .list vs → K (.list (v :: vs)) e) :
    Ok (.expr (.plus e)) inp s env next s' K := by
  intro st h1 h2 h3
  obtain ⟨v, st', hb, hr, hs, hK⟩ := h st.push h1 h2 rfl
  obtain ⟨w, st'', hb', hr', hs', hK'⟩ := h' v hK (st'.pop st) hr hs h3
  obtain ⟨vs, rfl⟩ := star_list hb'
  exact ⟨_, _, .plusOk hb hb', hr', hs', hK' vs rfl⟩

theorem no_plus {e} (h : No (.expr e) inp s s') : No (.expr (.plus e)) inp s s' := by
  intro st h1 h2
  obtain ⟨st', hb, hs⟩ := h st.push h1 h2
  exact ⟨_, .plusFail hb, hs⟩

theorem ok_star_cls {neg cs rs} {w : Str} (h : inp = w ++ next) (hw : ∀ c ∈ w, clsMatches neg cs rs c = true)
    (hn : ∀ c ∈ next.head?, clsMatches neg cs rs c = false) (hk : K (.list (w.map fun c => .bytes [c])) env) :
    Ok (.expr (.star (.cls neg cs rs))) inp s env next s K := by
  apply ok_star
  intro st h1 h2 h3
  obtain ⟨st', hb, hm, hs, he, _⟩ := big_star_cls booklit neg cs rs w st next (h1.trans h) hw hn
  refine ⟨_, st', hb, ?_, hs.trans h2, by rw [he, h3]; exact hk⟩
  have := hm.1; rw [h1, h] at this; exact (List.append_cancel_left this).symm

theorem ok_plus_cls {neg cs rs} {w : Str} (h : inp = w ++ next) (hne : w ≠ []) (hw : ∀ c ∈ w, clsMatches neg cs rs c = true)
    (hn : ∀ c ∈ next.head?, clsMatches neg cs rs c = false) (hk : K (.list (w.map fun c => .bytes [c])) env) :
    Ok (.expr (.plus (.cls neg cs rs))) inp s env next s K := by
  intro st h1 h2 h3
  cases w with
  | nil => exact absurd rfl hne
  | cons c w =>
    obtain ⟨st', hb, hm, hs, he, _⟩ := big_plus_cls booklit neg cs rs c w st next (h1.trans h) hw hn
    refine ⟨_, st', hb, ?_, hs.trans h2, by rw [he, h3]; exact hk⟩
    have := hm.1; rw [h1, h] at this; exact (List.append_cancel_left this).symm

theorem no_plus_cls {neg cs rs} (h : ∀ c ∈ inp.head?, clsMatches neg cs rs c = false) :
    No (.expr (.plus (.cls neg cs rs))) inp s s := no_plus (no_cls h)

/-- A rule in a sequence or under a label. -/
theorem OkR.ok {r} {Q : Val → Prop} (h : OkR r inp s next s' Q) (hk : ∀ v, Q v → K v env) :
    Ok (.expr (.rule r)) inp s env next s' K :=
  (h env).mono fun v e ⟨a, b⟩ => by subst b; exact hk v a

end Booklit.Peg
