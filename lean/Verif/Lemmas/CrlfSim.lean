import Verif.Lemmas.SurfaceBase
import Verif.Spec.Syntax
import Verif.Spec.Crlf

/-!
Runs of the parser on a text without CR and on its CRLF version proceed in step.
-/

namespace Booklit.Peg

open Booklit Booklit.Src

variable {next mid : Str} {s s' s1 : Option Nat}

def noCR (s : Str) : Prop := '\r' ∉ s

theorem crlf_app (a b : Str) : crlf (a ++ b) = crlf a ++ crlf b := by
  induction a with
  | nil => rfl
  | cons c a ih => simp only [List.cons_append, crlf]; split <;> simp [ih]

theorem crlf_id {a : Str} (h : '\n' ∉ a) : crlf a = a := by
  induction a with
  | nil => rfl
  | cons c a ih =>
    simp only [List.mem_cons, not_or] at h
    rw [crlf, if_neg (fun e => h.1 e.symm), ih h.2]

theorem crlf_cons {c : Char} (t : Str) (h : c ≠ '\n') : crlf (c :: t) = c :: crlf t := by simp [crlf, h]

/-- First characters: LF becomes CR, others stay. -/
theorem crlf_head {t : Str} (h : noCR t) {c : Char} (hc : c ≠ '\n') (hr : c ≠ '\r') :
    (crlf t).head? = some c ↔ t.head? = some c := by
  cases t with
  | nil => simp [crlf]
  | cons d t =>
    by_cases hd : d = '\n'
    · subst hd; simp [crlf, Ne.symm hc, Ne.symm hr]
    · simp [crlf_cons _ hd]

theorem crlf_prefix {l t : Str} (hl : '\n' ∉ l) (hr : '\r' ∉ l) : (∃ n, crlf t = l ++ n) ↔ ∃ n, t = l ++ n := by
  constructor
  · rintro ⟨n, h⟩
    induction l generalizing t with
    | nil => exact ⟨t, rfl⟩
    | cons c l ih =>
      simp only [List.mem_cons, not_or] at hl hr
      cases t with
      | nil => simp [crlf] at h
      | cons d t =>
        by_cases hd : d = '\n'
        · subst hd; simp [crlf] at h; exact absurd h.1 hr.1
        · rw [crlf_cons _ hd] at h
          simp only [List.cons_append, List.cons.injEq] at h
          obtain ⟨m, rfl⟩ := ih hl.2 hr.2 h.2
          exact ⟨m, by rw [h.1]; rfl⟩
  · rintro ⟨n, rfl⟩
    exact ⟨crlf n, by rw [crlf_app, crlf_id hl]⟩

theorem allBlank_nonl {bl : Str} (h : allBlank bl) : '\n' ∉ bl := by
  intro hm; have := h _ hm; simp [isBlank] at this

theorem noCmt_crlf {t : Str} : noCmt (crlf t) ↔ noCmt t := by
  constructor
  · intro h bl r hb e
    refine h bl (crlf r) hb ?_
    rw [e, crlf_app, crlf_id (allBlank_nonl hb), crlf_cons _ (by decide), crlf_cons _ (by decide)]
  · intro h bl r hb e
    have : ∃ n, crlf t = (bl ++ ['{', '-']) ++ n := ⟨r, by simpa using e⟩
    rw [crlf_prefix] at this
    · obtain ⟨n, hn⟩ := this
      exact h bl n hb (by simpa using hn)
    · simp [allBlank_nonl hb]
    · simp; intro hm; have := hb _ hm; simp [isBlank] at this

theorem noCmt_nl {t : Str} : noCmt ('\n' :: t) := noCmt_of_head (by decide) (by simp)
theorem noCmt_cr {t : Str} : noCmt ('\r' :: t) := noCmt_of_head (by decide) (by simp)

/-- What happens at a comment, in both versions. -/
def CSim (inp : Str) : Prop :=
  (∃ next, (∀ s, OkR .comment inp s next s fun _ => True) ∧ (∀ s, OkR .comment (crlf inp) s (crlf next) s fun _ => True) ∧
    next.length < inp.length ∧ noCR next) ∨
  ((∀ s, NoR .comment inp s s) ∧ ∀ s, NoR .comment (crlf inp) s s)

/-- What happens in the body of a comment, in both versions. -/
def SSim (inp : Str) : Prop :=
  ∃ next, (∀ s env, Ok (.star cBody) inp s env next s fun _ _ => True) ∧
    (∀ s env, Ok (.star cBody) (crlf inp) s env (crlf next) s fun _ _ => True) ∧ next.length ≤ inp.length ∧ noCR next

theorem cBody_char' {c : Char} {t : Str} {env} (h1 : NoR .comment (c :: t) s s) (h2 : ¬ ∃ n, c :: t = ['-', '}'] ++ n) :
    Ok (.expr cBody) (c :: t) s env t s fun _ _ => True := by
  apply ok_choice
  refine ok_next h1 (ok_alt (ok_seq (ok_cons (K1 := fun _ _ => True) (ok_not (no_lit h2) trivial) ?_)))
  intro v e _; exact ok_cons (K1 := fun _ _ => True) (ok_any rfl trivial) fun _ _ _ => ok_nil fun _ _ _ _ => trivial

theorem cBody_nil : No (.expr cBody) [] s s := by
  apply no_choice
  refine no_next (no_comment noCmt_nil) (no_next (no_seq (no_cons' (K1 := fun _ _ => True) (s1 := s) (mid := [])
    (fun env => ok_not (no_lit (by rintro ⟨n, h⟩; simp at h)) trivial) (no_cons no_any))) no_choice_nil)

theorem csim_of {n : Nat} (ih : ∀ inp : Str, inp.length < n → noCR inp → SSim inp) (inp : Str) (hl : inp.length ≤ n) (hcr : noCR inp) :
    CSim inp := by
  obtain ⟨bl, y, e, hb, hn⟩ := blank_split inp
  have hy : noCR y := by intro h; exact hcr (by rw [e]; simp [h])
  by_cases hc : ∃ z, y = '{' :: '-' :: z
  · obtain ⟨z, rfl⟩ := hc
    have hz : noCR z := by intro h; exact hy (by simp [h])
    have hlz : z.length < n := by rw [e] at hl; simp at hl; omega
    obtain ⟨next, h1, h2, h3, h4⟩ := ih z hlz hz
    have e' : crlf inp = bl ++ '{' :: '-' :: crlf z := by
      rw [e, crlf_app, crlf_id (allBlank_nonl hb), crlf_cons _ (by decide), crlf_cons _ (by decide)]
    by_cases hn : ∃ m, next = ['-', '}'] ++ m
    · obtain ⟨m, rfl⟩ := hn
      have go : ∀ (s : Option Nat) (z next' : Str), (∀ env, Ok (.star cBody) z s env ('-' :: '}' :: next') s fun _ _ => True) →
          OkR .comment (bl ++ '{' :: '-' :: z) s next' s fun _ => True := by
        intro s z next' h
        apply ok_rule; apply ok_seq
        refine ok_cons (K1 := fun _ _ => True) (ok_blanks rfl hb (by simp [isBlank]) fun _ => trivial) fun _ _ _ => ?_
        refine ok_cons (K1 := fun _ _ => True) (mid := z) (ok_lit rfl trivial) fun _ _ _ => ?_
        refine ok_cons (K1 := fun _ _ => True) (ok_star (h _)) fun _ _ _ => ?_
        refine ok_cons (K1 := fun _ _ => True) (ok_lit rfl trivial) fun _ _ _ => ?_
        exact ok_nil fun _ _ _ _ _ _ _ _ => trivial
      refine Or.inl ⟨m, fun s => ?_, fun s => ?_, ?_, ?_⟩
      · rw [e]; exact go s z m (h1 s)
      · rw [e']
        refine go s (crlf z) (crlf m) fun env => ?_
        have := h2 s env
        simpa [crlf] using this
      · rw [e]; simp at h3 ⊢; omega
      · intro h; exact h4 (by simp [h])
    · have go : ∀ (s : Option Nat) (z next' : Str), (∀ env, Ok (.star cBody) z s env next' s fun _ _ => True) →
          (¬ ∃ m, next' = ['-', '}'] ++ m) → NoR .comment (bl ++ '{' :: '-' :: z) s s := by
        intro s z next' h hne
        apply no_rule; apply no_seq
        refine no_cons' (K1 := fun _ _ => True) (fun env => ok_blanks rfl hb (by simp [isBlank]) fun _ => trivial) ?_
        refine no_cons' (K1 := fun _ _ => True) (mid := z) (fun env => ok_lit rfl trivial) ?_
        refine no_cons' (K1 := fun _ _ => True) (fun env => ok_star (h env)) ?_
        exact no_cons (no_lit hne)
      refine Or.inr ⟨fun s => ?_, fun s => ?_⟩
      · rw [e]; exact go s z next (h1 s) hn
      · rw [e']; exact go s (crlf z) (crlf next) (h2 s) (by rw [crlf_prefix (by decide) (by decide)]; exact hn)
  · have hno : noCmt inp := by
      intro bl' t hb' e2
      have : noCmt y := by
        cases y with
        | nil => exact noCmt_nil
        | cons c y =>
          refine noCmt_of_head (hn c (by simp)) ?_
          rintro ⟨rfl, h⟩
          cases y with
          | nil => simp at h
          | cons d y => simp at h; subst h; exact hc ⟨y, rfl⟩
      have := (noCmt_blanks hb).mpr this
      rw [← e] at this
      exact this bl' t hb' e2
    exact Or.inr ⟨fun s => no_comment hno, fun s => no_comment (noCmt_crlf.mpr hno)⟩

theorem ssim (n : Nat) : ∀ inp : Str, inp.length < n → noCR inp → SSim inp := by
  induction n with
  | zero => intro inp h; omega
  | succ n ih =>
    intro inp hl hcr
    rcases csim_of ih inp (by omega) hcr with ⟨n1, h1, h2, h3, h4⟩ | ⟨h1, h2⟩
    · obtain ⟨next, g1, g2, g3, g4⟩ := ih n1 (by omega) h4
      refine ⟨next, fun s env => ?_, fun s env => ?_, by omega, g4⟩
      · exact ok_moreT (ok_choice (ok_alt ((h1 s).ok fun _ _ => trivial))) (g1 s env)
      · exact ok_moreT (ok_choice (ok_alt ((h2 s).ok fun _ _ => trivial))) (g2 s env)
    · cases inp with
      | nil => exact ⟨[], fun s env => ok_stop cBody_nil trivial, fun s env => ok_stop cBody_nil trivial, Nat.le_refl _, hcr⟩
      | cons c t =>
        by_cases hc : ∃ m, c :: t = ['-', '}'] ++ m
        · obtain ⟨m, hm⟩ := hc
          simp only [List.cons_append, List.nil_append, List.cons.injEq] at hm
          obtain ⟨rfl, rfl⟩ := hm
          refine ⟨'-' :: '}' :: m, fun s env => ok_stop cBody_stop trivial, fun s env => ?_, Nat.le_refl _, hcr⟩
          rw [crlf_cons _ (by decide), crlf_cons _ (by decide)]
          exact ok_stop cBody_stop trivial
        · have ht : noCR t := by intro h; exact hcr (by simp [h])
          obtain ⟨next, g1, g2, g3, g4⟩ := ih t (by simpa using hl) ht
          refine ⟨next, fun s env => ok_moreT (cBody_char' (h1 s) hc) (g1 s env), fun s env => ?_, by simp; omega, g4⟩
          by_cases hn : c = '\n'
          · subst hn
            have e : crlf ('\n' :: t) = '\r' :: '\n' :: crlf t := by simp [crlf]
            rw [e]
            refine ok_moreT (cBody_char' (no_comment noCmt_cr) (by rintro ⟨n, h⟩; simp at h)) ?_
            exact ok_moreT (cBody_char' (no_comment noCmt_nl) (by rintro ⟨n, h⟩; simp at h)) (g2 s env)
          · have h2 := h2 s
            have hc' : ¬ ∃ m, crlf (c :: t) = ['-', '}'] ++ m := by
              rw [crlf_prefix (by decide) (by decide)]; exact hc
            rw [crlf_cons _ hn] at h2 hc' ⊢
            exact ok_moreT (cBody_char' h2 hc') (g2 s env)

theorem csim (inp : Str) (h : noCR inp) : CSim inp := csim_of (ssim inp.length) inp (Nat.le_refl _) h

/-! ### all other rules -/

mutual
/-- Positions erased. -/
def Val.er : Val → Val
  | .nil => .nil
  | .bytes t => .bytes t
  | .list vs => .list (erL vs)
  | .node n => .node n.erase
  | .str s => .str s
def erL : List Val → List Val
  | [] => []
  | v :: vs => v.er :: erL vs
end

def erEnv (e : Env) : Env := e.map fun x => (x.1, x.2.er)

mutual
/-- The value depends on how line breaks are written (and is never used). -/
def junk : Expr → Bool
  | .lit _ => false
  | .cls _ _ _ => false
  | .any => false
  | .seq es => junkL es
  | .choice es => junkL es
  | .star e => junk e
  | .plus e => junk e
  | .opt e => junk e
  | .not _ => false
  | .label _ e => junk e
  | .rule r => r == .comment || r == .commentSpacing || r == .lineBreak
  | .act _ _ => false
def junkL : List Expr → Bool
  | [] => false
  | e :: es => junk e || junkL es
end

mutual
/-- Never reads a line break. -/
def nonl : Expr → Bool
  | .lit s => !s.contains '\n'
  | .cls n c r => !clsMatches n c r '\n'
  | .any => false
  | .seq es => nonlL es
  | .choice es => nonlL es
  | .star e => nonl e
  | .plus e => nonl e
  | .opt e => nonl e
  | .not _ => true
  | .label _ e => nonl e
  | .rule _ => false
  | .act _ e => nonl e
def nonlL : List Expr → Bool
  | [] => true
  | e :: es => nonl e && nonlL es
end

def textual : Act → Bool
  | .text => true
  | .textTail => true
  | .indent => true
  | _ => false

mutual
/-- Treats both versions alike. -/
def good : Expr → Bool
  | .lit s => !s.contains '\n' && !s.contains '\r'
  | .cls n c r => !clsMatches n c r '\n' && !clsMatches n c r '\r'
  | .any => false
  | .seq es => goodL es
  | .choice es => goodL es
  | .star e => good e
  | .plus e => good e
  | .opt e => good e
  | .not .any => true
  | .not e => good e
  | .label _ e => good e && !junk e
  | .rule _ => true
  | .act a e => good e && (!textual a || nonl e)
def goodL : List Expr → Bool
  | [] => true
  | e :: es => good e && goodL es
end

def goodT : Task → Bool
  | .expr e => good e
  | .seq es => goodL es
  | .choice es => goodL es
  | .star e => good e

def junkT : Task → Bool
  | .expr e => junk e
  | .seq es => junkL es
  | .choice es => junkL es
  | .star e => junk e

def nonlT : Task → Bool
  | .expr e => nonl e
  | .seq es => nonlL es
  | .choice es => nonlL es
  | .star e => nonl e

theorem good_rules (r : Rule) (h1 : r ≠ .lineBreak) (h2 : r ≠ .comment) : good (rules r) = true := by
  cases r <;> first | (exact absurd rfl h1) | (exact absurd rfl h2) | decide

theorem junk_rules (r : Rule) (h : junk (.rule r) = false) : junk (rules r) = false := by
  revert h; cases r <;> decide

/-- What a run that never reads line breaks reads. -/
def NlOk (st : PSt) : R → Prop
  | .ok _ st' => ∃ w, st.rest = w ++ st'.rest ∧ '\n' ∉ w
  | _ => True

theorem Big.nonl {t st r} (h : Big booklit t st r) (hn : nonlT t = true) : NlOk st r := by
  induction h with
  | lit s st =>
    by_cases h : ∃ next, st.rest = s ++ next
    · obtain ⟨next, hnx⟩ := h
      rw [runLit_ok hnx]
      refine ⟨s, by simpa [PSt.skip] using hnx, ?_⟩
      simpa [nonlT, Peg.nonl] using hn
    · rw [runLit_fail h]; trivial
  | cls neg cs rs st =>
    by_cases h : ∃ c r, st.rest = c :: r ∧ clsMatches neg cs rs c = true
    · obtain ⟨c, r, h1, h2⟩ := h
      rw [runCls_ok h1 h2]
      refine ⟨[c], by simpa [PSt.skip] using h1, ?_⟩
      simp only [List.mem_singleton]
      rintro rfl
      simp [nonlT, Peg.nonl, h2] at hn
    · rw [runCls_fail (by intro c r hr; cases hm : clsMatches neg cs rs c with | false => rfl | true => exact absurd ⟨c, r, hr, hm⟩ h)]
      trivial
  | any st => simp [nonlT, Peg.nonl] at hn
  | seqOk _ ih => exact ih (by simpa [nonlT, Peg.nonl] using hn)
  | seqFail _ _ => trivial
  | seqPanic _ _ => trivial
  | choice _ ih => exact ih (by simpa [nonlT, Peg.nonl] using hn)
  | star _ ih => exact ih (by simpa [nonlT, Peg.nonl] using hn)
  | plusOk _ _ ih1 ih2 =>
    obtain ⟨w, h1, h2⟩ := ih1 (by simpa [nonlT, Peg.nonl] using hn)
    obtain ⟨w', h3, h4⟩ := ih2 (by simpa [nonlT, Peg.nonl] using hn)
    refine ⟨w ++ w', ?_, by simp [h2, h4]⟩
    have h1 : _ = _ := h1
    have h3 : _ = _ := h3
    simp only [PSt.push, PSt.pop] at h1 h3
    rw [h1, h3, List.append_assoc]
  | optOk _ ih => exact ih (by simpa [nonlT, Peg.nonl] using hn)
  | optNone h ih => exact ⟨[], by simpa [PSt.pop, PSt.push] using (fail_rest h).symm, by simp⟩
  | notOk h ih => exact ⟨[], rfl, by simp⟩
  | labelOk _ ih => exact ih (by simpa [nonlT, Peg.nonl] using hn)
  | ruleOk _ ih => simp [nonlT, Peg.nonl] at hn
  | actOk _ _ ih => exact ih (by simpa [nonlT, Peg.nonl] using hn)
  | nil => exact ⟨[], rfl, by simp⟩
  | consOk _ _ ih1 ih2 =>
    simp only [nonlT, nonlL, Bool.and_eq_true] at hn
    obtain ⟨w, h1, h2⟩ := ih1 hn.1
    obtain ⟨w', h3, h4⟩ := ih2 hn.2
    exact ⟨w ++ w', by rw [h1, h3, List.append_assoc], by simp [h2, h4]⟩
  | choiceOk _ ih => exact ih (by simp only [nonlT, nonlL, Bool.and_eq_true] at hn; exact hn.1)
  | @choiceNext e es st st' r h h' ih1 ih2 =>
    have := ih2 (by simp only [nonlT, nonlL, Bool.and_eq_true] at hn; exact hn.2)
    have hr : (st'.pop st).rest = st.rest := by
      have : st'.rest = st.push.rest := fail_rest h
      exact this
    cases r with
    | ok v st2 => obtain ⟨w, h1, h2⟩ := this; exact ⟨w, by rw [← hr]; exact h1, h2⟩
    | fail _ => trivial
    | panic _ => trivial
  | starStop h ih => exact ⟨[], by simpa [PSt.pop, PSt.push] using (fail_rest h).symm, by simp⟩
  | starMore _ _ ih1 ih2 =>
    obtain ⟨w, h1, h2⟩ := ih1 (by simpa [nonlT, Peg.nonl] using hn)
    obtain ⟨w', h3, h4⟩ := ih2 (by simpa [nonlT, Peg.nonl] using hn)
    refine ⟨w ++ w', ?_, by simp [h2, h4]⟩
    have h1 : _ = _ := h1
    have h3 : _ = _ := h3
    simp only [PSt.push, PSt.pop] at h1 h3
    rw [h1, h3, List.append_assoc]
  | _ => trivial

/-! Actions do not depend on positions. -/

theorem look_er {e e' : Env} (h : erEnv e' = erEnv e) (l : Lbl) : (look e' l).er = (look e l).er := by
  induction e generalizing e' with
  | nil => cases e' with
    | nil => rfl
    | cons x e' => simp [erEnv] at h
  | cons x e ih =>
    cases e' with
    | nil => simp [erEnv] at h
    | cons y e' =>
      obtain ⟨a, b⟩ := x
      obtain ⟨c, d⟩ := y
      simp only [erEnv, List.map_cons, List.cons.injEq, Prod.mk.injEq] at h
      obtain ⟨⟨rfl, hv⟩, hr⟩ := h
      simp only [look, List.lookup_cons]
      by_cases hl : l = c
      · subst hl; simp [hv]
      · have := ih hr
        simp only [look] at this
        simpa [beq_eq_false_iff_ne.mpr hl] using this

theorem ifaceNodes_er {v v' : Val} (h : v'.er = v.er) : (ifaceNodes v').map eraseL = (ifaceNodes v).map eraseL := by
  have go : ∀ vs vs' : List Val, erL vs' = erL vs → (ifaceNodes.go vs').map eraseL = (ifaceNodes.go vs).map eraseL := by
    intro vs
    induction vs with
    | nil => intro vs' h; cases vs' <;> simp [erL] at h; rfl
    | cons x vs ih =>
      intro vs' h
      cases vs' with
      | nil => simp [erL] at h
      | cons y vs' =>
        simp only [erL, List.cons.injEq] at h
        have := ih vs' h.2
        cases x <;> cases y <;> simp [Val.er] at h <;> simp [ifaceNodes.go]
        · rename_i a b
          cases h1 : ifaceNodes.go vs' <;> cases h2 : ifaceNodes.go vs <;> simp_all [eraseL]
  cases v <;> cases v' <;> simp [Val.er] at h <;> simp [ifaceNodes]
  exact go _ _ h

theorem ifaceSequences_er {v v' : Val} (h : v'.er = v.er) : (ifaceSequences v').map eraseLL = (ifaceSequences v).map eraseLL := by
  have go : ∀ vs vs' : List Val, erL vs' = erL vs → (ifaceSequences.go vs').map eraseLL = (ifaceSequences.go vs).map eraseLL := by
    intro vs
    induction vs with
    | nil => intro vs' h; cases vs' <;> simp [erL] at h; rfl
    | cons x vs ih =>
      intro vs' h
      cases vs' with
      | nil => simp [erL] at h
      | cons y vs' =>
        simp only [erL, List.cons.injEq] at h
        have := ih vs' h.2
        cases x <;> cases y <;> simp [Val.er] at h <;> try simp [ifaceSequences.go]
        · rename_i a b
          cases a <;> cases b <;> simp [Node.erase] at h <;> try simp [ifaceSequences.go]
          cases h1 : ifaceSequences.go vs' <;> cases h2 : ifaceSequences.go vs <;> simp_all [eraseLL]
  cases v <;> cases v' <;> simp [Val.er] at h <;> simp [ifaceSequences]
  exact go _ _ h

theorem ifaceStr_er {v v' : Val} (h : v'.er = v.er) : ifaceStr v' = ifaceStr v := by
  have go : ∀ vs vs' : List Val, erL vs' = erL vs → ifaceStr.go vs' = ifaceStr.go vs := by
    intro vs
    induction vs with
    | nil => intro vs' h; cases vs' <;> simp [erL] at h; rfl
    | cons x vs ih =>
      intro vs' h
      cases vs' with
      | nil => simp [erL] at h
      | cons y vs' =>
        simp only [erL, List.cons.injEq] at h
        have := ih vs' h.2
        cases x <;> cases y <;> simp [Val.er] at h <;> simp [ifaceStr.go, this, h]
  cases v <;> cases v' <;> simp [Val.er] at h <;> simp [ifaceStr]
  exact go _ _ h

theorem map_some {α β} {f : α → β} {o o' : Option α} (h : o'.map f = o.map f) {x} (hx : o = some x) :
    ∃ y, o' = some y ∧ f y = f x := by
  subst hx; cases o' <;> simp at h; exact ⟨_, rfl, h⟩

theorem act_er {a : Act} {p p' : Pos} {w w' : Str} {e e' : Env} {s s2 : Option Nat} {v : Val}
    (he : erEnv e' = erEnv e) (hw : textual a = true → w' = w) (h : act a p w e s = some (v, s2)) :
    ∃ v', act a p' w' e' s = some (v', s2) ∧ v'.er = v.er := by
  cases a with
  | retNode | retP | retL | retVal | retParas =>
    simp only [act, Option.some.injEq, Prod.mk.injEq] at h ⊢
    exact ⟨_, ⟨rfl, h.2⟩, by rw [← h.1]; exact look_er he _⟩
  | mkParagraphs | mkLine =>
    simp only [act, Option.map_eq_some_iff, Prod.mk.injEq] at h ⊢
    obtain ⟨ns, h1, h2, h3⟩ := h
    obtain ⟨ms, h4, h5⟩ := map_some (ifaceNodes_er (look_er he _)) h1
    exact ⟨_, ⟨ms, h4, rfl, h3⟩, by subst h2; simp [Val.er, Node.erase, h5]⟩
  | mkParagraph =>
    simp only [act, Option.map_eq_some_iff, Prod.mk.injEq] at h ⊢
    obtain ⟨ns, h1, h2, h3⟩ := h
    obtain ⟨ms, h4, h5⟩ := map_some (ifaceSequences_er (look_er he _)) h1
    exact ⟨_, ⟨ms, h4, rfl, h3⟩, by subst h2; simp [Val.er, Node.erase, h5]⟩
  | block =>
    simp only [act, Option.map_eq_some_iff, Prod.mk.injEq] at h ⊢
    obtain ⟨ns, h1, h2, h3⟩ := h
    obtain ⟨ms, h4, h5⟩ := map_some (ifaceSequences_er (look_er he _)) h1
    exact ⟨_, ⟨ms, h4, rfl, h3⟩, by subst h2; simp [Val.er, Node.erase, h5]⟩
  | interp =>
    have hl := look_er he .word
    simp only [act] at h ⊢
    cases h1 : look e .word <;> rw [h1] at h hl <;> cases h2 : look e' .word <;> rw [h2] at hl <;> simp [Val.er] at hl <;>
      simp only [Option.some.injEq, Prod.mk.injEq] at h ⊢
    · exact ⟨_, ⟨rfl, h.2⟩, by rw [← h.1]⟩
    all_goals exact ⟨_, ⟨rfl, h.2⟩, by rw [← h.1]; simp [Val.er, hl]⟩
  | wrapped =>
    have hl := look_er he .words
    have hf := look_er he .firstWord
    simp only [act] at h ⊢
    cases h1 : look e .words <;> rw [h1] at h hl <;> simp at h
    cases h2 : look e' .words <;> rw [h2] at hl <;> simp [Val.er] at hl
    rename_i ws
    obtain ⟨ns, h3, h4, h5⟩ := h
    obtain ⟨ms, h6, h7⟩ := map_some (ifaceNodes_er (v' := .list (look e' .firstWord :: ws)) (by simp [Val.er, erL, hf, hl])) h3
    simp only [Option.map_eq_some_iff, Prod.mk.injEq]
    exact ⟨_, ⟨ms, h6, rfl, h5⟩, by subst h4; simp [Val.er, Node.erase, h7]⟩
  | split | retNil =>
    simp only [act, Option.some.injEq, Prod.mk.injEq] at h ⊢
    exact ⟨_, ⟨rfl, h.2⟩, by rw [← h.1]⟩
  | text | textTail | indent =>
    rw [hw rfl]
    exact ⟨v, h, rfl⟩
  | blockLine =>
    have hl := look_er he .indent
    simp only [act] at h ⊢
    cases h1 : look e .indent <;> rw [h1] at h hl <;> try (simp at h; done)
    cases h2 : look e' .indent <;> rw [h2] at hl <;> simp [Val.er] at hl
    cases h3 : ifaceNodes (look e .words) <;> rw [h3] at h <;> simp only [Option.some.injEq, Prod.mk.injEq, reduceCtorEq] at h
    obtain ⟨ms, h6, h7⟩ := map_some (ifaceNodes_er (look_er he .words)) h3
    simp only [h6, Option.some.injEq, Prod.mk.injEq]
    exact ⟨_, ⟨rfl, h.2⟩, by rw [← h.1, hl]; simp [Val.er, Node.erase, eraseL, h7]⟩
  | invoke =>
    have hn := ifaceStr_er (look_er he .name)
    simp only [act] at h ⊢
    rw [hn]
    cases h2 : ifaceStr (look e .name) <;> rw [h2] at h <;> try (simp at h; done)
    cases h3 : ifaceNodes (look e .args) <;> rw [h3] at h <;> simp only [Option.some.injEq, Prod.mk.injEq, reduceCtorEq] at h
    obtain ⟨ms, h6, h7⟩ := map_some (ifaceNodes_er (look_er he .args)) h3
    simp only [h6, Option.some.injEq, Prod.mk.injEq]
    exact ⟨_, ⟨rfl, h.2⟩, by rw [← h.1]; simp [Val.er, Node.erase, h7]⟩
  | arg =>
    have hl := look_er he .node
    simp only [act] at h ⊢
    cases h1 : look e .node <;> rw [h1] at h hl <;> cases h2 : look e' .node <;> rw [h2] at hl <;> simp [Val.er] at hl <;>
      simp only [Option.some.injEq, Prod.mk.injEq] at h ⊢
    · exact ⟨_, ⟨rfl, h.2⟩, by rw [← h.1]⟩
    all_goals exact ⟨_, ⟨rfl, h.2⟩, by rw [← h.1]; simp [Val.er, hl]⟩

/-- The values agree, unless they are unused. -/
def VR (t : Task) (v v' : Val) : Prop := junkT t = false → v'.er = v.er

/-- A state of the LF run and one of the CRLF run. -/
structure Rel (st st' : PSt) : Prop where
  rest : st'.rest = crlf st.rest
  store : st'.store = st.store
  env : erEnv st'.env = erEnv st.env

/-- Corresponding results. -/
def RRel (t : Task) : R → R → Prop
  | .ok v a, .ok v' b => VR t v v' ∧ Rel a b
  | .fail a, .fail b => b.store = a.store
  | _, _ => False

/-- The CRLF run does what the LF run does. -/
def Sim (t : Task) (st : PSt) (r : R) : Prop :=
  (∃ p, r = .panic p) ∨ ∀ st', Rel st st' → ∃ r', Big booklit t st' r' ∧ RRel t r r'

theorem ok_rest {t st v st'} (h : Big booklit t st (.ok v st')) (hc : noCR st.rest) : noCR st'.rest := by
  obtain ⟨⟨w, hw, _⟩, _⟩ := h.adv
  intro hm; exact hc (by rw [hw]; simp [hm])

theorem Sim.ok {t st v a} (h : Sim t st (.ok v a)) {st'} (hr : Rel st st') :
    ∃ v' b, Big booklit t st' (.ok v' b) ∧ VR t v v' ∧ Rel a b := by
  rcases h with ⟨p, hp⟩ | h
  · cases hp
  · obtain ⟨r', hb, hr'⟩ := h st' hr
    cases r' with
    | ok v' b => exact ⟨v', b, hb, hr'⟩
    | fail _ => exact hr'.elim
    | panic _ => exact hr'.elim

theorem Sim.fail {t st a} (h : Sim t st (.fail a)) {st'} (hr : Rel st st') :
    ∃ b, Big booklit t st' (.fail b) ∧ b.store = a.store := by
  rcases h with ⟨p, hp⟩ | h
  · cases hp
  · obtain ⟨r', hb, hr'⟩ := h st' hr
    cases r' with
    | ok _ _ => exact hr'.elim
    | fail b => exact ⟨b, hb, hr'⟩
    | panic _ => exact hr'.elim

theorem Sim.mkOk {t st v a} (h : ∀ st', Rel st st' → ∃ v' b, Big booklit t st' (.ok v' b) ∧ VR t v v' ∧ Rel a b) :
    Sim t st (.ok v a) := Or.inr fun st' hr => by
  obtain ⟨v', b, h1, h2⟩ := h st' hr
  exact ⟨_, h1, h2⟩

theorem Sim.mkFail {t st a} (h : ∀ st', Rel st st' → ∃ b, Big booklit t st' (.fail b) ∧ b.store = a.store) :
    Sim t st (.fail a) := Or.inr fun st' hr => by
  obtain ⟨b, h1, h2⟩ := h st' hr
  exact ⟨_, h1, h2⟩

theorem Rel.push {st st'} (h : Rel st st') : Rel st.push st'.push := ⟨h.rest, h.store, rfl⟩
theorem Rel.pop {a b st st'} (h : Rel a b) (h' : Rel st st') : Rel (a.pop st) (b.pop st') := ⟨h.rest, h.store, h'.env⟩

/-- A rule whose behaviour in both versions is known directly. -/
theorem sim_rule_ok {r st res next} (hb : Big booklit (.expr (.rule r)) st res) (hj : junk (.rule r) = true)
    (h1 : OkR r st.rest st.store next st.store fun _ => True)
    (h2 : OkR r (crlf st.rest) st.store (crlf next) st.store fun _ => True) : Sim (.expr (.rule r)) st res := by
  obtain ⟨v, st1, hb', hr, hs, _, he⟩ := h1 st.env st rfl rfl rfl
  have := hb.det hb'
  subst this
  refine Sim.mkOk fun st' hrel => ?_
  obtain ⟨v', st2, hb2, hr2, hs2, _, he2⟩ := h2 st'.env st' hrel.rest hrel.store rfl
  exact ⟨v', st2, hb2, fun h => by simp [junkT, hj] at h, by rw [hr2, hr], by rw [hs2, hs], by rw [he2, he, hrel.env]⟩

theorem sim_rule_no {r st res} (hb : Big booklit (.expr (.rule r)) st res)
    (h1 : NoR r st.rest st.store st.store) (h2 : NoR r (crlf st.rest) st.store st.store) : Sim (.expr (.rule r)) st res := by
  obtain ⟨st1, hb', hs⟩ := h1 st rfl rfl
  have := hb.det hb'
  subst this
  refine Sim.mkFail fun st' hrel => ?_
  obtain ⟨st2, hb2, hs2⟩ := h2 st' hrel.rest hrel.store
  exact ⟨st2, hb2, by rw [hs2, hs]⟩

theorem sim_special {r st res} (hb : Big booklit (.expr (.rule r)) st res) (hr : r = .lineBreak ∨ r = .comment) (hc : noCR st.rest) :
    Sim (.expr (.rule r)) st res := by
  rcases hr with rfl | rfl
  · cases hrest : st.rest with
    | nil =>
      exact sim_rule_no hb (by rw [hrest]; exact no_lineBreak (by simp) (by simp))
        (by rw [hrest]; exact no_lineBreak (by simp [crlf]) (by simp [crlf]))
    | cons c t =>
      by_cases h : c = '\n'
      · subst h
        refine sim_rule_ok (next := t) hb rfl ?_ ?_
        · rw [hrest]; exact ok_lineBreak (nl := ['\n']) (Or.inl rfl)
        · have : crlf st.rest = ['\r', '\n'] ++ crlf t := by rw [hrest]; simp [crlf]
          rw [this]; exact ok_lineBreak (Or.inr rfl)
      · have hr : c ≠ '\r' := by rintro rfl; exact hc (by rw [hrest]; simp)
        exact sim_rule_no hb (by rw [hrest]; exact no_lineBreak (by simp [h]) (by simp [hr]))
          (by rw [hrest, crlf_cons _ h]; exact no_lineBreak (by simp [h]) (by simp [hr]))
  · rcases csim st.rest hc with ⟨next, h1, h2, _⟩ | ⟨h1, h2⟩
    · exact sim_rule_ok hb rfl (h1 _) (h2 _)
    · exact sim_rule_no hb (h1 _) (h2 _)

theorem good_not {e : Expr} (h : good (.not e) = true) : e = .any ∨ good e = true := by
  cases e <;> simp [good] at h ⊢ <;> simp_all

theorem crlf_eq_nil {t : Str} : crlf t = [] ↔ t = [] := by
  cases t with
  | nil => simp [crlf]
  | cons c t => simp only [crlf]; split <;> simp

theorem Big.sim {t st r} (h : Big booklit t st r) (hc : noCR st.rest) (hg : goodT t = true) : Sim t st r := by
  induction h with
  | lit s st =>
    simp only [goodT, good, Bool.and_eq_true, Bool.not_eq_true', List.contains_eq_mem, decide_eq_false_iff_not] at hg
    by_cases h : ∃ next, st.rest = s ++ next
    · obtain ⟨next, hnx⟩ := h
      rw [runLit_ok hnx]
      refine Sim.mkOk fun st' hr => ?_
      have hb := Big.lit (g := booklit) s st'
      have : st'.rest = s ++ crlf next := by rw [hr.rest, hnx, crlf_app, crlf_id hg.1]
      rw [runLit_ok this] at hb
      exact ⟨_, _, hb, fun _ => rfl, by simp [PSt.skip], by simpa [PSt.skip] using hr.store, by simpa [PSt.skip] using hr.env⟩
    · rw [runLit_fail h]
      refine Sim.mkFail fun st' hr => ?_
      have hb := Big.lit (g := booklit) s st'
      rw [runLit_fail (by rw [hr.rest, crlf_prefix hg.1 hg.2]; exact h)] at hb
      exact ⟨_, hb, by simpa using hr.store⟩
  | cls neg cs rs st =>
    simp only [goodT, good, Bool.and_eq_true, Bool.not_eq_true'] at hg
    by_cases h : ∃ c r, st.rest = c :: r ∧ clsMatches neg cs rs c = true
    · obtain ⟨c, r, h1, h2⟩ := h
      rw [runCls_ok h1 h2]
      refine Sim.mkOk fun st' hr => ?_
      have hb := Big.cls (g := booklit) neg cs rs st'
      have hn : c ≠ '\n' := by rintro rfl; rw [hg.1] at h2; cases h2
      have : st'.rest = c :: crlf r := by rw [hr.rest, h1, crlf_cons _ hn]
      rw [runCls_ok this h2] at hb
      exact ⟨_, _, hb, fun _ => rfl, by simp [PSt.skip], by simpa [PSt.skip] using hr.store, by simpa [PSt.skip] using hr.env⟩
    · have h' : ∀ c r, st.rest = c :: r → clsMatches neg cs rs c = false := by
        intro c r hr; cases hm : clsMatches neg cs rs c with
        | false => rfl
        | true => exact absurd ⟨c, r, hr, hm⟩ h
      rw [runCls_fail h']
      refine Sim.mkFail fun st' hr => ?_
      have hb := Big.cls (g := booklit) neg cs rs st'
      rw [runCls_fail (by
        intro c r hr'
        rw [hr.rest] at hr'
        cases hst : st.rest with
        | nil => simp [hst, crlf] at hr'
        | cons d t =>
          rw [hst] at hr'
          by_cases hd : d = '\n'
          · subst hd; simp [crlf] at hr'; rw [← hr'.1]; exact hg.2
          · rw [crlf_cons _ hd] at hr'
            simp only [List.cons.injEq] at hr'
            rw [← hr'.1]; exact h' _ _ hst)] at hb
      exact ⟨_, hb, by simpa using hr.store⟩
  | any st => simp [goodT, good] at hg
  | seqOk _ ih =>
    refine Sim.mkOk fun st' hr => ?_
    obtain ⟨v', b, h1, h2, h3⟩ := (ih hc (by simpa [goodT, good] using hg)).ok hr
    exact ⟨v', b, .seqOk h1, h2, h3⟩
  | seqFail _ ih =>
    refine Sim.mkFail fun st' hr => ?_
    obtain ⟨b, h1, h2⟩ := (ih hc (by simpa [goodT, good] using hg)).fail hr
    exact ⟨_, .seqFail h1, h2⟩
  | choice _ ih =>
    rcases ih hc (by simpa [goodT, good] using hg) with hp | h
    · exact Or.inl hp
    · refine Or.inr fun st' hr => ?_
      obtain ⟨r', h1, h2⟩ := h st' hr
      exact ⟨r', .choice h1, h2⟩
  | star _ ih =>
    rcases ih hc (by simpa [goodT, good] using hg) with hp | h
    · exact Or.inl hp
    · refine Or.inr fun st' hr => ?_
      obtain ⟨r', h1, h2⟩ := h st' hr
      exact ⟨r', .star h1, h2⟩
  | plusOk hb1 _ ih1 ih2 =>
    refine Sim.mkOk fun st' hr => ?_
    obtain ⟨v', b, h1, h2, h3⟩ := (ih1 hc (by simpa [goodT, good] using hg)).ok hr.push
    obtain ⟨w', c, h4, h5, h6⟩ := (ih2 (by have := ok_rest hb1 hc; exact this) (by simpa [goodT, good] using hg)).ok (h3.pop hr)
    obtain ⟨vs, rfl⟩ := star_list h4
    refine ⟨_, _, .plusOk h1 h4, fun hj => ?_, h6⟩
    have e1 := h2 hj
    have e2 := h5 hj
    simp only [Val.er, Val.list.injEq] at e2
    simp [Val.er, erL, e1, e2]
  | plusFail _ ih =>
    refine Sim.mkFail fun st' hr => ?_
    obtain ⟨b, h1, h2⟩ := (ih hc (by simpa [goodT, good] using hg)).fail hr.push
    exact ⟨_, .plusFail h1, h2⟩
  | optOk _ ih =>
    refine Sim.mkOk fun st' hr => ?_
    obtain ⟨v', b, h1, h2, h3⟩ := (ih hc (by simpa [goodT, good] using hg)).ok hr.push
    exact ⟨_, _, .optOk h1, h2, h3.pop hr⟩
  | optNone hb ih =>
    refine Sim.mkOk fun st' hr => ?_
    obtain ⟨b, h1, h2⟩ := (ih hc (by simpa [goodT, good] using hg)).fail hr.push
    refine ⟨_, _, .optNone h1, fun _ => rfl, ?_, h2, hr.env⟩
    have e1 := fail_rest h1
    have e2 := fail_rest hb
    simp only [PSt.push, PSt.pop] at e1 e2 ⊢
    rw [e1, e2, hr.rest]
  | @notFail e st v st' hb ih =>
    refine Sim.mkFail fun st2 hr => ?_
    rcases good_not hg with rfl | hg
    · cases h : st.rest with
      | nil => have hb' := Big.any (g := booklit) { st.push with invert := !st.invert }
               rw [runAny_fail (by exact h)] at hb'
               cases hb.det hb'
      | cons c t =>
        have hb' := Big.any (g := booklit) { st.push with invert := !st.invert }
        rw [runAny_ok (by exact h)] at hb'
        have := hb.det hb'
        simp only [R.ok.injEq] at this
        cases h2 : st2.rest with
        | nil => rw [hr.rest, crlf_eq_nil, h] at h2; cases h2
        | cons d t2 =>
          have hb2 := Big.any (g := booklit) { st2.push with invert := !st2.invert }
          rw [runAny_ok (by exact h2)] at hb2
          refine ⟨_, .notFail hb2, ?_⟩
          rw [this.2]
          simpa [PSt.pop, PSt.restore, PSt.skip, PSt.push] using hr.store
    · have hr' : Rel { st.push with invert := !st.invert } { st2.push with invert := !st2.invert } :=
        ⟨hr.rest, hr.store, rfl⟩
      obtain ⟨v', b, h1, h2, h3⟩ := (ih hc hg).ok hr'
      exact ⟨_, .notFail h1, h3.store⟩
  | @notOk e st st' hb ih =>
    refine Sim.mkOk fun st2 hr => ?_
    rcases good_not hg with rfl | hg
    · cases h : st.rest with
      | cons c t =>
        have hb' := Big.any (g := booklit) { st.push with invert := !st.invert }
        rw [runAny_ok (by exact h)] at hb'
        cases hb.det hb'
      | nil =>
        have hb' := Big.any (g := booklit) { st.push with invert := !st.invert }
        rw [runAny_fail (by exact h)] at hb'
        have := hb.det hb'
        simp only [R.fail.injEq] at this
        have hb2 := Big.any (g := booklit) { st2.push with invert := !st2.invert }
        rw [runAny_fail (by show st2.rest = []; rw [hr.rest, h]; rfl)] at hb2
        refine ⟨_, _, .notOk hb2, fun _ => rfl, hr.rest, ?_, hr.env⟩
        rw [this]
        simpa [PSt.pop, PSt.restore, PSt.push] using hr.store
    · have hr' : Rel { st.push with invert := !st.invert } { st2.push with invert := !st2.invert } :=
        ⟨hr.rest, hr.store, rfl⟩
      obtain ⟨b, h1, h2⟩ := (ih hc hg).fail hr'
      exact ⟨_, _, .notOk h1, fun _ => rfl, hr.rest, h2, hr.env⟩
  | labelOk _ ih =>
    simp only [goodT, good, Bool.and_eq_true, Bool.not_eq_true'] at hg
    refine Sim.mkOk fun st' hr => ?_
    obtain ⟨v', b, h1, h2, h3⟩ := (ih hc hg.1).ok hr.push
    refine ⟨_, _, .labelOk h1, h2, h3.rest, h3.store, ?_⟩
    have := h2 hg.2
    have he := hr.env
    simp only [erEnv] at he
    simp [PSt.bind, PSt.pop, erEnv, this, he]
  | labelFail _ ih =>
    simp only [goodT, good, Bool.and_eq_true, Bool.not_eq_true'] at hg
    refine Sim.mkFail fun st' hr => ?_
    obtain ⟨b, h1, h2⟩ := (ih hc hg.1).fail hr.push
    exact ⟨_, .labelFail h1, h2⟩
  | @ruleOk r st v st' hb ih =>
    by_cases hs : r = .lineBreak ∨ r = .comment
    · exact sim_special (.ruleOk hb) hs hc
    · simp only [not_or] at hs
      refine Sim.mkOk fun st2 hr => ?_
      obtain ⟨v', b, h1, h2, h3⟩ := (ih hc (good_rules r hs.1 hs.2)).ok hr.push
      exact ⟨_, _, .ruleOk h1, fun hj => h2 (junk_rules r hj), h3.pop hr⟩
  | @ruleFail r st st' hb ih =>
    by_cases hs : r = .lineBreak ∨ r = .comment
    · exact sim_special (.ruleFail hb) hs hc
    · simp only [not_or] at hs
      refine Sim.mkFail fun st2 hr => ?_
      obtain ⟨b, h1, h2⟩ := (ih hc (good_rules r hs.1 hs.2)).fail hr.push
      exact ⟨_, .ruleFail h1, h2⟩
  | @actOk a e st v st' v' s hb ha ih =>
    simp only [goodT, good, Bool.and_eq_true, Bool.or_eq_true, Bool.not_eq_true'] at hg
    refine Sim.mkOk fun st2 hr => ?_
    obtain ⟨v2, b, h1, h2, h3⟩ := (ih hc hg.1).ok hr
    have hw : textual a = true → b.sliceFrom st2 = st'.sliceFrom st := by
      intro ht
      rcases hg.2 with h | h
      · rw [ht] at h; cases h
      · obtain ⟨w, e1, e2⟩ := hb.nonl h
        have e3 : st2.rest = w ++ b.rest := by rw [hr.rest, e1, crlf_app, crlf_id e2, h3.rest]
        simp [PSt.sliceFrom, e1, e3]
    have ha : act a st.pos (st'.sliceFrom st) st'.env st'.store = some (v', s) := ha
    obtain ⟨v3, h4, h5⟩ := act_er (p' := st2.pos) h3.env hw ha
    rw [← h3.store] at h4
    exact ⟨_, _, .actOk h1 h4, fun _ => h5, h3.rest, rfl, h3.env⟩
  | actFail _ ih =>
    simp only [goodT, good, Bool.and_eq_true] at hg
    refine Sim.mkFail fun st' hr => ?_
    obtain ⟨b, h1, h2⟩ := (ih hc hg.1).fail hr
    exact ⟨_, .actFail h1, h2⟩
  | nil => exact Sim.mkOk fun st' hr => ⟨_, _, .nil, fun _ => rfl, hr⟩
  | @consOk e es st v st' vs st'' hb1 _ ih1 ih2 =>
    simp only [goodT, goodL, Bool.and_eq_true] at hg
    refine Sim.mkOk fun st2 hr => ?_
    obtain ⟨v', b, h1, h2, h3⟩ := (ih1 hc hg.1).ok hr
    obtain ⟨w', c, h4, h5, h6⟩ := (ih2 (ok_rest hb1 hc) hg.2).ok h3
    obtain ⟨n, hn⟩ := run_complete _ h4
    have := (run_shape booklit n).2 _ _ _ (hn n (Nat.le_refl _))
    cases w' with
    | list ws =>
      refine ⟨_, _, .consOk h1 h4, fun hj => ?_, h6⟩
      simp only [junkT, junkL, Bool.or_eq_false_iff] at hj
      have e1 := h2 hj.1
      have e2 := h5 hj.2
      simp only [Val.er, Val.list.injEq] at e2
      simp [Val.er, erL, e1, e2]
    | _ => simp [R.isList] at this
  | consFail _ ih =>
    simp only [goodT, goodL, Bool.and_eq_true] at hg
    refine Sim.mkFail fun st' hr => ?_
    obtain ⟨b, h1, h2⟩ := (ih hc hg.1).fail hr
    exact ⟨_, .consFail h1, h2⟩
  | consFail' hb1 _ ih1 ih2 =>
    simp only [goodT, goodL, Bool.and_eq_true] at hg
    refine Sim.mkFail fun st' hr => ?_
    obtain ⟨v', b, h1, h2, h3⟩ := (ih1 hc hg.1).ok hr
    obtain ⟨c, h4, h5⟩ := (ih2 (ok_rest hb1 hc) hg.2).fail h3
    exact ⟨_, .consFail' h1 h4, h5⟩
  | choiceNil => exact Sim.mkFail fun st' hr => ⟨_, .choiceNil, hr.store⟩
  | choiceOk _ ih =>
    simp only [goodT, goodL, Bool.and_eq_true] at hg
    refine Sim.mkOk fun st' hr => ?_
    obtain ⟨v', b, h1, h2, h3⟩ := (ih hc hg.1).ok hr.push
    refine ⟨_, _, .choiceOk h1, fun hj => h2 ?_, h3.pop hr⟩
    simp only [junkT, junkL, Bool.or_eq_false_iff] at hj ⊢
    exact hj.1
  | @choiceNext e es st st' r hb _ ih1 ih2 =>
    simp only [goodT, goodL, Bool.and_eq_true] at hg
    have e1 : st'.rest = st.push.rest := fail_rest hb
    have e1 : st'.rest = st.rest := e1
    rcases ih2 (by show noCR st'.rest; rw [e1]; exact hc) hg.2 with hp | h
    · exact Or.inl hp
    · refine Or.inr fun st2 hr => ?_
      obtain ⟨b, h1, h2⟩ := (ih1 hc hg.1).fail hr.push
      have e2 : b.rest = st2.push.rest := fail_rest h1
      have e2 : b.rest = st2.rest := e2
      obtain ⟨r', h3, h4⟩ := h (b.pop st2) ⟨by show b.rest = crlf st'.rest; rw [e2, e1, hr.rest], h2, hr.env⟩
      refine ⟨r', .choiceNext h1 h3, ?_⟩
      cases r <;> cases r' <;> simp only [RRel] at h4 ⊢
      · refine ⟨fun hj => h4.1 ?_, h4.2⟩
        simp only [junkT, junkL, Bool.or_eq_false_iff] at hj ⊢
        exact hj.2
      · exact h4
  | starStop hb ih =>
    refine Sim.mkOk fun st' hr => ?_
    obtain ⟨b, h1, h2⟩ := (ih hc (by simpa [goodT, good] using hg)).fail hr.push
    refine ⟨_, _, .starStop h1, fun _ => rfl, ?_, h2, hr.env⟩
    have e1 := fail_rest h1
    have e2 := fail_rest hb
    simp only [PSt.push, PSt.pop] at e1 e2 ⊢
    rw [e1, e2, hr.rest]
  | starMore hb1 _ ih1 ih2 =>
    refine Sim.mkOk fun st' hr => ?_
    obtain ⟨v', b, h1, h2, h3⟩ := (ih1 hc (by simpa [goodT, good] using hg)).ok hr.push
    obtain ⟨w', c, h4, h5, h6⟩ := (ih2 (by have := ok_rest hb1 hc; exact this) (by simpa [goodT, good] using hg)).ok (h3.pop hr)
    obtain ⟨vs, rfl⟩ := star_list h4
    refine ⟨_, _, .starMore h1 h4, fun hj => ?_, h6⟩
    have e1 := h2 hj
    have e2 := h5 hj
    simp only [Val.er, Val.list.injEq] at e2
    simp [Val.er, erL, e1, e2]
  | _ => exact Or.inl ⟨_, rfl⟩

/-- Whole documents. -/
theorem crlf_doc (s : Str) (h : noCR s) :
    (∀ t, parseDoc s = some (.ok (.node t)) → ∃ t', parseDoc (crlf s) = some (.ok (.node t')) ∧ t'.erase = t.erase) ∧
    (∀ p, parseDoc s = some (.err p) → ∃ p', parseDoc (crlf s) = some (.err p')) := by
  obtain ⟨r, hr⟩ := booklit_total s (fuelFor s) (Nat.le_refl _) .booklit (PSt.start s) rfl
  obtain ⟨r', hr'⟩ := booklit_total (crlf s) (fuelFor (crlf s)) (Nat.le_refl _) .booklit (PSt.start (crlf s)) rfl
  have hsim := (run_sound _ _ _ _ _ hr).sim h rfl
  have hrel : Rel (PSt.start s) (PSt.start (crlf s)) := ⟨rfl, rfl, rfl⟩
  constructor
  · intro t ht
    simp only [parseDoc, parse, hr] at ht
    cases r with
    | ok v a =>
      simp at ht; subst ht
      obtain ⟨v', b, h1, h2, _⟩ := hsim.ok hrel
      have := (run_sound _ _ _ _ _ hr').det h1
      subst this
      have := h2 rfl
      cases v' <;> simp [Val.er] at this
      exact ⟨_, by simp [parseDoc, parse, hr'], this⟩
    | fail a => simp at ht
    | panic a => simp at ht
  · intro p ht
    simp only [parseDoc, parse, hr] at ht
    cases r with
    | ok v a => simp at ht
    | fail a =>
      obtain ⟨b, h1, h2⟩ := hsim.fail hrel
      have := (run_sound _ _ _ _ _ hr').det h1
      subst this
      exact ⟨b.maxFail, by simp [parseDoc, parse, hr']⟩
    | panic a => simp at ht

end Booklit.Peg
