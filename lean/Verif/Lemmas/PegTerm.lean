import Verif.Lemmas.PegAdv
import Verif.Model.Grammar

/-!
Termination of PEG runs: a grammar without left recursion (witnessed by a rank of its rules) and without
loops over expressions that may match the empty text finishes on every input, with fuel linear in the
length of the input.
-/

namespace Booklit.Peg

open Booklit

mutual
/-- Size of an expression, with room for the interpreter's bookkeeping steps. -/
def Expr.size : Expr → Nat
  | .lit _ => 1
  | .cls _ _ _ => 1
  | .any => 1
  | .seq es => 2 + sizeL es
  | .choice es => 2 + sizeL es
  | .star e => 2 + e.size
  | .plus e => 3 + e.size
  | .opt e => 1 + e.size
  | .not e => 1 + e.size
  | .label _ e => 1 + e.size
  | .rule _ => 1
  | .act _ e => 1 + e.size
def sizeL : List Expr → Nat
  | [] => 0
  | e :: es => 1 + e.size + sizeL es
end

mutual
/-- May the expression succeed without consuming anything, given which rules may (`ν`)? -/
def Expr.nullable (ν : Rule → Bool) : Expr → Bool
  | .lit s => s.isEmpty
  | .cls _ _ _ => false
  | .any => false
  | .seq es => nullableAll ν es
  | .choice es => nullableAny ν es
  | .star _ => true
  | .plus e => e.nullable ν
  | .opt _ => true
  | .not _ => true
  | .label _ e => e.nullable ν
  | .rule r => ν r
  | .act _ e => e.nullable ν
def nullableAll (ν : Rule → Bool) : List Expr → Bool
  | [] => true
  | e :: es => e.nullable ν && nullableAll ν es
def nullableAny (ν : Rule → Bool) : List Expr → Bool
  | [] => false
  | e :: es => e.nullable ν || nullableAny ν es
end

mutual
/-- Every rule reachable without consuming anything has rank below `k`. -/
def Expr.leftOK (ν : Rule → Bool) (ρ : Rule → Nat) (k : Nat) : Expr → Bool
  | .lit _ => true
  | .cls _ _ _ => true
  | .any => true
  | .seq es => leftSeq ν ρ k es
  | .choice es => leftAll ν ρ k es
  | .star e => e.leftOK ν ρ k
  | .plus e => e.leftOK ν ρ k
  | .opt e => e.leftOK ν ρ k
  | .not e => e.leftOK ν ρ k
  | .label _ e => e.leftOK ν ρ k
  | .rule r => decide (ρ r < k)
  | .act _ e => e.leftOK ν ρ k
def leftSeq (ν : Rule → Bool) (ρ : Rule → Nat) (k : Nat) : List Expr → Bool
  | [] => true
  | e :: es => e.leftOK ν ρ k && (!e.nullable ν || leftSeq ν ρ k es)
def leftAll (ν : Rule → Bool) (ρ : Rule → Nat) (k : Nat) : List Expr → Bool
  | [] => true
  | e :: es => e.leftOK ν ρ k && leftAll ν ρ k es
end

mutual
/-- No loop has a body that may match nothing. -/
def Expr.loopsOK (ν : Rule → Bool) : Expr → Bool
  | .lit _ => true
  | .cls _ _ _ => true
  | .any => true
  | .seq es => loopsAll ν es
  | .choice es => loopsAll ν es
  | .star e => !e.nullable ν && e.loopsOK ν
  | .plus e => !e.nullable ν && e.loopsOK ν
  | .opt e => e.loopsOK ν
  | .not e => e.loopsOK ν
  | .label _ e => e.loopsOK ν
  | .rule _ => true
  | .act _ e => e.loopsOK ν
def loopsAll (ν : Rule → Bool) : List Expr → Bool
  | [] => true
  | e :: es => e.loopsOK ν && loopsAll ν es
end

mutual
theorem leftOK_top {ν ρ K} (h : ∀ r, ρ r < K) : ∀ e : Expr, e.leftOK ν ρ K = true
  | .lit _ => rfl
  | .cls _ _ _ => rfl
  | .any => rfl
  | .seq es => by simp only [Expr.leftOK]; exact leftSeq_top h es
  | .choice es => by simp only [Expr.leftOK]; exact leftAll_top h es
  | .star e => by simp only [Expr.leftOK]; exact leftOK_top h e
  | .plus e => by simp only [Expr.leftOK]; exact leftOK_top h e
  | .opt e => by simp only [Expr.leftOK]; exact leftOK_top h e
  | .not e => by simp only [Expr.leftOK]; exact leftOK_top h e
  | .label _ e => by simp only [Expr.leftOK]; exact leftOK_top h e
  | .rule r => by simp [Expr.leftOK, h r]
  | .act _ e => by simp only [Expr.leftOK]; exact leftOK_top h e
theorem leftSeq_top {ν ρ K} (h : ∀ r, ρ r < K) : ∀ es : List Expr, leftSeq ν ρ K es = true
  | [] => rfl
  | e :: es => by simp [leftSeq, leftOK_top h e, leftSeq_top h es]
theorem leftAll_top {ν ρ K} (h : ∀ r, ρ r < K) : ∀ es : List Expr, leftAll ν ρ K es = true
  | [] => rfl
  | e :: es => by simp [leftAll, leftOK_top h e, leftAll_top h es]
end

def Task.size : Task → Nat
  | .expr e => e.size
  | .seq es => 1 + sizeL es
  | .choice es => 1 + sizeL es
  | .star e => 1 + e.size

def Task.nullable (ν : Rule → Bool) : Task → Bool
  | .expr e => e.nullable ν
  | .seq es => nullableAll ν es
  | .choice es => nullableAny ν es
  | .star _ => true

def Task.leftOK (ν : Rule → Bool) (ρ : Rule → Nat) (k : Nat) : Task → Bool
  | .expr e => e.leftOK ν ρ k
  | .seq es => leftSeq ν ρ k es
  | .choice es => leftAll ν ρ k es
  | .star e => e.leftOK ν ρ k

def Task.loopsOK (ν : Rule → Bool) : Task → Bool
  | .expr e => e.loopsOK ν
  | .seq es => loopsAll ν es
  | .choice es => loopsAll ν es
  | .star e => !e.nullable ν && e.loopsOK ν

/-- What must hold of a grammar: `ν` over-approximates nullability, ranks decrease along rules reachable
without consuming, loops have non-nullable bodies, and rule bodies are smaller than `C`. -/
structure WFGrammar (g : Grammar) (ν : Rule → Bool) (ρ : Rule → Nat) (K C : Nat) : Prop where
  null : ∀ r, (g.rules r).nullable ν = true → ν r = true
  left : ∀ r, (g.rules r).leftOK ν ρ (ρ r) = true
  loops : ∀ r, (g.rules r).loopsOK ν = true
  top : ∀ r, ρ r < K
  size : ∀ r, (g.rules r).size ≤ C

theorem moved_len {a b : PSt} {w} (h : Moved a w b) : b.rest.length ≤ a.rest.length := by
  rw [h.1]; simp

/-- A successful run that consumes nothing is a run of a nullable task. -/
theorem Big.consumes {g ν ρ K C t st r} (wf : WFGrammar g ν ρ K C) (h : Big g t st r) :
    ∀ v st', r = .ok v st' → t.nullable ν = false → st'.rest.length < st.rest.length := by
  have le : ∀ {t st v st'}, Big g t st (.ok v st') → st'.rest.length ≤ st.rest.length := by
    intro t st v st' h
    obtain ⟨⟨w, hw⟩, _⟩ := h.adv
    exact moved_len hw
  induction h with
  | lit s st =>
    intro v st' hr hn
    by_cases h : ∃ next, st.rest = s ++ next
    · obtain ⟨next, h⟩ := h
      rw [runLit_ok h] at hr
      cases hr
      cases s with
      | nil => simp [Task.nullable, Expr.nullable] at hn
      | cons c s => simp [h, PSt.skip]; omega
    · rw [runLit_fail h] at hr; cases hr
  | cls neg cs rs st =>
    intro v st' hr hn
    by_cases h : ∀ c r, st.rest = c :: r → clsMatches neg cs rs c = false
    · rw [runCls_fail h] at hr; cases hr
    · simp only [Classical.not_forall] at h
      obtain ⟨c, r, hr', hc⟩ := h
      rw [runCls_ok hr' (by simpa using hc)] at hr
      cases hr
      simp [hr', PSt.skip]
  | any st =>
    intro v st' hr hn
    cases h : st.rest with
    | nil => rw [runAny_fail h] at hr; cases hr
    | cons c r => rw [runAny_ok h] at hr; cases hr; simp [PSt.skip]
  | seqOk _ ih => intro v st' hr hn; cases hr; exact ih _ _ rfl hn
  | seqFail _ ih => intro v st' hr; cases hr
  | seqPanic _ _ => intro v st' hr; cases hr
  | choice _ ih => intro v st' hr hn; exact ih _ _ hr hn
  | star _ ih => intro v st' hr hn; simp [Task.nullable, Expr.nullable] at hn
  | plusOk h1 h2 ih1 ih2 =>
    intro v st' hr hn; cases hr
    have := ih1 _ _ rfl hn
    have := le h2
    simp only [PSt.pop, PSt.push] at *
    omega
  | plusFail _ ih => intro v st' hr; cases hr
  | plusPanic _ _ => intro v st' hr; cases hr
  | plusPanic' _ _ _ _ => intro v st' hr; cases hr
  | optOk _ ih => intro v st' hr hn; simp [Task.nullable, Expr.nullable] at hn
  | optNone _ ih => intro v st' hr hn; simp [Task.nullable, Expr.nullable] at hn
  | optPanic _ _ => intro v st' hr; cases hr
  | notFail _ ih => intro v st' hr; cases hr
  | notOk _ ih => intro v st' hr hn; simp [Task.nullable, Expr.nullable] at hn
  | notPanic _ _ => intro v st' hr; cases hr
  | labelOk _ ih => intro v st' hr hn; cases hr; have := ih _ _ rfl hn; exact this
  | labelFail _ ih => intro v st' hr; cases hr
  | labelPanic _ _ => intro v st' hr; cases hr
  | @ruleOk r _ _ _ _ ih =>
    intro v st' hr hn; cases hr
    suffices hs : (Task.expr (g.rules r)).nullable ν = false by
      have := ih _ _ rfl hs
      exact this
    simp only [Task.nullable, Expr.nullable] at hn ⊢
    cases hb : (g.rules r).nullable ν with
    | false => rfl
    | true => rw [wf.null r hb] at hn; cases hn
  | ruleFail _ ih => intro v st' hr; cases hr
  | rulePanic _ _ => intro v st' hr; cases hr
  | actOk _ _ ih => intro v st' hr hn; cases hr; have := ih _ _ rfl hn; exact this
  | actBad _ _ _ => intro v st' hr; cases hr
  | actFail _ ih => intro v st' hr; cases hr
  | actPanic _ _ => intro v st' hr; cases hr
  | nil => intro v st' hr hn; simp [Task.nullable, nullableAll] at hn
  | consOk h1 h2 ih1 ih2 =>
    intro v st' hr hn; cases hr
    have l1 := le h1
    have l2 := le h2
    simp only [Task.nullable, nullableAll, Bool.and_eq_false_iff] at hn ih1 ih2
    rcases hn with hn | hn
    · have := ih1 _ _ rfl hn; omega
    · have := ih2 _ _ rfl hn; omega
  | consFail _ ih => intro v st' hr; cases hr
  | consPanic _ _ => intro v st' hr; cases hr
  | consFail' _ _ ih1 ih2 => intro v st' hr; cases hr
  | consPanic' _ _ _ _ => intro v st' hr; cases hr
  | choiceNil => intro v st' hr; cases hr
  | choiceOk _ ih =>
    intro v st' hr hn; cases hr
    simp only [Task.nullable, nullableAny, Bool.or_eq_false_iff] at hn
    have := ih _ _ rfl hn.1
    exact this
  | choiceNext h1 _ ih1 ih2 =>
    intro v st' hr hn
    simp only [Task.nullable, nullableAny, Bool.or_eq_false_iff] at hn
    have := ih2 _ _ hr hn.2
    have h3 := h1.adv.2 rfl
    simp only [PSt.pop, PSt.push] at *
    rw [h3.1] at this
    exact this
  | choicePanic _ _ => intro v st' hr; cases hr
  | starStop _ ih => intro v st' hr hn; simp [Task.nullable] at hn
  | starMore _ _ ih1 ih2 => intro v st' hr hn; simp [Task.nullable] at hn
  | starPanic _ _ => intro v st' hr; cases hr
  | starPanic' _ _ _ _ => intro v st' hr; cases hr

/-- Fuel that suffices for a task on an input of length `N`. -/
def need (K C N k : Nat) (t : Task) : Nat := N * ((K + 1) * (C + 1)) + k * (C + 1) + t.size

theorem need_lt {K C N N' k t t'} (h : N' < N) (ht : t'.size ≤ t.size) :
    need K C N' K t' < need K C N k t := by
  unfold need
  have : (N' + 1) * ((K + 1) * (C + 1)) ≤ N * ((K + 1) * (C + 1)) := Nat.mul_le_mul_right _ h
  have e : (N' + 1) * ((K + 1) * (C + 1)) = N' * ((K + 1) * (C + 1)) + (K * (C + 1) + (C + 1)) := by
    rw [Nat.add_mul, Nat.one_mul, Nat.add_mul, Nat.one_mul]
  omega

theorem run_total {g ν ρ K C} (wf : WFGrammar g ν ρ K C) : ∀ n N k t st,
    st.rest.length ≤ N → t.leftOK ν ρ k = true → t.loopsOK ν = true → need K C N k t < n →
    ∃ r, run g n t st = some r := by
  intro n
  induction n with
  | zero => intro N k t st _ _ _ h; omega
  | succ n ih =>
    intro N k t st hN hl hc hn
    -- a subtask at the same point
    have same : ∀ t' st', st'.rest = st.rest → t'.size < t.size → t'.leftOK ν ρ k = true → t'.loopsOK ν = true →
        ∃ r, run g n t' st' = some r := by
      intro t' st' he hs h1 h2
      exact ih N k t' st' (by rw [he]; exact hN) h1 h2 (by unfold need at *; omega)
    -- a subtask after something was consumed
    have later : ∀ t' st', st'.rest.length < st.rest.length → t'.size ≤ t.size → t'.loopsOK ν = true →
        ∃ r, run g n t' st' = some r := by
      intro t' st' he hs h2
      refine ih (N - 1) K t' st' (by omega) ?_ h2 ?_
      · cases t' with
        | expr e => exact leftOK_top wf.top e
        | seq es => exact leftSeq_top wf.top es
        | choice es => exact leftAll_top wf.top es
        | star e => exact leftOK_top wf.top e
      · have := need_lt (K := K) (C := C) (N := N) (N' := N - 1) (k := k) (t := t) (t' := t') (by omega) hs
        omega
    have shp := run_shape g n
    cases t with
    | expr e =>
      cases e with
      | lit s => exact ⟨_, by simp only [run]; rfl⟩
      | cls neg cs rs => exact ⟨_, by simp only [run]; rfl⟩
      | any => exact ⟨_, by simp only [run]; rfl⟩
      | seq es =>
        obtain ⟨r, hr⟩ := same (.seq es) st rfl (by simp [Task.size, Expr.size]) hl hc
        cases r <;> exact ⟨_, by simp only [run, hr]; rfl⟩
      | choice es =>
        obtain ⟨r, hr⟩ := same (.choice es) st rfl (by simp [Task.size, Expr.size]) hl hc
        exact ⟨r, by simp only [run, hr]⟩
      | star e =>
        obtain ⟨r, hr⟩ := same (.star e) st rfl (by simp [Task.size, Expr.size]) hl hc
        exact ⟨r, by simp only [run, hr]⟩
      | plus e =>
        have hc' : (!e.nullable ν && e.loopsOK ν) = true := hc
        have hc2 := hc'
        simp only [Bool.and_eq_true, Bool.not_eq_true'] at hc2
        obtain ⟨r, hr⟩ := same (.expr e) st.push rfl (by simp [Task.size, Expr.size]) hl hc2.2
        cases r with
        | ok v st' =>
          have := (run_sound g _ _ _ _ hr).consumes wf _ _ rfl hc2.1
          obtain ⟨r, hs⟩ := later (.star e) (st'.pop st) this (by simp [Task.size, Expr.size]) hc'
          have hsh := shp.1 _ _ _ hs
          cases r with
          | ok w st'' => cases w <;> first | exact hsh.elim | exact ⟨_, by simp only [run, hr, hs]; rfl⟩
          | fail st'' => exact hsh.elim
          | panic st'' => exact ⟨_, by simp only [run, hr, hs]; rfl⟩
        | fail st' => exact ⟨_, by simp only [run, hr]; rfl⟩
        | panic st' => exact ⟨_, by simp only [run, hr]; rfl⟩
      | opt e =>
        obtain ⟨r, hr⟩ := same (.expr e) st.push rfl (by simp [Task.size, Expr.size]) hl hc
        cases r <;> exact ⟨_, by simp only [run, hr]; rfl⟩
      | not e =>
        obtain ⟨r, hr⟩ := same (.expr e) { st.push with invert := !st.invert } rfl
          (by simp [Task.size, Expr.size]) hl hc
        cases r <;> exact ⟨_, by simp only [run, hr]; rfl⟩
      | label l e =>
        obtain ⟨r, hr⟩ := same (.expr e) st.push rfl (by simp [Task.size, Expr.size]) hl hc
        cases r <;> exact ⟨_, by simp only [run, hr]; rfl⟩
      | rule r' =>
        have hlt : ρ r' < k := by simpa [Task.leftOK, Expr.leftOK] using hl
        obtain ⟨r, hr⟩ := ih N (ρ r') (.expr (g.rules r')) st.push hN (wf.left r') (wf.loops r') (by
          have hsz := wf.size r'
          have : (ρ r' + 1) * (C + 1) ≤ k * (C + 1) := Nat.mul_le_mul_right _ hlt
          rw [Nat.add_mul, Nat.one_mul] at this
          unfold need at *
          simp only [Task.size, Expr.size] at *
          omega)
        cases r <;> exact ⟨_, by simp only [run, hr]; rfl⟩
      | act a e =>
        obtain ⟨r, hr⟩ := same (.expr e) st rfl (by simp [Task.size, Expr.size]) hl hc
        cases r with
        | ok v st' =>
          cases ha : g.acts a st.pos (st'.sliceFrom st) st'.env st'.store with
          | none => exact ⟨_, by simp only [run, hr, ha]; rfl⟩
          | some p => exact ⟨_, by simp only [run, hr, ha]; rfl⟩
        | fail st' => exact ⟨_, by simp only [run, hr]; rfl⟩
        | panic st' => exact ⟨_, by simp only [run, hr]; rfl⟩
    | seq es =>
      cases es with
      | nil => exact ⟨_, by simp only [run]; rfl⟩
      | cons e es =>
        have hc' : (e.loopsOK ν && loopsAll ν es) = true := hc
        have hl' : (e.leftOK ν ρ k && (!e.nullable ν || leftSeq ν ρ k es)) = true := hl
        simp only [Bool.and_eq_true] at hc' hl'
        obtain ⟨r, hr⟩ := same (.expr e) st rfl (by simp [Task.size, sizeL]; omega) hl'.1 hc'.1
        cases r with
        | ok v st' =>
          have hb := run_sound g _ _ _ _ hr
          have hs : ∃ r, run g n (.seq es) st' = some r := by
            by_cases hlen : st'.rest.length < st.rest.length
            · exact later (.seq es) st' hlen (by simp [Task.size, sizeL]) hc'.2
            · have hnul : e.nullable ν = true := by
                cases hx : e.nullable ν with
                | true => rfl
                | false => exact absurd (hb.consumes wf _ _ rfl hx) hlen
              obtain ⟨⟨w, hw⟩, _⟩ := hb.adv
              have hlen2 := moved_len hw
              refine ih N k (.seq es) st' (by omega) ?_ hc'.2 ?_
              · simpa [hnul, Task.leftOK] using hl'.2
              · unfold need at *; simp only [Task.size, sizeL] at *; omega
          obtain ⟨r, hs⟩ := hs
          have hsh := shp.2 _ _ _ hs
          cases r with
          | ok w st'' => cases w <;> first | exact hsh.elim | exact ⟨_, by simp only [run, hr, hs]; rfl⟩
          | fail st'' => exact ⟨_, by simp only [run, hr, hs]; rfl⟩
          | panic st'' => exact ⟨_, by simp only [run, hr, hs]; rfl⟩
        | fail st' => exact ⟨_, by simp only [run, hr]; rfl⟩
        | panic st' => exact ⟨_, by simp only [run, hr]; rfl⟩
    | choice es =>
      cases es with
      | nil => exact ⟨_, by simp only [run]; rfl⟩
      | cons e es =>
        have hc' : (e.loopsOK ν && loopsAll ν es) = true := hc
        have hl' : (e.leftOK ν ρ k && leftAll ν ρ k es) = true := hl
        simp only [Bool.and_eq_true] at hc' hl'
        obtain ⟨r, hr⟩ := same (.expr e) st.push rfl (by simp [Task.size, sizeL]; omega) hl'.1 hc'.1
        cases r with
        | ok v st' => exact ⟨_, by simp only [run, hr]; rfl⟩
        | fail st' =>
          have hb := (run_sound g _ _ _ _ hr).adv.2 rfl
          obtain ⟨r, hs⟩ := same (.choice es) (st'.pop st) hb.1 (by simp [Task.size, sizeL]; omega) hl'.2 hc'.2
          exact ⟨_, by simp only [run, hr, hs]; rfl⟩
        | panic st' => exact ⟨_, by simp only [run, hr]; rfl⟩
    | star e =>
      have hc' : (!e.nullable ν && e.loopsOK ν) = true := hc
      have hc2 := hc'
      simp only [Bool.and_eq_true, Bool.not_eq_true'] at hc2
      obtain ⟨r, hr⟩ := same (.expr e) st.push rfl (by simp [Task.size]) hl hc2.2
      cases r with
      | ok v st' =>
        have := (run_sound g _ _ _ _ hr).consumes wf _ _ rfl hc2.1
        obtain ⟨r, hs⟩ := later (.star e) (st'.pop st) this (by simp [Task.size]) hc'
        have hsh := shp.1 _ _ _ hs
        cases r with
        | ok w st'' => cases w <;> first | exact hsh.elim | exact ⟨_, by simp only [run, hr, hs]; rfl⟩
        | fail st'' => exact hsh.elim
        | panic st'' => exact ⟨_, by simp only [run, hr, hs]; rfl⟩
      | fail st' => exact ⟨_, by simp only [run, hr]; rfl⟩
      | panic st' => exact ⟨_, by simp only [run, hr]; rfl⟩

end Booklit.Peg

namespace Booklit.Peg

/-- Rules of the booklit grammar that may match the empty text. -/
def nu : Rule → Bool
  | .emptyArg | .verbatimLine | .indent => true
  | _ => false

/-- Ranks: a rule only reaches rules of smaller rank before consuming a character. -/
def rank : Rule → Nat
  | .commentSpacing | .word | .split | .argument | .preformattedBlock | .verbatimLine
  | .verbatimBlockLine | .verbatimBlock => 1
  | .line | .wrappedLine | .emptyArg | .preformattedBlockLine => 2
  | .paragraph => 3
  | .paragraphs => 4
  | .booklit | .paraArg => 5
  | _ => 0

theorem booklit_wf : WFGrammar booklit nu rank 6 30 where
  null := by intro r; cases r <;> decide
  left := by intro r; cases r <;> decide
  loops := by intro r; cases r <;> decide
  top := by intro r; cases r <;> decide
  size := by intro r; cases r <;> decide

theorem booklit_total (s : Str) (n : Nat) (hn : fuelFor s ≤ n) (rl : Rule) (st : PSt) (h : st.rest = s) :
    ∃ r, run booklit n (.expr (.rule rl)) st = some r := by
  refine run_total booklit_wf n s.length 6 _ st (by rw [h]; exact Nat.le_refl _) ?_ rfl ?_
  · exact leftOK_top booklit_wf.top _
  · unfold need fuelFor at *; simp only [Task.size, Expr.size]; omega

/-- Every rule, on every state, has a result. -/
theorem booklit_big (rl : Rule) (st : PSt) : ∃ r, Big booklit (.expr (.rule rl)) st r := by
  obtain ⟨r, hr⟩ := booklit_total st.rest _ (Nat.le_refl _) rl st rfl
  exact ⟨r, run_sound _ _ _ _ _ hr⟩

end Booklit.Peg
