import Verif.Lemmas.PegGood

/-!
The furthest-failure position always is a position of the document.
-/

namespace Booklit.Peg

open Booklit

/-- The furthest failure: the initial value, or the position of some later point of the document. -/
def MaxOk (doc : Str) (st : PSt) : Prop :=
  st.maxFail = ⟨1, 1, 0⟩ ∨ ∃ pre next, pre ≠ [] ∧ doc = pre ++ next ∧ st.maxFail = posAt pre next

theorem posAt_off (pre next : Str) : (posAt pre next).off = byteLen pre := by
  unfold posAt; split <;> rfl

theorem MaxOk.failAt {doc st b} {p : Pos} (h : MaxOk doc st) (hp : ∃ pre next, doc = pre ++ next ∧ p = posAt pre next) :
    MaxOk doc (st.failAt b p) := by
  unfold PSt.failAt
  split
  · split
    · rename_i hlt
      obtain ⟨pre, next, h1, h2⟩ := hp
      refine Or.inr ⟨pre, next, ?_, h1, h2⟩
      rintro rfl
      rw [h2, posAt_off] at hlt
      exact Nat.not_lt_zero _ hlt
    · exact h
  · exact h

theorem InDoc.at {doc st} (h : InDoc doc st) : ∃ pre next, doc = pre ++ next ∧ st.pos = posAt pre next := by
  obtain ⟨pre, h1, h2⟩ := h; exact ⟨pre, _, h1, h2⟩

def R.st : R → PSt
  | .ok _ st => st
  | .fail st => st
  | .panic st => st

theorem InDoc.of_ok {doc g t st v st'} (hin : InDoc doc st) (h : Big g t st (.ok v st')) : InDoc doc st' := by
  obtain ⟨⟨w, hm⟩, _⟩ := h.adv
  exact hin.moved hm

theorem InDoc.of_fail {doc g e st st'} (hin : InDoc doc st) (h : Big g (.expr e) st (.fail st')) : InDoc doc st' := by
  have := h.adv.2 rfl
  exact hin.same this.1.symm this.2.symm

theorem Big.maxOk {doc g t st r} (h : Big g t st r) (hin : InDoc doc st) (hm : MaxOk doc st) : MaxOk doc r.st := by
  induction h with
  | lit s st =>
    unfold runLit
    split
    · rename_i st' he
      have : st'.maxFail = st.maxFail := by
        obtain ⟨next, h1, h2⟩ := (litGo_spec s st st').mp he
        rw [h2]; rfl
      exact MaxOk.failAt (st := st') (by unfold MaxOk; rw [this]; exact hm) hin.at
    · exact hm.failAt hin.at
  | cls neg cs rs st =>
    unfold runCls
    split
    · exact hm.failAt hin.at
    · rename_i c r hr
      split
      · refine MaxOk.failAt (st := st.read) ?_ hin.at
        unfold MaxOk; rw [PSt.read_cons hr]; exact hm
      · exact hm.failAt hin.at
  | any st =>
    unfold runAny
    split
    · exact hm.failAt hin.at
    · rename_i c r hr
      refine MaxOk.failAt (st := st.read) ?_ hin.at
      unfold MaxOk; rw [PSt.read_cons hr]; exact hm
  | seqOk _ ih => exact ih hin hm
  | seqFail _ ih => exact ih hin hm
  | seqPanic _ ih => exact ih hin hm
  | choice _ ih => exact ih hin hm
  | star _ ih => exact ih hin hm
  | plusOk h1 _ ih1 ih2 => exact ih2 (hin.push.of_ok h1).pop (ih1 hin.push hm)
  | plusFail _ ih => exact ih hin.push hm
  | plusPanic _ ih => exact ih hin.push hm
  | plusPanic' h1 _ ih1 ih2 => exact ih2 (hin.push.of_ok h1).pop (ih1 hin.push hm)
  | optOk _ ih => exact ih hin.push hm
  | optNone _ ih => exact ih hin.push hm
  | optPanic _ ih => exact ih hin.push hm
  | notFail _ ih => exact ih hin hm
  | notOk _ ih => exact ih hin hm
  | notPanic _ ih => exact ih hin hm
  | labelOk _ ih => exact ih hin.push hm
  | labelFail _ ih => exact ih hin.push hm
  | labelPanic _ ih => exact ih hin.push hm
  | ruleOk _ ih => exact ih hin.push hm
  | ruleFail _ ih => exact ih hin.push hm
  | rulePanic _ ih => exact ih hin.push hm
  | actOk _ _ ih => exact ih hin hm
  | actBad _ _ ih => exact ih hin hm
  | actFail _ ih => exact ih hin hm
  | actPanic _ ih => exact ih hin hm
  | nil => exact hm
  | consOk h1 _ ih1 ih2 => exact ih2 (hin.of_ok h1) (ih1 hin hm)
  | consFail _ ih => exact ih hin hm
  | consPanic _ ih => exact ih hin hm
  | consFail' h1 _ ih1 ih2 => exact ih2 (hin.of_ok h1) (ih1 hin hm)
  | consPanic' h1 _ ih1 ih2 => exact ih2 (hin.of_ok h1) (ih1 hin hm)
  | choiceNil => exact hm
  | choiceOk _ ih => exact ih hin.push hm
  | choiceNext h1 _ ih1 ih2 => exact ih2 (hin.push.of_fail h1).pop (ih1 hin.push hm)
  | choicePanic _ ih => exact ih hin.push hm
  | starStop _ ih => exact ih hin.push hm
  | starMore h1 _ ih1 ih2 => exact ih2 (hin.push.of_ok h1).pop (ih1 hin.push hm)
  | starPanic _ ih => exact ih hin.push hm
  | starPanic' h1 _ ih1 ih2 => exact ih2 (hin.push.of_ok h1).pop (ih1 hin.push hm)

end Booklit.Peg
