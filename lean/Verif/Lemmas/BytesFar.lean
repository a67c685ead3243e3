import Verif.Lemmas.BytesL
import Verif.Lemmas.PegLogL

/-!
What the parser has read bounds where it stands and where its errors are.
-/

namespace Booklit.Peg

open Booklit

/-- The parser stands in the document, not past the furthest point it has read, and neither is the furthest failure. -/
structure FarOk (doc : Str) (far : Nat) (st : PSt) : Prop where
  inDoc : InDoc doc st
  left : far ≤ st.rest.length
  max : st.maxFail = ⟨1, 1, 0⟩ ∨ ∃ pre next, doc = pre ++ next ∧ st.maxFail = posAt pre next ∧ far ≤ next.length

variable {doc : Str}

theorem FarOk.mono {far far' : Nat} {st : PSt} (h : FarOk doc far st) (hl : far' ≤ far) : FarOk doc far' st := by
  refine ⟨h.inDoc, Nat.le_trans hl h.left, ?_⟩
  rcases h.max with h | ⟨pre, next, h1, h2, h3⟩
  · exact .inl h
  · exact .inr ⟨pre, next, h1, h2, Nat.le_trans hl h3⟩

theorem FarOk.same {far : Nat} {st st' : PSt} (h : FarOk doc far st) (h1 : st'.rest = st.rest) (h2 : st'.pos = st.pos)
    (h3 : st'.maxFail = st.maxFail) : FarOk doc far st' :=
  ⟨h.inDoc.same h1.symm h2.symm, by rw [h1]; exact h.left, by rw [h3]; exact h.max⟩

theorem FarOk.push {far : Nat} {st : PSt} (h : FarOk doc far st) : FarOk doc far st.push := h.same rfl rfl rfl

theorem FarOk.back {far f : Nat} {st st' st'' : PSt} (h : FarOk doc far st) (h' : FarOk doc f st') (hf : f ≤ far) (h1 : st''.rest = st.rest)
    (h2 : st''.pos = st.pos) (h3 : st''.maxFail = st'.maxFail) : FarOk doc f st'' :=
  ⟨h.inDoc.same h1.symm h2.symm, by rw [h1]; exact Nat.le_trans hf h.left, by rw [h3]; exact h'.max⟩

theorem failAt_rest (st : PSt) (b : Bool) (p : Pos) : (st.failAt b p).rest = st.rest ∧ (st.failAt b p).pos = st.pos := by
  unfold PSt.failAt
  split
  · split <;> exact ⟨rfl, rfl⟩
  · exact ⟨rfl, rfl⟩

theorem failAt_max (st : PSt) (b : Bool) (p : Pos) : (st.failAt b p).maxFail = st.maxFail ∨ (st.failAt b p).maxFail = p := by
  unfold PSt.failAt
  split
  · split
    · exact .inr rfl
    · exact .inl rfl
  · exact .inl rfl

/-- After an attempt at one token. -/
theorem FarOk.token {far f : Nat} {st st' : PSt} {b : Bool} (h : FarOk doc far st) (hf : f ≤ far) (hin : InDoc doc (st'.failAt b st.pos))
    (hl : f ≤ st'.rest.length) (hm : st'.maxFail = st.maxFail) : FarOk doc f (st'.failAt b st.pos) := by
  refine ⟨hin, by rw [(failAt_rest _ _ _).1]; exact hl, ?_⟩
  rcases failAt_max st' b st.pos with e | e
  · rw [e, hm]
    exact (h.mono hf).max
  · obtain ⟨pre, h1, h2⟩ := h.inDoc
    exact .inr ⟨pre, st.rest, h1, by rw [e, h2], Nat.le_trans hf h.left⟩

/-- One token. -/
theorem FarOk.fail {far f : Nat} {st : PSt} {b : Bool} (h : FarOk doc far st) (hf : f ≤ far) : FarOk doc f (st.failAt b st.pos) :=
  h.token hf (h.inDoc.same (failAt_rest _ _ _).1.symm (failAt_rest _ _ _).2.symm) (Nat.le_trans hf h.left) rfl

theorem far_lit (g : Grammar) (s : Str) {far : Nat} {st : PSt} (h : FarOk doc far st) : FarOk doc (min far (litFar s st.rest)) (runLit s st).st := by
  have hb : Big g (.expr (.lit s)) st (runLit s st) := .lit s st
  unfold runLit at hb ⊢
  cases hg : litGo s st with
  | none => exact h.fail (Nat.min_le_left _ _)
  | some st' =>
    rw [hg] at hb
    refine h.token (st' := st') (Nat.min_le_left _ _) (h.inDoc.of_ok hb) ?_ ?_
    · obtain ⟨next, h1, h2⟩ := (litGo_spec s st st').mp hg
      rw [h1, litFar_ok, h2]
      exact Nat.min_le_right _ _
    · obtain ⟨next, h1, h2⟩ := (litGo_spec s st st').mp hg
      rw [h2]; rfl

theorem far_cls (g : Grammar) (neg cs rs) {far : Nat} {st : PSt} (h : FarOk doc far st) :
    FarOk doc (noteFar (.cls neg cs rs) st far) (runCls neg cs rs st).st := by
  have hb : Big g (.expr (.cls neg cs rs)) st (runCls neg cs rs st) := .cls neg cs rs st
  unfold runCls at hb ⊢
  cases hr : st.rest with
  | nil => exact h.fail (Nat.min_le_left _ _)
  | cons c r =>
    rw [hr] at hb
    dsimp only at hb ⊢
    split
    · rename_i hc
      rw [if_pos hc] at hb
      refine h.token (st' := st.read) (Nat.min_le_left _ _) (h.inDoc.of_ok hb) ?_ ?_
      · rw [noteFar, hr, reach, if_pos hc, PSt.read_cons hr]
        exact Nat.min_le_right _ _
      · rw [PSt.read_cons hr]; rfl
    · exact h.fail (Nat.min_le_left _ _)

theorem far_any (g : Grammar) {far : Nat} {st : PSt} (h : FarOk doc far st) : FarOk doc (noteFar .any st far) (runAny st).st := by
  have hb : Big g (.expr .any) st (runAny st) := .any st
  unfold runAny at hb ⊢
  cases hr : st.rest with
  | nil => exact h.fail (Nat.min_le_left _ _)
  | cons c r =>
    rw [hr] at hb
    dsimp only at hb ⊢
    refine h.token (st' := st.read) (Nat.min_le_left _ _) (h.inDoc.of_ok hb) ?_ ?_
    · rw [noteFar, hr, reach, PSt.read_cons hr]
      exact Nat.min_le_right _ _
    · rw [PSt.read_cons hr]; rfl

theorem far_inv (g : Grammar) : LogInv noteFar (fun _ => true) (fun st far => FarOk doc far st) (fun a b => b ≤ a) where
  refl _ := Nat.le_refl _
  trans h1 h2 := Nat.le_trans h2 h1
  lit s st far _ h := ⟨Nat.min_le_left _ _, far_lit g s h⟩
  cls neg cs rs st far _ h := ⟨Nat.min_le_left _ _, far_cls g neg cs rs h⟩
  any st far _ h := ⟨Nat.min_le_left _ _, far_any g h⟩
  same h h1 h2 h3 := h.same h1 h2 h3
  back h h' hf h1 h2 h3 := h.back h' hf h1 h2 h3

theorem runFar_ok (g : Grammar) (n : Nat) (t : Task) (st : PSt) (far : Nat) (r : R) (f : Nat) (h : FarOk doc far st)
    (hr : runWith noteFar g n t st far = some (r, f)) : f ≤ far ∧ FarOk doc f r.st :=
  runWith_inv (far_inv g) (fun r => all_true _) n t st far r f (Task.all_true t) h hr

/-- A document that parses has been read to its end. -/
theorem booklit_all {st st' : PSt} {v : Val} (h : Big booklit (.expr (.rule .booklit)) st (.ok v st')) : st'.rest = [] := by
  cases h with
  | ruleOk h =>
    change Big booklit (.expr (.act .retNode (.seq [.label .node (.rule .paragraphs), .not .any]))) _ _ at h
    cases h with
    | actOk h _ =>
      cases h with
      | seqOk h =>
        cases h with
        | consOk _ h =>
          cases h with
          | consOk h1 h2 =>
            cases h2
            cases h1 with
            | notOk h1 =>
              generalize he : R.fail _ = r at h1
              cases h1
              unfold runAny at he
              split at he
              · rename_i hr
                exact hr
              · cases he

/-! ### Where the first bad byte is -/

theorem firstBad_text (far : Nat) (pre s : Str) (rs : List (Option Char)) :
    firstBad far (posAt pre (seen (s.map some ++ none :: rs))) (s.map some ++ none :: rs) =
      if far ≤ rs.length + 1 then some (posAt (pre ++ s) (seen (none :: rs))) else none := by
  induction s generalizing pre with
  | nil =>
    rw [List.append_nil]
    rfl
  | cons c s ih =>
    have := ih (pre ++ [c])
    rw [List.append_assoc, List.singleton_append] at this
    rw [← this, List.map_cons, List.cons_append, firstBad]
    rw [← posAt_snoc]
    rfl

theorem firstBad_none (far : Nat) (pos : Pos) (s : Str) : firstBad far pos (s.map some) = none := by
  induction s generalizing pos with
  | nil => rfl
  | cons c s ih => exact ih _

theorem seen_append (a b : List (Option Char)) : seen (a ++ b) = seen a ++ seen b := List.map_append

theorem posAt_bad (s : Str) (rs : List (Option Char)) : posAt s (seen (none :: rs)) = ⟨lineOf s, colOf s, byteLen s⟩ :=
  posAt_other (by show some runeError ≠ _; decide)

end Booklit.Peg
