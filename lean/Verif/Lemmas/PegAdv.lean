import Verif.Lemmas.PegBig

/-!
How runs move through the input: a success consumes a prefix, a failure consumes nothing.
-/

namespace Booklit.Peg

open Booklit

/-- The position after reading the text `w` when `next` follows it. -/
def Pos.adv (p : Pos) : Str → Str → Pos
  | [], _ => p
  | c :: w, next => Pos.adv (p.step c.utf8Size (w ++ next)) w next

theorem Pos.adv_append (p : Pos) (u w next : Str) :
    p.adv (u ++ w) next = (p.adv u (w ++ next)).adv w next := by
  induction u generalizing p with
  | nil => rfl
  | cons c u ih => simp only [List.cons_append, Pos.adv, ih, List.append_assoc]

/-- `st'` is reached from `st` by reading `w`. -/
def Moved (st : PSt) (w : Str) (st' : PSt) : Prop :=
  st.rest = w ++ st'.rest ∧ st'.pos = st.pos.adv w st'.rest

theorem Moved.refl (st : PSt) : Moved st [] st := ⟨rfl, rfl⟩

theorem Moved.trans {a b c : PSt} {u w : Str} (h : Moved a u b) (h' : Moved b w c) : Moved a (u ++ w) c := by
  obtain ⟨h1, h2⟩ := h
  obtain ⟨h3, h4⟩ := h'
  refine ⟨by rw [h1, h3, List.append_assoc], ?_⟩
  rw [h4, h2, Pos.adv_append, ← h3]

theorem Moved.sliceFrom {a b : PSt} {w : Str} (h : Moved a w b) : b.sliceFrom a = w := by
  simp [PSt.sliceFrom, h.1]

@[simp] theorem PSt.failAt_rest (st : PSt) (b p) : (st.failAt b p).rest = st.rest := by
  unfold PSt.failAt; split <;> (try split) <;> rfl
@[simp] theorem PSt.failAt_pos (st : PSt) (b p) : (st.failAt b p).pos = st.pos := by
  unfold PSt.failAt; split <;> (try split) <;> rfl
@[simp] theorem PSt.failAt_store (st : PSt) (b p) : (st.failAt b p).store = st.store := by
  unfold PSt.failAt; split <;> (try split) <;> rfl
@[simp] theorem PSt.failAt_env (st : PSt) (b p) : (st.failAt b p).env = st.env := by
  unfold PSt.failAt; split <;> (try split) <;> rfl
@[simp] theorem PSt.failAt_invert (st : PSt) (b p) : (st.failAt b p).invert = st.invert := by
  unfold PSt.failAt; split <;> (try split) <;> rfl

theorem PSt.sliceFrom_failAt (st a : PSt) (b p) : (st.failAt b p).sliceFrom a = st.sliceFrom a := by
  simp [PSt.sliceFrom]

/-- The state after reading `w` from a state whose rest starts with `w`. -/
def PSt.skip (st : PSt) (w next : Str) : PSt := { st with rest := next, pos := st.pos.adv w next }

theorem PSt.skip_moved {st : PSt} {w next : Str} (h : st.rest = w ++ next) : Moved st w (st.skip w next) :=
  ⟨h, rfl⟩

theorem PSt.read_cons {st : PSt} {c r} (h : st.rest = c :: r) : st.read = st.skip [c] r := by
  simp [PSt.read, h, PSt.skip, Pos.adv]

theorem litGo_spec (s : Str) : ∀ st st', litGo s st = some st' ↔
    ∃ next, st.rest = s ++ next ∧ st' = st.skip s next := by
  induction s with
  | nil =>
    intro st st'
    simp only [litGo, List.nil_append]
    constructor
    · intro h; cases h; exact ⟨_, rfl, by cases st; rfl⟩
    · rintro ⟨next, h, rfl⟩; subst h; cases st; rfl
  | cons c s ih =>
    intro st st'
    simp only [litGo]
    split
    · rename_i h; simp [h]
    · rename_i d r h
      split
      · rename_i hd; subst hd
        rw [ih, PSt.read_cons h]
        constructor
        · rintro ⟨next, h1, rfl⟩
          refine ⟨next, ?_, ?_⟩
          · simp only [PSt.skip] at h1; rw [h, h1]; rfl
          · simp only [PSt.skip] at h1; subst h1; simp [PSt.skip, Pos.adv]
        · rintro ⟨next, h1, rfl⟩
          rw [h] at h1
          have h1 : r = s ++ next := by simpa using h1
          subst h1
          exact ⟨next, rfl, by simp [PSt.skip, Pos.adv]⟩
      · rename_i hd
        constructor
        · intro h'; cases h'
        · rintro ⟨next, h1, _⟩
          rw [h] at h1
          simp at h1
          exact absurd h1.1 hd

theorem litGo_none (s : Str) (st : PSt) : litGo s st = none ↔ ¬ ∃ next, st.rest = s ++ next := by
  constructor
  · rintro h ⟨next, hn⟩
    have := (litGo_spec s st (st.skip s next)).2 ⟨next, hn, rfl⟩
    simp [h] at this
  · intro h
    cases hl : litGo s st with
    | none => rfl
    | some st' => obtain ⟨next, hn, _⟩ := (litGo_spec s st st').1 hl; exact absurd ⟨next, hn⟩ h

theorem runLit_ok {s : Str} {st : PSt} {next} (h : st.rest = s ++ next) :
    runLit s st = .ok (.bytes s) ((st.skip s next).failAt true st.pos) := by
  have := (litGo_spec s st (st.skip s next)).2 ⟨next, h, rfl⟩
  simp only [runLit, this, PSt.sliceFrom_failAt, (PSt.skip_moved h).sliceFrom]

theorem runLit_fail {s : Str} {st : PSt} (h : ¬ ∃ next, st.rest = s ++ next) :
    runLit s st = .fail (st.failAt false st.pos) := by
  simp only [runLit, (litGo_none s st).2 h]

theorem runCls_ok {neg cs rs} {st : PSt} {c r} (h : st.rest = c :: r) (hc : clsMatches neg cs rs c = true) :
    runCls neg cs rs st = .ok (.bytes [c]) ((st.skip [c] r).failAt true st.pos) := by
  have hm := (PSt.skip_moved (st := st) (w := [c]) (next := r) h).sliceFrom
  simp only [runCls, h, hc, if_true, PSt.read_cons h, PSt.sliceFrom_failAt, hm]

theorem runCls_fail {neg cs rs} {st : PSt} (h : ∀ c r, st.rest = c :: r → clsMatches neg cs rs c = false) :
    runCls neg cs rs st = .fail (st.failAt false st.pos) := by
  unfold runCls
  split
  · rfl
  · rename_i c r hr; simp [h c r hr]

theorem runAny_ok {st : PSt} {c r} (h : st.rest = c :: r) :
    runAny st = .ok (.bytes [c]) ((st.skip [c] r).failAt true st.pos) := by
  have hm := (PSt.skip_moved (st := st) (w := [c]) (next := r) h).sliceFrom
  simp only [runAny, h, PSt.read_cons h, PSt.sliceFrom_failAt, hm]

theorem runAny_fail {st : PSt} (h : st.rest = []) : runAny st = .fail (st.failAt false st.pos) := by
  simp only [runAny, h]

theorem moved_failAt {st : PSt} {w next : Str} (h : st.rest = w ++ next) (b p) :
    Moved st w ((st.skip w next).failAt b p) := ⟨by simpa [PSt.skip] using h, by simp [PSt.skip]⟩

/-- Is the task the unprotected remainder of a sequence? -/
def Task.isSeq : Task → Bool
  | .seq _ => true
  | _ => false

/-- What every run does to the point and to the inversion flag. -/
def AdvOk (t : Task) (st : PSt) : R → Prop
  | .ok _ st' => (∃ w, Moved st w st') ∧ st'.invert = st.invert
  | .fail st' => st'.invert = st.invert ∧ (t.isSeq = false → st'.rest = st.rest ∧ st'.pos = st.pos)
  | .panic _ => True

theorem Big.adv {g t st r} (h : Big g t st r) : AdvOk t st r := by
  induction h with
  | lit s st =>
    by_cases h : ∃ next, st.rest = s ++ next
    · obtain ⟨next, hn⟩ := h
      rw [runLit_ok hn]
      exact ⟨⟨s, moved_failAt hn _ _⟩, by simp [PSt.skip]⟩
    · rw [runLit_fail h]; simp [AdvOk]
  | cls neg cs rs st =>
    by_cases h : ∀ c r, st.rest = c :: r → clsMatches neg cs rs c = false
    · rw [runCls_fail h]; simp [AdvOk]
    · simp only [Classical.not_forall] at h
      obtain ⟨c, r, hr, hc⟩ := h
      rw [runCls_ok hr (by simpa using hc)]
      exact ⟨⟨[c], moved_failAt hr _ _⟩, by simp [PSt.skip]⟩
  | any st =>
    cases h : st.rest with
    | nil => rw [runAny_fail h]; simp [AdvOk]
    | cons c r =>
      rw [runAny_ok h]
      exact ⟨⟨[c], moved_failAt h _ _⟩, by simp [PSt.skip]⟩
  | seqOk _ ih => exact ih
  | seqFail _ ih => exact ⟨ih.1, fun _ => ⟨rfl, rfl⟩⟩
  | seqPanic _ _ => trivial
  | choice _ ih => rename_i r _; cases r <;> exact ih
  | star _ ih => rename_i r _; cases r <;> exact ih
  | plusOk _ _ ih1 ih2 =>
    obtain ⟨⟨w, hw⟩, hi⟩ := ih1
    obtain ⟨⟨u, hu⟩, hj⟩ := ih2
    exact ⟨⟨w ++ u, Moved.trans hw hu⟩, hj.trans hi⟩
  | plusFail _ ih => exact ⟨ih.1, fun _ => ih.2 rfl⟩
  | plusPanic _ _ => trivial
  | plusPanic' _ _ _ _ => trivial
  | optOk _ ih => exact ih
  | optNone _ ih => exact ⟨⟨[], (ih.2 rfl).1.symm, (ih.2 rfl).2⟩, ih.1⟩
  | optPanic _ _ => trivial
  | notFail _ ih => exact ⟨by simp [ih.2], fun _ => ⟨rfl, rfl⟩⟩
  | notOk _ ih => exact ⟨⟨[], rfl, rfl⟩, by simp [ih.1]⟩
  | notPanic _ _ => trivial
  | labelOk _ ih => exact ih
  | labelFail _ ih => exact ⟨ih.1, fun _ => ih.2 rfl⟩
  | labelPanic _ _ => trivial
  | ruleOk _ ih => exact ih
  | ruleFail _ ih => exact ⟨ih.1, fun _ => ih.2 rfl⟩
  | rulePanic _ _ => trivial
  | actOk _ _ ih => exact ih
  | actBad _ _ _ => trivial
  | actFail _ ih => exact ⟨ih.1, fun _ => ih.2 rfl⟩
  | actPanic _ _ => trivial
  | nil => exact ⟨⟨[], Moved.refl _⟩, rfl⟩
  | consOk _ _ ih1 ih2 =>
    obtain ⟨⟨w, hw⟩, hi⟩ := ih1
    obtain ⟨⟨u, hu⟩, hj⟩ := ih2
    exact ⟨⟨w ++ u, Moved.trans hw hu⟩, hj.trans hi⟩
  | consFail _ ih => exact ⟨ih.1, fun h => by cases h⟩
  | consPanic _ _ => trivial
  | consFail' _ _ ih1 ih2 => exact ⟨ih2.1.trans ih1.2, fun h => by cases h⟩
  | consPanic' _ _ _ _ => trivial
  | choiceNil => exact ⟨rfl, fun _ => ⟨rfl, rfl⟩⟩
  | choiceOk _ ih => exact ih
  | choiceNext _ _ ih1 ih2 =>
    rename_i st st' r _ _
    have h1 := ih1.2 rfl
    cases r with
    | ok v st'' =>
      obtain ⟨⟨w, hw⟩, hi⟩ := ih2
      exact ⟨⟨w, Moved.trans (u := []) ⟨h1.1.symm, h1.2⟩ hw⟩, hi.trans ih1.1⟩
    | fail st'' =>
      have h2 := ih2.2 rfl
      exact ⟨ih2.1.trans ih1.1, fun _ => ⟨h2.1.trans h1.1, h2.2.trans h1.2⟩⟩
    | panic _ => trivial
  | choicePanic _ _ => trivial
  | starStop _ ih => exact ⟨⟨[], (ih.2 rfl).1.symm, (ih.2 rfl).2⟩, ih.1⟩
  | starMore _ _ ih1 ih2 =>
    obtain ⟨⟨w, hw⟩, hi⟩ := ih1
    obtain ⟨⟨u, hu⟩, hj⟩ := ih2
    exact ⟨⟨w ++ u, Moved.trans hw hu⟩, hj.trans hi⟩
  | starPanic _ _ => trivial
  | starPanic' _ _ _ _ => trivial

end Booklit.Peg
