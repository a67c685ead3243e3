import Verif.Model.Expect
import Verif.Spec.Expect
import Verif.Lemmas.PegLogL
import Verif.Lemmas.JsonL

/-!
The recorded expectations are true, and there is one if the parser fails.
-/

namespace Booklit.Peg

open Booklit

/-! ### Attempts at tokens -/

/-- What an attempt at a token does. -/
def TokFact (e : Expr) (st : PSt) (r : R) : Prop :=
  (∃ (v : Val) (st' : PSt), r = .ok v (st'.failAt true st.pos) ∧ hits e st.rest = true ∧ st'.maxFail = st.maxFail ∧ st'.invert = st.invert) ∨
    (r = .fail (st.failAt false st.pos) ∧ hits e st.rest = false)

theorem tok_lit (s : Str) (st : PSt) : TokFact (.lit s) st (runLit s st) := by
  unfold runLit
  cases hg : litGo s st with
  | some st' =>
    obtain ⟨next, h1, h2⟩ := (litGo_spec s st st').mp hg
    refine Or.inl ⟨_, st', rfl, ?_, by rw [h2]; rfl, by rw [h2]; rfl⟩
    rw [hits, h1]
    simp
  | none =>
    refine Or.inr ⟨rfl, ?_⟩
    rw [hits, Bool.eq_false_iff]
    intro hp
    obtain ⟨next, hn⟩ := List.isPrefixOf_iff_prefix.1 hp
    have := (litGo_spec s st _).mpr ⟨next, hn.symm, rfl⟩
    rw [hg] at this
    cases this

theorem tok_cls (neg cs rs) (st : PSt) : TokFact (.cls neg cs rs) st (runCls neg cs rs st) := by
  unfold runCls
  cases hr : st.rest with
  | nil => exact Or.inr ⟨rfl, by rw [hr]; rfl⟩
  | cons c r =>
    dsimp only
    split
    · rename_i hc
      exact Or.inl ⟨_, st.read, rfl, by rw [hr]; exact hc, by rw [PSt.read_cons hr]; rfl, by rw [PSt.read_cons hr]; rfl⟩
    · rename_i hc
      exact Or.inr ⟨rfl, by rw [hr]; exact Bool.eq_false_iff.2 hc⟩

theorem tok_any (st : PSt) : TokFact .any st (runAny st) := by
  unfold runAny
  cases hr : st.rest with
  | nil => exact Or.inr ⟨rfl, by rw [hr]; rfl⟩
  | cons c r =>
    exact Or.inl ⟨_, st.read, rfl, by rw [hr]; rfl, by rw [PSt.read_cons hr]; rfl, by rw [PSt.read_cons hr]; rfl⟩

theorem failAt_eq (st : PSt) (b : Bool) (p : Pos) : (st.failAt b p).maxFail =
    if b = st.invert then if st.maxFail.off < p.off then p else st.maxFail else st.maxFail := by
  unfold PSt.failAt
  split
  · split <;> rfl
  · rfl

theorem failAt_invert (st : PSt) (b : Bool) (p : Pos) : (st.failAt b p).invert = st.invert := by
  unfold PSt.failAt
  split
  · split <;> rfl
  · rfl

theorem TokFact.max {e : Expr} {st : PSt} {r : R} (h : TokFact e st r) : r.st.maxFail =
    if hits e st.rest = st.invert then if st.maxFail.off < st.pos.off then st.pos else st.maxFail else st.maxFail := by
  rcases h with ⟨v, st', rfl, h1, h2, h3⟩ | ⟨rfl, h1⟩
  · rw [R.st, failAt_eq, h1, h2, h3]
  · rw [R.st, failAt_eq, h1]

theorem TokFact.invert {e : Expr} {st : PSt} {r : R} (h : TokFact e st r) : r.st.invert = st.invert := by
  rcases h with ⟨v, st', rfl, _, _, h3⟩ | ⟨rfl, _⟩
  · rw [R.st, failAt_invert, h3]
  · rw [R.st, failAt_invert]

/-! ### The tokens of the grammar -/

/-- The tokens of the grammar, what it looks ahead for, and no choice without alternatives. -/
def fineE : Expr → Bool
  | .cls neg cs rs => decide ((neg, cs, rs) ∈ ([(false, [' ', '\t'], []), (false, ['-'], [('a', 'z')]), (false, ['\\', '{', '}'], []),
      (true, ['\\', '{', '}', '\r', '\n'], []), (true, ['\r', '\n', '}'], [])] : List (Bool × List Char × List (Char × Char))))
  | .not (.lit _) => true
  | .not .any => true
  | .not _ => false
  | .choice [] => false
  | _ => true

theorem rules_fine (r : Rule) : (booklit.rules r).all fineE = true := by cases r <;> decide

/-- A token. -/
def isTok : Expr → Bool
  | .lit _ => true
  | .cls _ _ _ => true
  | .any => true
  | _ => false

/-! ### What is recorded is true -/

theorem byteLen_append (a b : Str) : byteLen (a ++ b) = byteLen a + byteLen b := by simp [byteLen]

/-- The place in the document is determined by the number of bytes. -/
theorem byteLen_inj {doc a b a' b' : Str} (h : doc = a ++ b) (h' : doc = a' ++ b') (hl : byteLen a = byteLen a') : a = a' ∧ b = b' := by
  induction a generalizing doc a' with
  | nil =>
    cases a' with
    | nil => exact ⟨rfl, by rw [← List.nil_append b, ← h, h']; rfl⟩
    | cons c t =>
      have := Char.utf8Size_pos c
      simp [byteLen] at hl
      omega
  | cons c t ih =>
    cases a' with
    | nil =>
      have := Char.utf8Size_pos c
      simp [byteLen] at hl
      omega
    | cons c' t' =>
      rw [h] at h'
      simp only [List.cons_append, List.cons.injEq] at h'
      obtain ⟨rfl, h'⟩ := h'
      obtain ⟨h1, h2⟩ := ih rfl h' (by simp [byteLen] at hl ⊢; omega)
      exact ⟨by rw [h1], h2⟩

/-- The recorded expectations are about the furthest failure, and are not met there. -/
def WantOk (doc : Str) (st : PSt) (l : List (Bool × Expr)) : Prop :=
  InDoc doc st ∧ ∃ pre next, doc = pre ++ next ∧ st.maxFail.off = byteLen pre ∧
    ∀ w ∈ l, (isTok w.2 && fineE w.2) = true ∧ hits w.2 next = w.1

theorem WantOk.token {doc : Str} {e : Expr} {st : PSt} {r : R} {l : List (Bool × Expr)} (h : WantOk doc st l) (ht : TokFact e st r)
    (hin : InDoc doc r.st) (he : (isTok e && fineE e) = true) : WantOk doc r.st (noteWant e st l) := by
  obtain ⟨⟨pre', hd', hp'⟩, pre, next, hd, hm, hl⟩ := h
  refine ⟨hin, ?_⟩
  have ho : st.pos.off = byteLen pre' := by rw [hp', posAt_off]
  rw [ht.max, noteWant]
  by_cases hb : hits e st.rest = st.invert
  · rw [if_pos hb, if_pos hb]
    by_cases hlt : st.pos.off < st.maxFail.off
    · rw [if_neg (by omega), if_pos hlt]
      exact ⟨pre, next, hd, hm, hl⟩
    · rw [if_neg hlt]
      by_cases hgt : st.maxFail.off < st.pos.off
      · rw [if_pos hgt, if_pos hgt]
        refine ⟨pre', st.rest, hd', ho, ?_⟩
        intro w hw
        rw [List.mem_singleton] at hw
        subst hw
        exact ⟨he, hb⟩
      · rw [if_neg hgt, if_neg hgt]
        obtain ⟨rfl, rfl⟩ := byteLen_inj hd hd' (by omega)
        refine ⟨pre, st.rest, hd, hm, ?_⟩
        intro w hw
        rcases List.mem_append.1 hw with hw | hw
        · exact hl w hw
        · rw [List.mem_singleton] at hw
          subst hw
          exact ⟨he, hb⟩
  · rw [if_neg hb, if_neg hb]
    exact ⟨pre, next, hd, hm, hl⟩

theorem tok_inDoc {doc : Str} {e : Expr} {st : PSt} {r : R} (h : InDoc doc st) (hb : Big booklit (.expr e) st r)
    (ht : TokFact e st r) : InDoc doc r.st := by
  rcases ht with ⟨v, st', rfl, _⟩ | ⟨rfl, _⟩
  · exact h.of_ok hb
  · exact h.of_fail hb

theorem want_inv (doc : Str) : LogInv noteWant fineE (WantOk doc) (fun _ _ => True) where
  refl _ := trivial
  trans _ _ := trivial
  lit s st l hp h := ⟨trivial, h.token (tok_lit s st) (tok_inDoc h.1 (.lit s st) (tok_lit s st)) (by simp [isTok, fineE])⟩
  cls neg cs rs st l hp h := ⟨trivial, h.token (tok_cls neg cs rs st) (tok_inDoc h.1 (.cls neg cs rs st) (tok_cls neg cs rs st))
    (by rw [hp]; rfl)⟩
  any st l hp h := ⟨trivial, h.token (tok_any st) (tok_inDoc h.1 (.any st) (tok_any st)) rfl⟩
  same h h1 h2 h3 := ⟨h.1.same h1.symm h2.symm, by rw [h3]; exact h.2⟩
  back h h' _ h1 h2 h3 := ⟨h.1.same h1.symm h2.symm, by rw [h3]; exact h'.2⟩

/-! ### Something is recorded -/

/-- Outside of lookahead, and the furthest failure is the beginning unless something has been recorded. -/
def Noted (st : PSt) (l : List (Bool × Expr)) : Prop := st.invert = false ∧ (st.maxFail.off = 0 ∨ l ≠ [])

/-- What is recorded when the parser is through with a task. -/
def NotedR (t : Task) (l : List (Bool × Expr)) (l' : List (Bool × Expr)) : R → Prop
  | .ok _ st => Noted st l' ∧ (l ≠ [] → l' ≠ [])
  | .fail st => Noted st l' ∧ (l ≠ [] → l' ≠ []) ∧ (t ≠ .choice [] → l' ≠ [])
  | .panic _ => True

theorem noteWant_keeps (e : Expr) (st : PSt) {l : List (Bool × Expr)} (h : l ≠ []) : noteWant e st l ≠ [] := by
  unfold noteWant
  split
  · split
    · exact h
    · split
      · simp
      · simp
  · exact h

theorem noteWant_adds {e : Expr} {st : PSt} {l : List (Bool × Expr)} (h : st.maxFail.off = 0 ∨ l ≠ []) (hb : hits e st.rest = st.invert) :
    noteWant e st l ≠ [] := by
  unfold noteWant
  rw [if_pos hb]
  split
  · rcases h with h | h
    · omega
    · exact h
  · split
    · simp
    · simp

theorem TokFact.start {e : Expr} {st : PSt} {r : R} {l : List (Bool × Expr)} (ht : TokFact e st r) (h : st.maxFail.off = 0 ∨ l ≠ []) :
    r.st.maxFail.off = 0 ∨ noteWant e st l ≠ [] := by
  by_cases hb : hits e st.rest = st.invert
  · exact .inr (noteWant_adds h hb)
  · rw [ht.max, if_neg hb]
    rcases h with h | h
    · exact .inl h
    · exact .inr (noteWant_keeps _ _ h)

theorem TokFact.noted {e : Expr} {st : PSt} {r : R} {l : List (Bool × Expr)} {t : Task} (ht : TokFact e st r) (h : Noted st l) :
    NotedR t l (noteWant e st l) r := by
  have h1 := ht.start h.2
  have h2 := ht.invert
  rcases ht with ⟨v, st', rfl, _⟩ | ⟨rfl, hh⟩
  · exact ⟨⟨h2.trans h.1, h1⟩, noteWant_keeps _ _⟩
  · exact ⟨⟨h2.trans h.1, h1⟩, noteWant_keeps _ _, fun _ => noteWant_adds h.2 (by rw [hh, h.1])⟩

theorem Noted.same {st st' : PSt} {l : List (Bool × Expr)} (h : Noted st l) (h1 : st'.invert = st.invert) (h2 : st'.maxFail = st.maxFail) :
    Noted st' l := ⟨by rw [h1]; exact h.1, by rw [h2]; exact h.2⟩

/-- Looking ahead for a token. -/
theorem noted_not {e : Expr} {st st2 : PSt} {l l' : List (Bool × Expr)} {n : Nat} {r : R} (h : Noted st l) {r₀ : R}
    (ht : TokFact e st2 r₀) (he : { st.push with invert := !st.invert } = st2)
    (hrun : runWith noteWant booklit (n + 1) (.expr e) st2 l = some (r₀, noteWant e st2 l))
    (hr : runWith noteWant booklit (n + 2) (.expr (.not e)) st l = some (r, l')) : NotedR (.expr (.not e)) l l' r := by
  rw [runWith, he, hrun] at hr
  have hi : st2.invert = true := by
    rw [← he]
    show (!st.invert) = true
    rw [h.1]
    rfl
  have hm : st2.maxFail.off = 0 ∨ l ≠ [] := by
    rw [← he]
    exact h.2
  have h1 := ht.start (l := l) hm
  have h2 := ht.invert
  rcases ht with ⟨v, st', rfl, hh, _⟩ | ⟨rfl, hh⟩
  · cases hr
    refine ⟨⟨?_, h1⟩, noteWant_keeps _ _, fun _ => noteWant_adds hm (by rw [hh, hi])⟩
    exact congrArg Bool.not (h2.trans hi)
  · cases hr
    refine ⟨⟨?_, h1⟩, noteWant_keeps _ _⟩
    exact congrArg Bool.not (h2.trans hi)

theorem runWith_noted : ∀ (n : Nat) (t : Task) (st : PSt) (l : List (Bool × Expr)) (r : R) (l' : List (Bool × Expr)),
    t.all fineE = true → Noted st l → runWith noteWant booklit n t st l = some (r, l') → NotedR t l l' r
  | 0, _, _, _, _, _, _, _, h => by cases h
  | n + 1, t, st, l, r, l', ha, ho, h => by
    have ih := runWith_noted n
    cases t with
    | expr e =>
      cases e with
      | lit s => cases h; exact (tok_lit s st).noted ho
      | cls neg cs rs => cases h; exact (tok_cls neg cs rs st).noted ho
      | any => cases h; exact (tok_any st).noted ho
      | seq es =>
        rw [runWith] at h
        cases hx : runWith noteWant booklit n (.seq es) st l with
        | none => rw [hx] at h; cases h
        | some x =>
          obtain ⟨x, fx⟩ := x
          have hi := ih _ _ _ _ _ (all_seq ha) ho hx
          rw [hx] at h
          cases x <;> cases h
          · exact hi
          · exact ⟨hi.1.same rfl rfl, hi.2.1, fun _ => hi.2.2 (by simp)⟩
          · exact trivial
      | choice es =>
        rw [runWith] at h
        have hi := ih _ _ _ _ _ (all_choice ha) ho h
        cases r with
        | ok => exact hi
        | panic => trivial
        | fail =>
          refine ⟨hi.1, hi.2.1, fun _ => hi.2.2 ?_⟩
          rintro he
          cases he
          simp [Task.all, Expr.all, fineE] at ha
      | star e =>
        rw [runWith] at h
        have hi := ih _ _ _ _ _ (all_star ha) ho h
        cases r with
        | ok => exact hi
        | panic => trivial
        | fail => exact ⟨hi.1, hi.2.1, fun _ => hi.2.2 (by simp)⟩
      | plus e =>
        rw [runWith] at h
        cases hx : runWith noteWant booklit n (.expr e) st.push l with
        | none => rw [hx] at h; cases h
        | some x =>
          obtain ⟨x, fx⟩ := x
          have hi := ih _ _ _ _ _ (all_plus ha) (ho.same (st' := st.push) rfl rfl) hx
          rw [hx] at h
          cases x with
          | ok v st' =>
            dsimp only at h
            cases hy : runWith noteWant booklit n (.star e) (st'.pop st) fx with
            | none => rw [hy] at h; cases h
            | some y =>
              obtain ⟨y, fy⟩ := y
              have hj := ih (.star e) _ _ _ _ (all_plus ha) (hi.1.same (st' := st'.pop st) rfl rfl) hy
              rw [hy] at h
              cases y with
              | ok w st'' => cases w <;> (cases h; exact ⟨hj.1, fun hl => hj.2 (hi.2 hl)⟩)
              | fail st'' => cases h; exact ⟨hj.1, fun hl => hj.2.1 (hi.2 hl), fun _ => hj.2.2 (by simp)⟩
              | panic st'' => cases h; trivial
          | fail st' => cases h; exact ⟨hi.1.same rfl rfl, hi.2.1, fun _ => hi.2.2 (by simp)⟩
          | panic st' => cases h; trivial
      | opt e =>
        rw [runWith] at h
        cases hx : runWith noteWant booklit n (.expr e) st.push l with
        | none => rw [hx] at h; cases h
        | some x =>
          obtain ⟨x, fx⟩ := x
          have hi := ih _ _ _ _ _ (all_opt ha) (ho.same (st' := st.push) rfl rfl) hx
          rw [hx] at h
          cases x <;> cases h
          · exact ⟨hi.1.same rfl rfl, hi.2⟩
          · exact ⟨hi.1.same rfl rfl, hi.2.1⟩
          · trivial
      | not e =>
        have hf : fineE (.not e) = true := by
          simp only [Task.all, Expr.all, Bool.and_eq_true] at ha
          exact ha.1
        cases n with
        | zero => rw [runWith] at h; cases h
        | succ n =>
          cases e with
          | lit s => exact noted_not ho (tok_lit s _) rfl rfl h
          | any => exact noted_not ho (tok_any _) rfl rfl h
          | _ => simp [fineE] at hf
      | label lb e =>
        rw [runWith] at h
        cases hx : runWith noteWant booklit n (.expr e) st.push l with
        | none => rw [hx] at h; cases h
        | some x =>
          obtain ⟨x, fx⟩ := x
          have hi := ih _ _ _ _ _ (all_label ha) (ho.same (st' := st.push) rfl rfl) hx
          rw [hx] at h
          cases x <;> cases h
          · exact ⟨hi.1.same rfl rfl, hi.2⟩
          · exact ⟨hi.1.same rfl rfl, hi.2.1, fun _ => hi.2.2 (by simp)⟩
          · trivial
      | rule r =>
        rw [runWith] at h
        cases hx : runWith noteWant booklit n (.expr (booklit.rules r)) st.push l with
        | none => rw [hx] at h; cases h
        | some x =>
          obtain ⟨x, fx⟩ := x
          have hi := ih (.expr (booklit.rules r)) _ _ _ _ (rules_fine r) (ho.same (st' := st.push) rfl rfl) hx
          rw [hx] at h
          cases x <;> cases h
          · exact ⟨hi.1.same rfl rfl, hi.2⟩
          · exact ⟨hi.1.same rfl rfl, hi.2.1, fun _ => hi.2.2 (by simp)⟩
          · trivial
      | act a e =>
        rw [runWith] at h
        cases hx : runWith noteWant booklit n (.expr e) st l with
        | none => rw [hx] at h; cases h
        | some x =>
          obtain ⟨x, fx⟩ := x
          have hi := ih _ _ _ _ _ (all_act ha) ho hx
          rw [hx] at h
          cases x with
          | ok v st' =>
            dsimp only at h
            cases hy : booklit.acts a st.pos (st'.sliceFrom st) st'.env st'.store with
            | none => rw [hy] at h; cases h; trivial
            | some y =>
              obtain ⟨v', s⟩ := y
              rw [hy] at h
              cases h
              exact ⟨hi.1.same rfl rfl, hi.2⟩
          | fail st' => cases h; exact ⟨hi.1, hi.2.1, fun _ => hi.2.2 (by simp)⟩
          | panic st' => cases h; trivial
    | seq es =>
      cases es with
      | nil => cases h; exact ⟨ho, id⟩
      | cons e es =>
        rw [runWith] at h
        cases hx : runWith noteWant booklit n (.expr e) st l with
        | none => rw [hx] at h; cases h
        | some x =>
          obtain ⟨x, fx⟩ := x
          have hi := ih _ _ _ _ _ (all_head ha) ho hx
          rw [hx] at h
          cases x with
          | ok v st' =>
            dsimp only at h
            cases hy : runWith noteWant booklit n (.seq es) st' fx with
            | none => rw [hy] at h; cases h
            | some y =>
              obtain ⟨y, fy⟩ := y
              have hj := ih (.seq es) _ _ _ _ (all_tail ha) hi.1 hy
              rw [hy] at h
              cases y with
              | ok w st'' => cases w <;> (cases h; exact ⟨hj.1, fun hl => hj.2 (hi.2 hl)⟩)
              | fail st'' => cases h; exact ⟨hj.1, fun hl => hj.2.1 (hi.2 hl), fun _ => hj.2.2 (by simp)⟩
              | panic st'' => cases h; trivial
          | fail st' => cases h; exact ⟨hi.1, hi.2.1, fun _ => hi.2.2 (by simp)⟩
          | panic st' => cases h; trivial
    | choice es =>
      cases es with
      | nil => cases h; exact ⟨ho, id, fun hne => absurd rfl hne⟩
      | cons e es =>
        rw [runWith] at h
        cases hx : runWith noteWant booklit n (.expr e) st.push l with
        | none => rw [hx] at h; cases h
        | some x =>
          obtain ⟨x, fx⟩ := x
          have hi := ih _ _ _ _ _ (all_head ha) (ho.same (st' := st.push) rfl rfl) hx
          rw [hx] at h
          cases x with
          | ok v st' => cases h; exact ⟨hi.1.same rfl rfl, hi.2⟩
          | fail st' =>
            have hj := ih (.choice es) _ _ _ _ (all_tail ha) (hi.1.same (st' := st'.pop st) rfl rfl) h
            have hne : fx ≠ [] := hi.2.2 (by simp)
            cases r with
            | ok => exact ⟨hj.1, fun _ => hj.2 hne⟩
            | fail => exact ⟨hj.1, fun _ => hj.2.1 hne, fun _ => hj.2.1 hne⟩
            | panic => trivial
          | panic st' => cases h; trivial
    | star e =>
      rw [runWith] at h
      cases hx : runWith noteWant booklit n (.expr e) st.push l with
      | none => rw [hx] at h; cases h
      | some x =>
        obtain ⟨x, fx⟩ := x
        have hi := ih (.expr e) _ _ _ _ ha (ho.same (st' := st.push) rfl rfl) hx
        rw [hx] at h
        cases x with
        | ok v st' =>
          dsimp only at h
          cases hy : runWith noteWant booklit n (.star e) (st'.pop st) fx with
          | none => rw [hy] at h; cases h
          | some y =>
            obtain ⟨y, fy⟩ := y
            have hj := ih _ _ _ _ _ ha (hi.1.same (st' := st'.pop st) rfl rfl) hy
            rw [hy] at h
            cases y with
            | ok w st'' => cases w <;> (cases h; exact ⟨hj.1, fun hl => hj.2 (hi.2 hl)⟩)
            | fail st'' => cases h; exact ⟨hj.1, fun hl => hj.2.1 (hi.2 hl), fun _ => hj.2.2 (by simp)⟩
            | panic st'' => cases h; trivial
        | fail st' => cases h; exact ⟨hi.1.same rfl rfl, hi.2.1⟩
        | panic st' => cases h; trivial

end Booklit.Peg
