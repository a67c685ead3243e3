import Verif.Model.Peg

/-!
A relational (big-step) presentation of the interpreter `run`, equivalent to it. Used for proofs only.
-/

namespace Booklit.Peg

open Booklit

/-- Big-step semantics of parsing tasks. -/
inductive Big (g : Grammar) : Task → PSt → R → Prop
  | lit (s st) : Big g (.expr (.lit s)) st (runLit s st)
  | cls (neg cs rs st) : Big g (.expr (.cls neg cs rs)) st (runCls neg cs rs st)
  | any (st) : Big g (.expr .any) st (runAny st)
  | seqOk {es st v st'} : Big g (.seq es) st (.ok v st') → Big g (.expr (.seq es)) st (.ok v st')
  | seqFail {es st st'} : Big g (.seq es) st (.fail st') → Big g (.expr (.seq es)) st (.fail (st'.restore st))
  | seqPanic {es st st'} : Big g (.seq es) st (.panic st') → Big g (.expr (.seq es)) st (.panic st')
  | choice {es st r} : Big g (.choice es) st r → Big g (.expr (.choice es)) st r
  | star {e st r} : Big g (.star e) st r → Big g (.expr (.star e)) st r
  | plusOk {e st v st' vs st''} : Big g (.expr e) st.push (.ok v st') →
      Big g (.star e) (st'.pop st) (.ok (.list vs) st'') →
      Big g (.expr (.plus e)) st (.ok (.list (v :: vs)) st'')
  | plusFail {e st st'} : Big g (.expr e) st.push (.fail st') → Big g (.expr (.plus e)) st (.fail (st'.pop st))
  | plusPanic {e st st'} : Big g (.expr e) st.push (.panic st') → Big g (.expr (.plus e)) st (.panic st')
  | plusPanic' {e st v st' st''} : Big g (.expr e) st.push (.ok v st') →
      Big g (.star e) (st'.pop st) (.panic st'') → Big g (.expr (.plus e)) st (.panic st'')
  | optOk {e st v st'} : Big g (.expr e) st.push (.ok v st') → Big g (.expr (.opt e)) st (.ok v (st'.pop st))
  | optNone {e st st'} : Big g (.expr e) st.push (.fail st') → Big g (.expr (.opt e)) st (.ok .nil (st'.pop st))
  | optPanic {e st st'} : Big g (.expr e) st.push (.panic st') → Big g (.expr (.opt e)) st (.panic st')
  | notFail {e st v st'} : Big g (.expr e) { st.push with invert := !st.invert } (.ok v st') →
      Big g (.expr (.not e)) st (.fail { (st'.pop st).restore st with invert := !st'.invert })
  | notOk {e st st'} : Big g (.expr e) { st.push with invert := !st.invert } (.fail st') →
      Big g (.expr (.not e)) st (.ok .nil { (st'.pop st).restore st with invert := !st'.invert })
  | notPanic {e st st'} : Big g (.expr e) { st.push with invert := !st.invert } (.panic st') →
      Big g (.expr (.not e)) st (.panic st')
  | labelOk {l e st v st'} : Big g (.expr e) st.push (.ok v st') →
      Big g (.expr (.label l e)) st (.ok v ((st'.pop st).bind l v))
  | labelFail {l e st st'} : Big g (.expr e) st.push (.fail st') →
      Big g (.expr (.label l e)) st (.fail (st'.pop st))
  | labelPanic {l e st st'} : Big g (.expr e) st.push (.panic st') → Big g (.expr (.label l e)) st (.panic st')
  | ruleOk {r st v st'} : Big g (.expr (g.rules r)) st.push (.ok v st') →
      Big g (.expr (.rule r)) st (.ok v (st'.pop st))
  | ruleFail {r st st'} : Big g (.expr (g.rules r)) st.push (.fail st') →
      Big g (.expr (.rule r)) st (.fail (st'.pop st))
  | rulePanic {r st st'} : Big g (.expr (g.rules r)) st.push (.panic st') →
      Big g (.expr (.rule r)) st (.panic st')
  | actOk {a e st v st' v' s} : Big g (.expr e) st (.ok v st') →
      g.acts a st.pos (st'.sliceFrom st) st'.env st'.store = some (v', s) →
      Big g (.expr (.act a e)) st (.ok v' { st' with store := s })
  | actBad {a e st v st'} : Big g (.expr e) st (.ok v st') →
      g.acts a st.pos (st'.sliceFrom st) st'.env st'.store = none →
      Big g (.expr (.act a e)) st (.panic st')
  | actFail {a e st st'} : Big g (.expr e) st (.fail st') → Big g (.expr (.act a e)) st (.fail st')
  | actPanic {a e st st'} : Big g (.expr e) st (.panic st') → Big g (.expr (.act a e)) st (.panic st')
  | nil {st} : Big g (.seq []) st (.ok (.list []) st)
  | consOk {e es st v st' vs st''} : Big g (.expr e) st (.ok v st') →
      Big g (.seq es) st' (.ok (.list vs) st'') → Big g (.seq (e :: es)) st (.ok (.list (v :: vs)) st'')
  | consFail {e es st st'} : Big g (.expr e) st (.fail st') → Big g (.seq (e :: es)) st (.fail st')
  | consPanic {e es st st'} : Big g (.expr e) st (.panic st') → Big g (.seq (e :: es)) st (.panic st')
  | consFail' {e es st v st' st''} : Big g (.expr e) st (.ok v st') →
      Big g (.seq es) st' (.fail st'') → Big g (.seq (e :: es)) st (.fail st'')
  | consPanic' {e es st v st' st''} : Big g (.expr e) st (.ok v st') →
      Big g (.seq es) st' (.panic st'') → Big g (.seq (e :: es)) st (.panic st'')
  | choiceNil {st} : Big g (.choice []) st (.fail st)
  | choiceOk {e es st v st'} : Big g (.expr e) st.push (.ok v st') →
      Big g (.choice (e :: es)) st (.ok v (st'.pop st))
  | choiceNext {e es st st' r} : Big g (.expr e) st.push (.fail st') →
      Big g (.choice es) (st'.pop st) r → Big g (.choice (e :: es)) st r
  | choicePanic {e es st st'} : Big g (.expr e) st.push (.panic st') → Big g (.choice (e :: es)) st (.panic st')
  | starStop {e st st'} : Big g (.expr e) st.push (.fail st') → Big g (.star e) st (.ok (.list []) (st'.pop st))
  | starMore {e st v st' vs st''} : Big g (.expr e) st.push (.ok v st') →
      Big g (.star e) (st'.pop st) (.ok (.list vs) st'') → Big g (.star e) st (.ok (.list (v :: vs)) st'')
  | starPanic {e st st'} : Big g (.expr e) st.push (.panic st') → Big g (.star e) st (.panic st')
  | starPanic' {e st v st' st''} : Big g (.expr e) st.push (.ok v st') →
      Big g (.star e) (st'.pop st) (.panic st'') → Big g (.star e) st (.panic st'')

/-- Loops and sequences yield lists (or panic); loops never fail. -/
def R.isList : R → Prop
  | .ok (.list _) _ => True
  | .ok _ _ => False
  | .fail _ => True
  | .panic _ => True

def R.isLoop : R → Prop
  | .ok (.list _) _ => True
  | .ok _ _ => False
  | .fail _ => False
  | .panic _ => True

theorem run_shape (g : Grammar) : ∀ n,
    (∀ e st r, run g n (.star e) st = some r → r.isLoop) ∧
    (∀ es st r, run g n (.seq es) st = some r → r.isList) := by
  intro n
  induction n with
  | zero => constructor <;> intro _ _ _ h <;> simp [run] at h
  | succ n ih =>
    refine ⟨?_, ?_⟩
    · intro e st r h
      simp only [run] at h
      split at h
      · split at h
        · cases h; trivial
        · exact ih.1 _ _ _ h
      · cases h; trivial
      · rename_i hne1 hne2
        cases hr : run g n (.expr e) st.push with
        | none => simp [hr] at h
        | some r' =>
          cases r' with
          | ok v st' => exact absurd hr (hne1 v st')
          | fail st' => exact absurd hr (hne2 st')
          | panic st' => rw [hr] at h; cases h; trivial
    · intro es st r h
      cases es with
      | nil => simp only [run] at h; cases h; trivial
      | cons e es =>
        simp only [run] at h
        split at h
        · split at h
          · cases h; trivial
          · exact ih.2 _ _ _ h
        · rename_i hne1
          cases r with
          | ok v st' => exact absurd h (hne1 v st')
          | fail st' => trivial
          | panic st' => trivial

/-- Every finished run is described by the relation. -/
theorem run_sound (g : Grammar) : ∀ n t st r, run g n t st = some r → Big g t st r := by
  intro n
  induction n with
  | zero => intro t st r h; simp [run] at h
  | succ n ih =>
    intro t st r h
    cases t with
    | expr e =>
      cases e with
      | lit s => simp only [run] at h; cases h; exact .lit _ _
      | cls neg cs rs => simp only [run] at h; cases h; exact .cls _ _ _ _
      | any => simp only [run] at h; cases h; exact .any _
      | seq es =>
        simp only [run] at h
        split at h
        · rename_i st' hr; cases h; exact .seqFail (ih _ _ _ hr)
        · rename_i hne
          cases r with
          | ok v st' => exact .seqOk (ih _ _ _ h)
          | fail st' => exact absurd h (hne st')
          | panic st' => exact .seqPanic (ih _ _ _ h)
      | choice es => simp only [run] at h; exact .choice (ih _ _ _ h)
      | star e => simp only [run] at h; exact .star (ih _ _ _ h)
      | plus e =>
        simp only [run] at h
        split at h
        · rename_i v st' hr
          split at h
          · rename_i vs st'' hs; cases h; exact .plusOk (ih _ _ _ hr) (ih _ _ _ hs)
          · rename_i hne
            have hl := (run_shape g n).1 _ _ _ h
            cases r with
            | ok w st'' =>
              cases w with
              | list vs => exact absurd h (hne vs st'')
              | _ => exact hl.elim
            | fail st'' => exact hl.elim
            | panic st'' => exact .plusPanic' (ih _ _ _ hr) (ih _ _ _ h)
        · rename_i st' hr; cases h; exact .plusFail (ih _ _ _ hr)
        · rename_i h1 h2
          cases r with
          | ok v st' => exact absurd h (h1 v st')
          | fail st' => exact absurd h (h2 st')
          | panic st' => exact .plusPanic (ih _ _ _ h)
      | opt e =>
        simp only [run] at h
        split at h
        · rename_i v st' hr; cases h; exact .optOk (ih _ _ _ hr)
        · rename_i st' hr; cases h; exact .optNone (ih _ _ _ hr)
        · rename_i h1 h2
          cases r with
          | ok v st' => exact absurd h (h1 v st')
          | fail st' => exact absurd h (h2 st')
          | panic st' => exact .optPanic (ih _ _ _ h)
      | not e =>
        simp only [run] at h
        split at h
        · rename_i v st' hr; cases h; exact .notFail (ih _ _ _ hr)
        · rename_i st' hr; cases h; exact .notOk (ih _ _ _ hr)
        · rename_i h1 h2
          cases r with
          | ok v st' => exact absurd h (h1 v st')
          | fail st' => exact absurd h (h2 st')
          | panic st' => exact .notPanic (ih _ _ _ h)
      | label l e =>
        simp only [run] at h
        split at h
        · rename_i v st' hr; cases h; exact .labelOk (ih _ _ _ hr)
        · rename_i st' hr; cases h; exact .labelFail (ih _ _ _ hr)
        · rename_i h1 h2
          cases r with
          | ok v st' => exact absurd h (h1 v st')
          | fail st' => exact absurd h (h2 st')
          | panic st' => exact .labelPanic (ih _ _ _ h)
      | rule r' =>
        simp only [run] at h
        split at h
        · rename_i v st' hr; cases h; exact .ruleOk (ih _ _ _ hr)
        · rename_i st' hr; cases h; exact .ruleFail (ih _ _ _ hr)
        · rename_i h1 h2
          cases r with
          | ok v st' => exact absurd h (h1 v st')
          | fail st' => exact absurd h (h2 st')
          | panic st' => exact .rulePanic (ih _ _ _ h)
      | act a e =>
        simp only [run] at h
        split at h
        · rename_i v st' hr
          split at h
          · rename_i v' s ha; cases h; exact .actOk (ih _ _ _ hr) ha
          · rename_i ha; cases h; exact .actBad (ih _ _ _ hr) ha
        · rename_i h1
          cases r with
          | ok v st' => exact absurd h (h1 v st')
          | fail st' => exact .actFail (ih _ _ _ h)
          | panic st' => exact .actPanic (ih _ _ _ h)
    | seq es =>
      cases es with
      | nil => simp only [run] at h; cases h; exact .nil
      | cons e es =>
        simp only [run] at h
        split at h
        · rename_i v st' hr
          split at h
          · rename_i vs st'' hs; cases h; exact .consOk (ih _ _ _ hr) (ih _ _ _ hs)
          · rename_i hne
            have hl := (run_shape g n).2 _ _ _ h
            cases r with
            | ok w st'' =>
              cases w with
              | list vs => exact absurd h (hne vs st'')
              | _ => exact hl.elim
            | fail st'' => exact .consFail' (ih _ _ _ hr) (ih _ _ _ h)
            | panic st'' => exact .consPanic' (ih _ _ _ hr) (ih _ _ _ h)
        · rename_i h1
          cases r with
          | ok v st' => exact absurd h (h1 v st')
          | fail st' => exact .consFail (ih _ _ _ h)
          | panic st' => exact .consPanic (ih _ _ _ h)
    | choice es =>
      cases es with
      | nil => simp only [run] at h; cases h; exact .choiceNil
      | cons e es =>
        simp only [run] at h
        split at h
        · rename_i v st' hr; cases h; exact .choiceOk (ih _ _ _ hr)
        · rename_i st' hr; exact .choiceNext (ih _ _ _ hr) (ih _ _ _ h)
        · rename_i h1 h2
          cases r with
          | ok v st' => exact absurd h (h1 v st')
          | fail st' => exact absurd h (h2 st')
          | panic st' => exact .choicePanic (ih _ _ _ h)
    | star e =>
      simp only [run] at h
      split at h
      · rename_i v st' hr
        split at h
        · rename_i vs st'' hs; cases h; exact .starMore (ih _ _ _ hr) (ih _ _ _ hs)
        · rename_i hne
          have hl := (run_shape g n).1 _ _ _ h
          cases r with
          | ok w st'' =>
            cases w with
            | list vs => exact absurd h (hne vs st'')
            | _ => exact hl.elim
          | fail st'' => exact hl.elim
          | panic st'' => exact .starPanic' (ih _ _ _ hr) (ih _ _ _ h)
      · rename_i st' hr; cases h; exact .starStop (ih _ _ _ hr)
      · rename_i h1 h2
        cases r with
        | ok v st' => exact absurd h (h1 v st')
        | fail st' => exact absurd h (h2 st')
        | panic st' => exact .starPanic (ih _ _ _ h)

/-- The relation is realised by every large enough fuel. -/
theorem run_complete (g : Grammar) {t st r} (h : Big g t st r) : ∃ n, ∀ m, n ≤ m → run g m t st = some r := by
  have fin1 : ∀ {P : Nat → Prop} {t st r} , (∃ n, ∀ m, n ≤ m → run g m t st = some r) →
      (∀ m, run g m t st = some r → P (m + 1)) → ∃ n, ∀ m, n ≤ m → P m := by
    intro P t st r ⟨n, hn⟩ hp
    refine ⟨n + 1, fun m hm => ?_⟩
    obtain ⟨m', rfl⟩ : ∃ m', m = m' + 1 := ⟨m - 1, by omega⟩
    exact hp _ (hn _ (by omega))
  have fin2 : ∀ {P : Nat → Prop} {t st r t' st' r'}, (∃ n, ∀ m, n ≤ m → run g m t st = some r) →
      (∃ n, ∀ m, n ≤ m → run g m t' st' = some r') →
      (∀ m, run g m t st = some r → run g m t' st' = some r' → P (m + 1)) → ∃ n, ∀ m, n ≤ m → P m := by
    intro P t st r t' st' r' ⟨n, hn⟩ ⟨k, hk⟩ hp
    refine ⟨max n k + 1, fun m hm => ?_⟩
    obtain ⟨m', rfl⟩ : ∃ m', m = m' + 1 := ⟨m - 1, by omega⟩
    exact hp _ (hn _ (by omega)) (hk _ (by omega))
  have fin0 : ∀ {P : Nat → Prop}, (∀ m, P (m + 1)) → ∃ n, ∀ m, n ≤ m → P m := by
    intro P hp
    refine ⟨1, fun m hm => ?_⟩
    obtain ⟨m', rfl⟩ : ∃ m', m = m' + 1 := ⟨m - 1, by omega⟩
    exact hp _
  induction h with
  | lit s st => exact fin0 fun m => by simp only [run]
  | cls neg cs rs st => exact fin0 fun m => by simp only [run]
  | any st => exact fin0 fun m => by simp only [run]
  | seqOk _ ih => exact fin1 ih fun m h => by simp only [run, h]
  | seqFail _ ih => exact fin1 ih fun m h => by simp only [run, h]
  | seqPanic _ ih => exact fin1 ih fun m h => by simp only [run, h]
  | choice _ ih => exact fin1 ih fun m h => by simp only [run, h]
  | star _ ih => exact fin1 ih fun m h => by simp only [run, h]
  | plusOk _ _ ih1 ih2 => exact fin2 ih1 ih2 fun m h1 h2 => by simp only [run, h1, h2]
  | plusFail _ ih => exact fin1 ih fun m h => by simp only [run, h]
  | plusPanic _ ih => exact fin1 ih fun m h => by simp only [run, h]
  | plusPanic' _ _ ih1 ih2 => exact fin2 ih1 ih2 fun m h1 h2 => by simp only [run, h1, h2]
  | optOk _ ih => exact fin1 ih fun m h => by simp only [run, h]
  | optNone _ ih => exact fin1 ih fun m h => by simp only [run, h]
  | optPanic _ ih => exact fin1 ih fun m h => by simp only [run, h]
  | notFail _ ih => exact fin1 ih fun m h => by simp only [run, h]
  | notOk _ ih => exact fin1 ih fun m h => by simp only [run, h]
  | notPanic _ ih => exact fin1 ih fun m h => by simp only [run, h]
  | labelOk _ ih => exact fin1 ih fun m h => by simp only [run, h]
  | labelFail _ ih => exact fin1 ih fun m h => by simp only [run, h]
  | labelPanic _ ih => exact fin1 ih fun m h => by simp only [run, h]
  | ruleOk _ ih => exact fin1 ih fun m h => by simp only [run, h]
  | ruleFail _ ih => exact fin1 ih fun m h => by simp only [run, h]
  | rulePanic _ ih => exact fin1 ih fun m h => by simp only [run, h]
  | actOk _ ha ih => exact fin1 ih fun m h => by simp only [run, h, ha]
  | actBad _ ha ih => exact fin1 ih fun m h => by simp only [run, h, ha]
  | actFail _ ih => exact fin1 ih fun m h => by simp only [run, h]
  | actPanic _ ih => exact fin1 ih fun m h => by simp only [run, h]
  | nil => exact fin0 fun m => by simp only [run]
  | consOk _ _ ih1 ih2 => exact fin2 ih1 ih2 fun m h1 h2 => by simp only [run, h1, h2]
  | consFail _ ih => exact fin1 ih fun m h => by simp only [run, h]
  | consPanic _ ih => exact fin1 ih fun m h => by simp only [run, h]
  | consFail' _ _ ih1 ih2 => exact fin2 ih1 ih2 fun m h1 h2 => by simp only [run, h1, h2]
  | consPanic' _ _ ih1 ih2 => exact fin2 ih1 ih2 fun m h1 h2 => by simp only [run, h1, h2]
  | choiceNil => exact fin0 fun m => by simp only [run]
  | choiceOk _ ih => exact fin1 ih fun m h => by simp only [run, h]
  | choiceNext _ _ ih1 ih2 => exact fin2 ih1 ih2 fun m h1 h2 => by simp only [run, h1, h2]
  | choicePanic _ ih => exact fin1 ih fun m h => by simp only [run, h]
  | starStop _ ih => exact fin1 ih fun m h => by simp only [run, h]
  | starMore _ _ ih1 ih2 => exact fin2 ih1 ih2 fun m h1 h2 => by simp only [run, h1, h2]
  | starPanic _ ih => exact fin1 ih fun m h => by simp only [run, h]
  | starPanic' _ _ ih1 ih2 => exact fin2 ih1 ih2 fun m h1 h2 => by simp only [run, h1, h2]

theorem Big.det {g t st r r'} (h : Big g t st r) (h' : Big g t st r') : r = r' := by
  obtain ⟨n, hn⟩ := run_complete g h
  obtain ⟨k, hk⟩ := run_complete g h'
  have a := hn (max n k) (by omega)
  have b := hk (max n k) (by omega)
  simpa [a] using b

end Booklit.Peg
