import Verif.Lemmas.LazyL

/-!
C45: deferred content is generated once.
-/

namespace Booklit.Props

open Booklit Booklit.Lazy

/-- C45. Under every schedule of any number of concurrent calls of `Force` on one value, the generator is called at
most once. -/
theorem C45_at_most_once {V : Type} {nil : V} {as : List (Action V)} {s : Sys V}
    (h : run (Sys.init nil) as = some s) : (as.filter fun a => match a with | .call _ => true | _ => false).length ≤ 1 := by
  have h1 := ((Inv.init nil).run h).phase
  simp only [List.nil_append] at h1
  have h2 : calls as ≤ 1 := by
    cases h1 with
    | fresh d c r e => omega
    | busy i d c b r o e => omega
    | over d c o b r => omega
  refine Nat.le_trans (Nat.le_of_eq ?_) h2
  unfold calls
  congr 1

/-- C45. All callers to which `Force` has returned got the same, and by then the generator has been called exactly
once and has ended: they got what it returned; or it panicked, and they got the initial value. -/
theorem C45_same_result {V : Type} {nil : V} {as : List (Action V)} {s : Sys V}
    (h : run (Sys.init nil) as = some s) {i : Nat} {v : V} (hi : s.callers i = .returned v) :
    (∀ j w, s.callers j = .returned w → w = v) ∧
    (as.filter fun a => match a with | .call _ => true | _ => false).length = 1 ∧
    ((∃ id, Action.yield id v ∈ as) ∨ (v = nil ∧ ∃ id, Action.panic id ∈ as)) := by
  have h1 := ((Inv.init nil).run h).phase
  simp only [List.nil_append] at h1
  cases h1 with
  | fresh d c r e => have := e i; rw [hi] at this; simp [Caller.early] at this
  | busy k d c b r o e =>
    exfalso
    by_cases hk : i = k
    · subst hk; rw [hi] at b; simp [Caller.busy] at b
    · have := e i hk; rw [hi] at this; simp [Caller.early] at this
  | over d c o b r =>
    refine ⟨fun j w hj => (r j w hj).trans (r i v hi).symm, ?_, ?_⟩
    · rw [← c]
      unfold calls
      congr 1
    · rw [r i v hi]; exact o

/-- If the generator has returned `v` (it did not panic), every caller gets `v`. -/
theorem C45_result {V : Type} {nil : V} {as : List (Action V)} {s : Sys V}
    (h : run (Sys.init nil) as = some s) (np : ∀ id, Action.panic id ∉ as)
    {i : Nat} {v : V} (hi : s.callers i = .returned v) : ∃ id, Action.yield id v ∈ as := by
  rcases (C45_same_result h hi).2.2 with h | ⟨_, id, h⟩
  · exact h
  · exact (np id h).elim

/-- A caller that has begun and not ended. -/
def pending {V : Type} : Caller V → Bool
  | .idle | .returned _ | .panicked => false
  | _ => true

/-- No deadlock: as long as some call of `Force` has not ended, some caller can take a step (the generator may end at
any time). -/
theorem C45_no_deadlock {V : Type} {nil : V} {as : List (Action V)} {s : Sys V}
    (h : run (Sys.init nil) as = some s) {i : Nat} (hi : pending (s.callers i) = true) :
    ∃ j a, pending (s.callers j) = true ∧ (step s a).isSome = true ∧
      (a = .lock j ∨ a = .call j ∨ a = .skip j ∨ a = .yield j nil ∨ a = .mark j ∨ a = .unlock j ∨ a = .read j) := by
  have hinv := (Inv.init nil).run h
  have hm := hinv.mutex
  have inside : ∀ j, (s.callers j).inside = true → ∃ j a, pending (s.callers j) = true ∧ (step s a).isSome = true ∧
      (a = .lock j ∨ a = .call j ∨ a = .skip j ∨ a = .yield j nil ∨ a = .mark j ∨ a = .unlock j ∨ a = .read j) := by
    intro j hj
    cases hl : s.callers j with
    | idle => rw [hl] at hj; simp [Caller.inside] at hj
    | waiting => rw [hl] at hj; simp [Caller.inside] at hj
    | ready => rw [hl] at hj; simp [Caller.inside] at hj
    | returned v => rw [hl] at hj; simp [Caller.inside] at hj
    | panicked => rw [hl] at hj; simp [Caller.inside] at hj
    | locked =>
      cases hd : s.done with
      | false => exact ⟨j, .call j, by rw [hl]; rfl, by simp [step, hl, hd], by simp⟩
      | true => exact ⟨j, .skip j, by rw [hl]; rfl, by simp [step, hl, hd], by simp⟩
    | running => exact ⟨j, .yield j nil, by rw [hl]; rfl, by simp [step, hl], by simp⟩
    | assigned => exact ⟨j, .mark j, by rw [hl]; rfl, by simp [step, hl], by simp⟩
    | panicking => exact ⟨j, .mark j, by rw [hl]; rfl, by simp [step, hl], by simp⟩
    | marked => exact ⟨j, .unlock j, by rw [hl]; rfl, by simp [step, hl], by simp⟩
    | markedPanic => exact ⟨j, .unlock j, by rw [hl]; rfl, by simp [step, hl], by simp⟩
  cases hmx : s.mutex with
  | some j => exact inside j ((hm j).2 hmx)
  | none =>
    cases hl : s.callers i with
    | idle => rw [hl] at hi; simp [pending] at hi
    | returned v => rw [hl] at hi; simp [pending] at hi
    | panicked => rw [hl] at hi; simp [pending] at hi
    | waiting => exact ⟨i, .lock i, by rw [hl]; rfl, by simp [step, hl, hmx], by simp⟩
    | ready => exact ⟨i, .read i, by rw [hl]; rfl, by simp [step, hl], by simp⟩
    | locked => exact inside i (by rw [hl]; rfl)
    | running => exact inside i (by rw [hl]; rfl)
    | assigned => exact inside i (by rw [hl]; rfl)
    | panicking => exact inside i (by rw [hl]; rfl)
    | marked => exact inside i (by rw [hl]; rfl)
    | markedPanic => exact inside i (by rw [hl]; rfl)

/-- A schedule in which three callers compete: one generates, one waits for it, one comes late. -/
def threeCallers : List (Action Nat) :=
  [.check 0, .check 1, .lock 1, .call 1, .yield 1 7, .mark 1, .check 2, .read 2, .unlock 1, .lock 0, .skip 0, .unlock 0,
   .read 0, .read 1]

/-- What a caller got in the end. -/
def got (as : List (Action Nat)) (i : Nat) : Option Nat :=
  match run (Sys.init 0) as with
  | some s => match s.callers i with
    | .returned v => some v
    | _ => none
  | none => none

example : got threeCallers 0 = some 7 ∧ got threeCallers 1 = some 7 ∧ got threeCallers 2 = some 7 := by decide

/-- When the generator panics, later callers get the initial value: nil content and no error. -/
theorem C45_after_panic : got [.check 0, .lock 0, .call 0, .panic 0, .mark 0, .unlock 0, .check 1, .read 1] 1 = some 0 := by
  decide

end Booklit.Props
