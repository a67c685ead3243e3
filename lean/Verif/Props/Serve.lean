import Verif.Lemmas.ServeL

/-!
C48: concurrent requests to the development server.
-/

namespace Booklit.Props

open Booklit Booklit.Templates Booklit.Serve

/-- **C48**: under every schedule of any number of requests, a request that is answered with a page gets a rendering of
the one section loaded for it, all of it with the one template set loaded for it, and with the page template that this
set has for the section. -/
theorem C48_own_page {ts0 : TSet} {as : List Serve.Action} {s : Serve.Sys} (h : Serve.run (Sys.init ts0) as = some s)
    {r : Nat} {o : Out} (hr : s.req r = .done (.page o)) :
    ∃ p ts, (∀ l, Serve.Action.load r l ∈ as ↔ l = .page p) ∧ (∀ u, Serve.Action.templates r u ∈ as ↔ u = ts) ∧
      o.section_ = some p ∧ o.template = ts.htmlPage p.style ∧ o.template ≠ none ∧ ∀ u ∈ o.parts, u = ts := by
  have hi := (Serve.Inv.init ts0).run h
  rw [List.nil_append] at hi
  have hp := hi.phase r
  rw [hr] at hp
  obtain ⟨p, ts, h1, h2, h3, h4, h5, h6⟩ := hp
  refine ⟨p, ts, fun l => ⟨fun hl => hi.oneLoad r _ _ hl h1, fun e => e ▸ h1⟩,
    fun u => ⟨fun hu => hi.oneSet r _ _ hu h2, fun e => e ▸ h2⟩, h3, h4, ?_, h6⟩
  intro e
  rw [e] at h5
  cases h5

/-- Requests are left to the file server only when no section was found. -/
theorem C48_file_server {ts0 : TSet} {as : List Serve.Action} {s : Serve.Sys} (h : Serve.run (Sys.init ts0) as = some s)
    {r : Nat} (hr : s.req r = .done .file) : ∀ l, Serve.Action.load r l ∈ as ↔ l = .missing := by
  have hi := (Serve.Inv.init ts0).run h
  rw [List.nil_append] at hi
  have hp := hi.phase r
  rw [hr] at hp
  exact fun l => ⟨fun hl => hi.oneLoad r _ _ hl hp, fun e => e ▸ hp⟩

/-- A request that has begun and not been answered. -/
def unanswered : Phase → Bool
  | .idle | .done _ => false
  | _ => true

/-- No deadlock: as long as some request has not been answered, some unanswered request can take a step. In particular a
failing or panicking request never keeps the lock. -/
theorem C48_no_deadlock {ts0 : TSet} {as : List Serve.Action} {s : Serve.Sys} (h : Serve.run (Sys.init ts0) as = some s)
    {r : Nat} (hr : unanswered (s.req r) = true) :
    ∃ q a, unanswered (s.req q) = true ∧ (Serve.step s a).isSome = true ∧
      (a = .lock q ∨ a = .templates q s.engine.tmpl ∨ a = .give q ∨ a = .choose q ∨ a = .start q ∨ a = .finish q ∨
        a = .unlock q) := by
  have hi := (Serve.Inv.init ts0).run h
  have inside : ∀ q, (s.req q).inside = true → ∃ q a, unanswered (s.req q) = true ∧ (Serve.step s a).isSome = true ∧
      (a = .lock q ∨ a = .templates q s.engine.tmpl ∨ a = .give q ∨ a = .choose q ∨ a = .start q ∨ a = .finish q ∨
        a = .unlock q) := by
    intro q hq
    cases hp : s.req q with
    | idle => rw [hp] at hq; cases hq
    | loaded p => rw [hp] at hq; cases hq
    | done x => rw [hp] at hq; cases hq
    | locked p => exact ⟨q, .templates q s.engine.tmpl, by rw [hp]; rfl, by simp [Serve.step, hp], by simp⟩
    | ready p => exact ⟨q, .give q, by rw [hp]; rfl, by simp [Serve.step, hp], by simp⟩
    | given p =>
      refine ⟨q, .choose q, by rw [hp]; rfl, ?_, by simp⟩
      simp only [Serve.step, hp]
      split <;> rfl
    | chosen p => exact ⟨q, .start q, by rw [hp]; rfl, by simp [Serve.step, hp], by simp⟩
    | running p o => exact ⟨q, .finish q, by rw [hp]; rfl, by simp [Serve.step, hp], by simp⟩
    | sent x => exact ⟨q, .unlock q, by rw [hp]; rfl, by simp [Serve.step, hp], by simp⟩
  by_cases hin : (s.req r).inside = true
  · exact inside r hin
  · cases hp : s.req r with
    | idle => rw [hp] at hr; cases hr
    | done x => rw [hp] at hr; cases hr
    | loaded p =>
      cases hl : s.lock with
      | some q => exact inside q ((hi.mutex q).2 hl)
      | none => exact ⟨r, .lock r, by rw [hp]; rfl, by simp [Serve.step, hp, hl], by simp⟩
    | locked p => rw [hp] at hin; exact (hin rfl).elim
    | ready p => rw [hp] at hin; exact (hin rfl).elim
    | given p => rw [hp] at hin; exact (hin rfl).elim
    | chosen p => rw [hp] at hin; exact (hin rfl).elim
    | running p o => rw [hp] at hin; exact (hin rfl).elim
    | sent x => rw [hp] at hin; exact (hin rfl).elim

/-- A schedule of three requests: two pages, between them a change of templates, and a failure. -/
def threeRequests (u v : TSet) : List Serve.Action :=
  [.load 0 (.page ⟨10, []⟩), .load 1 (.page ⟨11, q%"fancy"⟩), .lock 0, .templates 0 u, .give 0, .load 2 (.page ⟨12, []⟩), .choose 0,
   .start 0, .part 0, .finish 0, .unlock 0, .lock 2, .panic 2, .lock 1, .templates 1 v, .give 1, .choose 1, .start 1, .part 1,
   .part 1, .finish 1, .unlock 1]

/-- What a request was answered with: template, section and number of parts. -/
def answer (ts0 : TSet) (as : List Serve.Action) (r : Nat) : Option (Option Str × Option Page × Nat) :=
  match Serve.run (Sys.init ts0) as with
  | some s => match s.req r with
    | .done (.page o) => some (o.template, o.section_, o.parts.length)
    | _ => none
  | none => none

/-- Template sets for examples. -/
def plainSet : TSet := fun n => if n = q%"page.tmpl" then some [] else none
def fancySet : TSet := fun n => if n = q%"fancy-page.tmpl" then some [] else none

/-- The hypotheses are met. -/
example : answer plainSet (threeRequests plainSet fancySet) 0 = some (some q%"page", some ⟨10, []⟩, 1) ∧
    answer plainSet (threeRequests plainSet fancySet) 1 = some (some q%"fancy-page", some ⟨11, q%"fancy"⟩, 2) ∧
    answer plainSet (threeRequests plainSet fancySet) 2 = none := by
  decide

end Booklit.Props
