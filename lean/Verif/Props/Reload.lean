import Verif.Lemmas.ReloadL
import Verif.Props.Templates

/-!
C84: templates edited while they are loaded.
-/

namespace Booklit.Props

open Booklit Booklit.Templates Booklit.Reload

/-- **C84 (part)**: let the development server load templates any number of times, while template files are written and
removed at any moment, also between the listing of the directory, the looks at modification times and the reading. When a
load that listed the directory in the state `s1` has succeeded and its page is being rendered, every template file of `s1`
is in use in the version of that moment or in a newer one. Missing: histories in which a load failed, see
`C84_false_failed`, and versions that are not newer than those before, see `C84_false_same_time`. -/
theorem C84_reload_partial (L : Lang) (builtin : TSet) {as bs : List Action} {names : List Str} {s1 s2 : Sys}
    (h1 : run L builtin (Sys.init builtin) as = some s1) (h2 : run L builtin s1 (.begin names :: bs) = some s2)
    (hb : Action.release ∉ bs) (hr : s2.phase = .ready)
    (hu : Untroubled L builtin (Sys.init builtin) (as ++ .begin names :: bs)) (hi : ∀ n, Rising (s2.disk n))
    {n : Str} (hn : n ∈ s1.present) {v : TFile} {old : List TFile} (hv : s1.disk n = v :: old) :
    ∃ newer, s2.disk n = newer ++ v :: old ∧ ∃ w ∈ newer ++ [v], Shown L builtin s2.eng.tmpl n w := by
  obtain ⟨u1, u2⟩ := untroubled_append hu h1
  have hg := run_grown h2
  have b1 := run_base init_base h1
  have k1 := run_knows init_base init_knows h1
  have i1 := run_hold init_base init_hold (hg.rising hi) u1 h1
  obtain ⟨s0, h0, h3⟩ := run_cons h2
  have hg0 := step_grown h0
  have i0 := step_hold b1 i1 ((run_grown h3).rising hi) u2.1 h0
  have hperm : names.Perm s1.present ∧ s0.phase = .stat names names false := by
    cases step_cases h0 with
    | begin _ _ hp => exact ⟨hp, rfl⟩
  have d0 : During L builtin s1 names s0 := by
    intro m hm v old _
    rw [hperm.2]
    exact ⟨rfl, fun h => absurd hm h⟩
  have d := run_during (step_base b1 h0) (step_knows b1 k1 h0) i0 hg0 hi (u2.2 s0 h0) hb (by rw [hperm.2]; intro e; cases e)
    d0 h3 n (hperm.1.mem_iff.mpr hn) v old hv
  rw [hr] at d
  obtain ⟨w, w1, w2, w3⟩ := d
  obtain ⟨newer, e⟩ := hg n
  rw [hv] at e
  refine ⟨newer, e, w, ?_, w3⟩
  rw [e] at w1
  rcases List.mem_append.mp w1 with w1 | w1
  · exact List.mem_append_left _ w1
  · rcases List.mem_cons.mp w1 with rfl | w1
    · simp
    · have := hi n
      rw [e] at this
      have := (List.pairwise_cons.mp (List.pairwise_append.mp this).2.1).1 w w1
      omega

/-- Not interrupted by an edit of this file, the load brings the version that was there. -/
theorem C84_undisturbed_partial (L : Lang) (builtin : TSet) {as bs : List Action} {names : List Str} {s1 s2 : Sys}
    (h1 : run L builtin (Sys.init builtin) as = some s1) (h2 : run L builtin s1 (.begin names :: bs) = some s2)
    (hb : Action.release ∉ bs) (hr : s2.phase = .ready)
    (hu : Untroubled L builtin (Sys.init builtin) (as ++ .begin names :: bs)) (hi : ∀ n, Rising (s2.disk n))
    {n : Str} (hn : n ∈ s1.present) {v : TFile} {old : List TFile} (hv : s1.disk n = v :: old)
    (hs : s2.disk n = s1.disk n) : Shown L builtin s2.eng.tmpl n v := by
  obtain ⟨newer, e, w, hw, h⟩ := C84_reload_partial L builtin h1 h2 hb hr hu hi hn hv
  rw [hs, hv] at e
  have : newer = [] := by
    have := congrArg List.length e
    simp only [List.length_append] at this
    exact List.eq_nil_of_length_eq_zero (by omega)
  subst this
  have : w = v := by simpa using hw
  exact this ▸ h

/-- Whatever happens, also when loads fail and times run backwards: a template in use is a built-in one or one of the
versions of its file, never a mixture; where there has never been a file it is the built-in one. -/
theorem C84_no_mixture (L : Lang) (builtin : TSet) {as : List Action} {s : Sys}
    (h : run L builtin (Sys.init builtin) as = some s) (n : Str) :
    (s.eng.tmpl n = builtin n ∨ ∃ w ∈ s.disk n, Shown L builtin s.eng.tmpl n w) ∧
      (s.disk n = [] → s.eng.tmpl n = builtin n) := by
  have := (run_knows init_base init_knows h).1 n
  refine ⟨this, fun e => ?_⟩
  rcases this with h | ⟨w, hw, -⟩
  · exact h
  · rw [e] at hw
    cases hw

/-- A load fails only when a file was removed during the load, or had a version during the load that does not parse. -/
theorem C84_blame (L : Lang) (builtin : TSet) {as bs : List Action} {names : List Str} {s1 s2 : Sys}
    (h1 : run L builtin (Sys.init builtin) as = some s1) (h2 : run L builtin s1 (.begin names :: bs) = some s2)
    (hb : Action.release ∉ bs) (hf : s2.phase = .failed) :
    ∃ n ∈ s1.present, Action.remove n ∈ bs ∨
      ∃ newer v old w t, s1.disk n = v :: old ∧ s2.disk n = newer ++ v :: old ∧ w ∈ newer ++ [v] ∧ Trimmed w.text t ∧
        L.parses t = false := by
  have b1 := run_base init_base h1
  obtain ⟨s0, h0, h3⟩ := run_cons h2
  have hperm : names.Perm s1.present ∧ s0 = { s1 with phase := .stat names names false } := by
    cases step_cases h0 with
    | begin _ _ hp => exact ⟨hp, rfl⟩
  have t0 : Trail L s1 names bs s0 := by
    rw [hperm.2]
    exact ⟨fun n hn => .inl (hperm.1.mem_iff.mp hn), .refl _, fun _ h => h, fun _ h => h⟩
  have t := (run_trail (step_base b1 h0) (fun n hn => b1.exist n (hperm.1.mem_iff.mp hn)) (fun _ h => h) hb t0 h3).lists
  rw [hf] at t
  obtain ⟨n, hn, h⟩ := t
  exact ⟨n, hperm.1.mem_iff.mp hn, h⟩

/-- Without interruption the steps of a load do what `loadTemplates` does in one step (C46, C83), on the directory with
the latest version of each file. -/
theorem C84_uninterrupted (L : Lang) (builtin : TSet) {s : Sys} (hp : s.phase = .idle) {names : List Str}
    (hn : names.Perm s.present) {g : Str → TFile} (hg : ∀ n ∈ names, ∃ old, s.disk n = g n :: old) :
    ∃ as s', (∀ a ∈ as, a = .stat ∨ a = .read) ∧ run L builtin s (.begin names :: as) = some s' ∧
      s'.disk = s.disk ∧ s'.present = s.present ∧
      s'.eng = (L.loadTemplates builtin (names.map fun n => (n, g n)) s.eng).2 ∧
      s'.phase = if (L.loadTemplates builtin (names.map fun n => (n, g n)) s.eng).1 then .ready else .failed := by
  have hf : ∀ n ∈ names, n ∈ s.present ∧ ∃ old, s.disk n = g n :: old := fun n h => ⟨hn.mem_iff.mp h, hg n h⟩
  have h0 : run L builtin s [.begin names] = some { s with phase := .stat names names false } := by
    simp only [run, step, hp, if_pos (List.isPerm_iff.mpr hn)]
  have h1 := run_append h0 (run_stats (L := L) (builtin := builtin) g names names false { s with phase := .stat names names false } hf rfl)
  cases hc : (checkTimes s.eng.modTimes false (names.map fun n => (n, g n))).1 with
  | false =>
    simp only [hc] at h1
    have h2 := run_append (bs := [.stat]) h1 rfl
    rw [List.append_assoc, List.singleton_append] at h2
    refine ⟨List.replicate names.length Action.stat ++ [Action.stat], _, ?_, h2, rfl, rfl, ?_, ?_⟩
    · intro a ha
      rcases List.mem_append.mp ha with h | h
      · exact .inl (List.eq_of_mem_replicate h)
      · exact .inl (by simpa using h)
    · simp [Lang.loadTemplates, hc]
    · simp [Lang.loadTemplates, hc]
  | true =>
    simp only [hc] at h1
    obtain ⟨k, hk⟩ := run_reads (L := L) (builtin := builtin) g names
      { s with eng := ⟨builtin, (checkTimes s.eng.modTimes false (names.map fun n => (n, g n))).2⟩, phase := .read names } hf rfl
    have h2 := run_append (bs := [.stat]) h1 rfl
    have h3 := run_append h2 hk
    rw [List.append_assoc, List.append_assoc, List.singleton_append] at h3
    refine ⟨List.replicate names.length Action.stat ++ ([Action.stat] ++ List.replicate k Action.read), _, ?_, h3, rfl, rfl, ?_, ?_⟩
    · intro a ha
      rcases List.mem_append.mp ha with h | h
      · exact .inl (List.eq_of_mem_replicate h)
      · rcases List.mem_append.mp h with h | h
        · exact .inl (by simpa using h)
        · exact .inr (List.eq_of_mem_replicate h)
    · simp [Lang.loadTemplates, hc]
    · simp [Lang.loadTemplates, hc]

/-- Two files; the first load is overtaken by an edit of the one, after its modification time was taken. -/
def overtaken : List Action :=
  [.edit q%"a.tmpl" ⟨1, q%"{a}\n"⟩, .edit q%"page.tmpl" ⟨2, q%"{p}"⟩, .begin [q%"a.tmpl", q%"page.tmpl"], .stat,
   .edit q%"a.tmpl" ⟨3, q%"{b}"⟩, .stat, .stat, .read, .read, .edit q%"page.tmpl" ⟨4, q%"{q}"⟩, .read, .release]

/-- The next load: edited again, after it was read. -/
def overtakenAgain : List Action :=
  [.stat, .stat, .stat, .read, .edit q%"a.tmpl" ⟨5, q%"{c}"⟩, .read, .read]

/-- A property of the state after these steps. -/
def afterSteps (as : List Action) (p : Sys → Bool) : Bool := (run braces someBuiltin (Sys.init someBuiltin) as).any p

/-- A test for `Untroubled`. -/
def calmSteps (L : Lang) (builtin : TSet) : Sys → List Action → Bool
  | s, [] => s.phase != .failed
  | s, a :: as => s.phase != .failed && (step L builtin s a).all fun s' => calmSteps L builtin s' as

theorem calmSteps_untroubled {L : Lang} {builtin : TSet} {as : List Action} {s : Sys}
    (h : calmSteps L builtin s as = true) : Untroubled L builtin s as := by
  induction as generalizing s with
  | nil => simpa [calmSteps, Untroubled] using h
  | cons a as ih =>
    simp only [calmSteps, Bool.and_eq_true] at h
    refine ⟨by simpa using h.1, fun s' e => ih ?_⟩
    rw [e] at h
    exact h.2

/-- The conditions of the theorems are met: two loads with edits in between; during the second a version later than
that at its begin is taken up. -/
example :
    afterSteps overtaken (fun s => s.phase == .idle && decide (q%"a.tmpl" ∈ s.present) &&
      s.disk q%"a.tmpl" == [⟨3, q%"{b}"⟩, ⟨1, q%"{a}\n"⟩] && s.eng.tmpl q%"a.tmpl" == some q%"{b}" &&
      s.eng.tmpl q%"page.tmpl" == some q%"{p}") = true ∧
    afterSteps (overtaken ++ .begin [q%"page.tmpl", q%"a.tmpl"] :: overtakenAgain) (fun s => s.phase == .ready &&
      s.disk q%"a.tmpl" == [⟨5, q%"{c}"⟩, ⟨3, q%"{b}"⟩, ⟨1, q%"{a}\n"⟩] &&
      s.disk q%"page.tmpl" == [⟨4, q%"{q}"⟩, ⟨2, q%"{p}"⟩] &&
      s.eng.tmpl q%"a.tmpl" == some q%"{c}" && s.eng.tmpl q%"page.tmpl" == some q%"{q}") = true ∧
    Untroubled braces someBuiltin (Sys.init someBuiltin)
      (overtaken ++ .begin [q%"page.tmpl", q%"a.tmpl"] :: overtakenAgain) ∧
    Action.release ∉ overtakenAgain := by
  exact ⟨by decide, by decide, calmSteps_untroubled (by decide), by decide⟩

/-- A load of a file that does not parse, and one of a file that is removed, fail. -/
example :
    afterSteps [.edit q%"a.tmpl" ⟨1, q%"{a"⟩, .begin [q%"a.tmpl"], .stat, .stat, .read] (fun s => s.phase == .failed) = true ∧
    afterSteps [.edit q%"a.tmpl" ⟨1, q%"{a}"⟩, .begin [q%"a.tmpl"], .stat, .stat, .remove q%"a.tmpl", .read]
      (fun s => s.phase == .failed) = true := by
  decide

/-- **C84** does not hold after a load that failed: a file is removed between the listing and the look at its
modification time; afterwards the other file counts as loaded, although it was never read. -/
theorem C84_false_failed :
    let as : List Action := [.edit q%"page.tmpl" ⟨1, q%"{p}"⟩, .edit q%"z.tmpl" ⟨1, q%"{z}"⟩,
      .begin [q%"page.tmpl", q%"z.tmpl"], .stat, .remove q%"z.tmpl", .stat]
    afterSteps as (fun s => s.phase == .failed) = true ∧
    afterSteps (as ++ [.release, .begin [q%"page.tmpl"], .stat, .stat]) (fun s => s.phase == .ready &&
      s.eng.tmpl q%"page.tmpl" == some q%"<page>") = true := by
  decide

/-- Nor when an edit does not change the modification time: the old version stays in use. -/
theorem C84_false_same_time :
    afterSteps [.edit q%"page.tmpl" ⟨1, q%"{p}"⟩, .begin [q%"page.tmpl"], .stat, .stat, .read, .read, .release,
      .edit q%"page.tmpl" ⟨1, q%"{q}"⟩, .begin [q%"page.tmpl"], .stat, .stat] (fun s => s.phase == .ready &&
        s.eng.tmpl q%"page.tmpl" == some q%"{p}") = true := by
  decide

end Booklit.Props
