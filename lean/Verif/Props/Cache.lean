import Verif.Lemmas.CacheL

/-!
C44: loads running concurrently with each other and with edits never use outdated text.
-/

namespace Booklit.Props

open Booklit Booklit.Cache

/-- C44. Take any interleaving of any number of loads (of any files), edits and removals. If a load of `p` begins
when `v` is the current version of `p` (`old` being the ones before), then whenever it has a syntax tree, that tree
is the parse of `v` or of a newer version, never of one of `old`; provided edits give increasing modification
times. -/
theorem C44_never_stale {as bs : List Action} {s1 s2 s3 : Sys} {id : Nat} {p : Str} {v : FileInfo}
    {old : List FileInfo} {n : Node}
    (before : run Sys.init as = some s1) (current : s1.disk p = v :: old)
    (start : step s1 (.stat id p) = some s2) (after : run s2 bs = some s3)
    (times : ∀ q, Increasing (s3.disk q)) (uses : (s3.loaders id).node? = some n) :
    ∃ newer, s3.disk p = newer ++ v :: old ∧ ∃ w ∈ newer ++ [v], IsParse p w n := by
  have hall : run Sys.init (as ++ (.stat id p :: bs)) = some s3 := by
    refine run_append before ?_
    simp only [run, start]
    exact after
  have hinv := Inv.init.run hall times
  have hbegan : Began p v.mtime (s2.loaders id) := by
    simp only [step] at start
    split at start
    · simp only [Option.some.injEq] at start
      subst start
      show Began p v.mtime (set s1.loaders id (s1.statted p) id)
      rw [set_same]
      simp only [Sys.statted, current]
      split
      · exact ⟨rfl, rfl⟩
      · trivial
    · simp at start
  have hb := hbegan.run after
  have hd2 : s2.disk p = s1.disk p := by
    simp only [step] at start
    split at start <;> simp at start
    subst start
    rfl
  obtain ⟨newer, hnew⟩ := run_disk after p
  rw [hd2, current] at hnew
  refine ⟨newer, hnew.symm, ?_⟩
  have hfresh : Fresh s3 p v.mtime n := by
    have hok := hinv.loaders id
    cases hl : s3.loaders id with
    | idle => rw [hl] at uses; simp [Loader.node?] at uses
    | statted q t => rw [hl] at uses; simp [Loader.node?] at uses
    | missed q t => rw [hl] at uses; simp [Loader.node?] at uses
    | failed => rw [hl] at uses; simp [Loader.node?] at uses
    | has q t m =>
      rw [hl] at uses hb hok
      obtain ⟨rfl, rfl⟩ := hb
      simp only [Loader.node?, Option.some.injEq] at uses
      subst uses
      exact hok
    | finished q t m =>
      rw [hl] at uses hb hok
      obtain ⟨rfl, rfl⟩ := hb
      simp only [Loader.node?, Option.some.injEq] at uses
      subst uses
      exact hok
  obtain ⟨w, hw, hle, hparse⟩ := hfresh
  refine ⟨w, ?_, hparse⟩
  have hti := times p
  rw [← hnew] at hw hti
  rcases List.mem_append.1 hw with h | h
  · exact List.mem_append_left _ h
  · rcases List.mem_cons.1 h with rfl | h
    · simp
    · exfalso
      have := List.pairwise_append.1 hti
      have := (List.pairwise_cons.1 this.2.1).1 w h
      omega

/-- If the file does not change during the load, the tree is the parse of the current text, whatever the cache held
and whatever other loads do at the same time. -/
theorem C44_current {as bs : List Action} {s1 s2 s3 : Sys} {id : Nat} {p : Str} {v : FileInfo}
    {old : List FileInfo} {n : Node}
    (before : run Sys.init as = some s1) (current : s1.disk p = v :: old)
    (start : step s1 (.stat id p) = some s2) (after : run s2 bs = some s3) (unchanged : s3.disk p = v :: old)
    (times : ∀ q, Increasing (s3.disk q)) (uses : (s3.loaders id).node? = some n) : IsParse p v n := by
  obtain ⟨newer, h1, w, hw, h2⟩ := C44_never_stale before current start after times uses
  rw [unchanged] at h1
  have : newer = [] := by
    have := congrArg List.length h1
    simp at this
    exact this
  subst this
  simp at hw
  subst hw
  exact h2

/-- A file that was removed stays away until somebody writes it again. -/
theorem gone_run {p : Str} {bs : List Action} (no : ∀ info, Action.edit p info ∉ bs) :
    ∀ {s s' : Sys}, run s bs = some s' → s.present p = false → s'.present p = false := by
  induction bs with
  | nil => intro s s' h hp; cases h; exact hp
  | cons a bs ih =>
    intro s s' h hp
    simp only [run] at h
    split at h
    · next s1 h1 =>
      refine ih (fun info hm => no info (List.mem_cons_of_mem _ hm)) h ?_
      cases a with
      | edit q info =>
        have hq : p ≠ q := fun e => no info (by rw [e]; exact List.mem_cons_self ..)
        cases h1
        simp [Cache.set, hq, hp]
      | remove q =>
        cases h1
        simp only [Cache.set]
        split <;> first | rfl | exact hp
      | _ =>
        simp only [step] at h1
        repeat' split at h1
        all_goals first | (cases h1; done) | (cases h1; exact hp)
    · cases h

/-- A load that has failed has failed. -/
theorem failed_run {id : Nat} {bs : List Action} : ∀ {s s' : Sys}, run s bs = some s' → s.loaders id = .failed → s'.loaders id = .failed := by
  induction bs with
  | nil => intro s s' h hf; cases h; exact hf
  | cons a bs ih =>
    intro s s' h hf
    simp only [run] at h
    split at h
    · next s1 h1 =>
      refine ih h ?_
      cases a with
      | edit q info => cases h1; exact hf
      | remove q => cases h1; exact hf
      | stat i q =>
        by_cases hi : id = i
        · subst hi
          simp [step, hf] at h1
        · simp only [step] at h1
          split at h1
          · cases h1; simp [Cache.set, hi, hf]
          · cases h1
      | _ =>
        rename_i i
        by_cases hi : id = i
        · subst hi
          simp [step, hf] at h1
        · simp only [step] at h1
          repeat' split at h1
          all_goals first | (cases h1; done) | (cases h1; simp [Cache.set, hi, hf])
    · cases h

/-- C44. What was in a file that is removed is not used any more: a load that begins after the removal, and before somebody writes the file
again, fails, no matter what earlier loads have left in the cache. -/
theorem C44_removed {as bs cs : List Action} {s1 s2 s3 s4 : Sys} {id : Nat} {p : Str}
    (before : run Sys.init (as ++ [.remove p]) = some s1) (since : run s1 bs = some s2) (no : ∀ info, Action.edit p info ∉ bs)
    (start : step s2 (.stat id p) = some s3) (after : run s3 cs = some s4) : s4.loaders id = .failed := by
  have hp : s1.present p = false := by
    have run_snoc : ∀ (as : List Action) (s : Sys), run s (as ++ [.remove p]) = some s1 → s1.present p = false := by
      intro as
      induction as with
      | nil => intro s h; simp only [List.nil_append, run, step, Option.some.injEq] at h; subst h; simp [Cache.set]
      | cons a as ih =>
        intro s h
        simp only [List.cons_append, run] at h
        split at h
        · exact ih _ h
        · cases h
    exact run_snoc as _ before
  have hp2 := gone_run no since hp
  refine failed_run after ?_
  simp only [step] at start
  split at start
  · cases start
    simp only [Cache.set, if_true, Sys.statted, hp2]
    split <;> rfl
  · cases start

/-- Two versions of a file, `a` and `b`. -/
def textOf (c : Char) (t : Nat) : FileInfo := ⟨t, some [c]⟩

/-- A load of the old text stores it in the cache after a load of the new one has done so; a third load nevertheless
gets the new text. -/
def overtaking : List Action :=
  [.edit ['f'] (textOf 'a' 1), .stat 0 ['f'], .look 0, .read 0, .edit ['f'] (textOf 'b' 2), .stat 1 ['f'], .look 1,
   .read 1, .store 1, .store 0]

/-- The text of a tree that is a single word. -/
def wordOf : Option Node → Option Str
  | some (.seq [.para [[.str s]]]) => some s
  | _ => none

/-- The word that a load uses after some steps. -/
def wordAfter (as : List Action) (id : Nat) : Option Str :=
  match run Sys.init as with
  | some s => wordOf (s.loaders id).node?
  | none => none

example : wordAfter overtaking 0 = some ['a'] ∧ wordAfter overtaking 1 = some ['b'] ∧
    wordAfter (overtaking ++ [.stat 2 ['f'], .look 2, .read 2]) 2 = some ['b'] := by decide +kernel

/-- The hypotheses of `C44_never_stale` are met by that run. -/
example : ∃ s1 s2 s3, run Sys.init overtaking = some s1 ∧ s1.disk ['f'] = [textOf 'b' 2, textOf 'a' 1] ∧
    step s1 (.stat 2 ['f']) = some s2 ∧ run s2 [.look 2, .read 2] = some s3 ∧
    (∀ q, Increasing (s3.disk q)) ∧ ∃ n, (s3.loaders 2).node? = some n := by
  refine ⟨_, _, _, rfl, rfl, rfl, rfl, ?_, _, rfl⟩
  intro q
  by_cases h : q = ['f']
  · subst h
    simp [Increasing, Cache.set, Sys.init, textOf]
  · simp [Increasing, Cache.set, Sys.init, h]

/-- The file is loaded, then removed: the next load fails although the cache has the file; once it is written again it is loaded again. -/
example : (match run Sys.init (overtaking ++ [.remove ['f'], .edit ['g'] (textOf 'b' 2), .stat 2 ['f']]) with
    | some s => (match s.loaders 2 with | .failed => true | _ => false) && (s.cache.map Prod.fst == [['f']])
    | none => false) = true ∧
    wordAfter (overtaking ++ [.remove ['f'], .edit ['f'] (textOf 'c' 3), .stat 2 ['f'], .look 2, .read 2]) 2 = some ['c'] := by decide +kernel

/-- Increasing times are needed: when an edit does not change the modification time (two edits within the resolution
of the clock), later loads go on using the old text. -/
theorem C44_needs_times :
    wordAfter [.edit ['f'] (textOf 'a' 1), .stat 0 ['f'], .look 0, .read 0, .store 0, .edit ['f'] (textOf 'b' 1),
      .stat 1 ['f'], .look 1] 1 = some ['a'] := by decide +kernel

end Booklit.Props
