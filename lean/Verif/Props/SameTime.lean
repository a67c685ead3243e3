import Verif.Lemmas.AmidL
import Verif.Props.Answers
import Verif.Props.Cache

/-!
C78: requests that are served at the same time, and while files are being changed.
-/

namespace Booklit.Props

open Booklit Booklit.Cache

/-- **C78**: whatever has happened before (`as`) and whatever other loads do while a request is being served (`bs`): if no file
is changed meanwhile, the answer is the one that a server would give that is started now and has nothing else to do. `env` is what
the load finds in the cache and in the files, at any times while it runs. Fuel must be sufficient for that server. -/
theorem C78_same_time {W : World} {as bs : List Action} {s t : Sys} (before : run Sys.init as = some s)
    (during : run s bs = some t) (quiet : ∀ a ∈ bs, a.changes = false) (times : ∀ q, Increasing (t.disk q))
    {env : Nat → Moment} (finds : ∀ k, Meets s bs (env k)) (E : Engine) (n k : Nat) (input path : Str)
    (fuel : (answer (W.on s.files) E n k input path ⟨[], []⟩).1 ≠ .more) :
    answerAmid W env E n k input path = (answer (W.on s.files) E n k input path ⟨[], []⟩).1 := by
  refine answerAmid_alone (fun j => ?_) (fun j p info hf => ?_) E n k input path fuel
  · obtain ⟨b1, b2, b3, b4, t1, t2, t3, rfl, h1, -, -, h⟩ := finds j
    rw [h]
    exact quiet_run h1 fun a ha => quiet a (by simp [ha])
  · obtain ⟨b, a, hb, ha, e⟩ := (finds j).current before during times p
    rw [← e, quiet_has quiet hb, quiet_has quiet ha, hf]
    rfl

/-- **C78**: if files are changed while a request is being served, the answer is made of versions of the files that were there
while it was being served, however old what the cache holds: it is the answer of a load without a cache that finds, each time it
asks for a file, a version that was current at some time since the request came in. -/
theorem C78_up_to_date {W : World} {as bs : List Action} {s t : Sys} (before : run Sys.init as = some s)
    (during : run s bs = some t) (times : ∀ q, Increasing (t.disk q)) {env : Nat → Moment} (finds : ∀ k, Meets s bs (env k)) :
    ∃ env' : Nat → Moment, (∀ k, (env' k).cache = [] ∧ ∀ p, Has s bs p ((env' k).before p) ∧ Has s bs p ((env' k).after p)) ∧
      ∀ E n k input path, answerAmid W env E n k input path = answerAmid W env' E n k input path := by
  have key : ∀ x : Nat × Str, ∃ y : Option FileInfo × Option FileInfo, Has s bs x.2 y.1 ∧ Has s bs x.2 y.2 ∧
      (Moment.mk (fun _ => y.1) [] (fun _ => y.2)).node x.2 = (env x.1).node x.2 := by
    intro x
    obtain ⟨b, a, h1, h2, h3⟩ := (finds x.1).current before during times x.2
    exact ⟨(b, a), h1, h2, h3⟩
  obtain ⟨f, hf⟩ := Classical.axiomOfChoice key
  refine ⟨fun k => ⟨fun p => (f (k, p)).1, [], fun p => (f (k, p)).2⟩, fun k => ⟨rfl, fun p => ⟨(hf (k, p)).1, (hf (k, p)).2.1⟩⟩,
    fun E n k input path => answerAmid_same (fun j p => ?_) E n k input path⟩
  exact (hf (j, p)).2.2.symm

/-- **C67** for loading: the result does not depend on the fuel, once there is enough of it. -/
theorem C67_load {W : World} {n n' : Nat} (hn : n ≤ n') (path : Str)
    (hm : (loadFile W n none path [0] ⟨[], []⟩).1 ≠ .more) :
    (loadFile W n' none path [0] ⟨[], []⟩).1 = (loadFile W n none path [0] ⟨[], []⟩).1 ∧
    (loadFile W n' none path [0] ⟨[], []⟩).2.heap = (loadFile W n none path [0] ⟨[], []⟩).2.heap := by
  rcases load_behind (s := ⟨[], []⟩) W.localAt_nothing (Fits.empty W) hn path [0] with h | ⟨h, hh⟩
  · exact absurd h hm
  · rw [behind_nothing] at hh
    refine ⟨?_, hh⟩
    revert h
    cases (loadFile W n none path [0] ⟨[], []⟩).1 <;> cases (loadFile W n' none path [0] ⟨[], []⟩).1 <;> intro h <;>
      first | exact h.elim | rfl | skip
    · cases h; rfl
    · cases h; rfl

/-- There is enough of it, for example, for a book of two sections. -/
example : (match (loadFile (baseOnly.on (oneAt 1 before)) 5 none q%"x.lit" [0] ⟨[], []⟩).1 with | .ok _ => true | _ => false) = true := by
  decide +kernel

/-- The files of the example: two versions of the book, and before the second one a load that has stored the first one. -/
def edited : List Action :=
  [.edit q%"x.lit" ⟨1, some before⟩, .stat 0 q%"x.lit", .look 0, .read 0, .store 0, .edit q%"x.lit" ⟨2, some after⟩]

/-- While the request is served, two other loads run; one of them has stored its tree when the request looks into the cache. -/
def others : List Action := [.stat 1 q%"x.lit", .look 1, .read 1, .stat 2 q%"x.lit", .store 1, .look 2]

/-- What the request finds. -/
def found : Moment := ⟨(stateAfter (edited ++ others.take 4)).files, (stateAfter (edited ++ others.take 5)).cache,
  (stateAfter (edited ++ others)).files⟩

/-- The request for the page `b`, amid the others. -/
def askedAmid (env : Nat → Moment) : Res Answer := answerAmid baseOnly env (htmlEngine plainSite) 5 9 q%"x.lit" q%"/b.html"

/-- The hypotheses of `C78_same_time` are met by this run. -/
example : ∃ s t, run Sys.init edited = some s ∧ run s others = some t ∧ (∀ a ∈ others, a.changes = false) ∧
    (∀ q, Increasing (t.disk q)) ∧ Meets s others found ∧ (s.files q%"x.lit").bind FileInfo.data = some after := by
  have all : (run Sys.init (edited ++ others)).isSome = true := by decide +kernel
  have r := run_from all
  refine ⟨stateAfter edited, stateAfter (edited ++ others), run_stateAfter (run_prefix (run_stateAfter all)), r, by decide, ?_, ?_, by decide +kernel⟩
  · intro q
    rw [run_edits q (run_stateAfter all)]
    by_cases h : q = q%"x.lit"
    · subst h
      simp [Increasing, edits, edited, others, Sys.init]
    · simp [Increasing, edits, edited, others, Sys.init, h]
  · exact ⟨others.take 4, [.store 1], [.look 2], [], _, _, _, rfl, run_from (as := edited) (by decide +kernel),
      run_from (as := edited ++ others.take 4) (by decide +kernel), run_from (as := edited ++ others.take 5) (by decide +kernel), rfl⟩

/-- The request gets its tree from the cache, where another load has just put it, and its answer is the one of a server that is
started now. -/
example : (cached found.cache q%"x.lit" 2).isSome = true ∧
    Answered.text (askedAmid fun _ => found, ⟨[], []⟩) = Answered.text (asked (oneAt 2 after) ⟨[], []⟩) ∧
    (Answered.text (askedAmid fun _ => found, ⟨[], []⟩)).map (occurs q%"second") = some true := by
  decide +kernel

/-- A book of three files. -/
def inFiles (p q : Str) : List Action :=
  [.edit q%"x.lit" ⟨1, some q%"\\title{X}{x}\n\n\\include-section{p.lit}\n\n\\include-section{q.lit}"⟩,
   .edit q%"p.lit" ⟨1, some p⟩, .edit q%"q.lit" ⟨1, some q⟩]

/-- Both parts of the book are changed. -/
def bothChange : List Action :=
  [.edit q%"p.lit" ⟨2, some q%"\\title{P}\n\nnew p"⟩, .edit q%"q.lit" ⟨2, some q%"\\title{Q}\n\nnew q"⟩]

/-- What a request finds that reads the first part before the change, and the second part after it. -/
def foundMixed (k : Nat) : Moment :=
  let as := inFiles q%"\\title{P}\n\nold p" q%"\\title{Q}\n\nold q" ++ if k < 2 then [] else bothChange
  ⟨(stateAfter as).files, (stateAfter as).cache, (stateAfter as).files⟩

/-- **C78** says no more than that each file is as it was at some time: a request that is served while two files are changed may
show the one as it was before and the other as it is now, although the first one was changed first. -/
theorem C78_mixed :
    (∀ k, Meets (stateAfter (inFiles q%"\\title{P}\n\nold p" q%"\\title{Q}\n\nold q")) bothChange (foundMixed k)) ∧
    (Answered.text (answerAmid baseOnly foundMixed (htmlEngine plainSite) 5 9 q%"x.lit" q%"/x.html", ⟨[], []⟩)).map
      (fun x => (occurs q%"old p" x, occurs q%"new p" x, occurs q%"old q" x, occurs q%"new q" x)) = some (true, false, false, true) := by
  refine ⟨fun k => ?_, by decide +kernel⟩
  unfold foundMixed
  by_cases h : k < 2
  · exact ⟨[], [], [], bothChange, _, _, _, rfl, rfl, rfl, rfl, by simp [h]⟩
  · exact ⟨bothChange, [], [], [], _, _, _, rfl, rfl, rfl, rfl, by simp only [h, if_false]; rfl⟩

end Booklit.Props
