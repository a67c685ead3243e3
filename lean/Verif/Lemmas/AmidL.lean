import Verif.Lemmas.MovedLoad
import Verif.Lemmas.CacheL
import Verif.Spec.Amid

/-! Loading amid other activities. -/

namespace Booklit

/-! ### Nothing before -/

theorem content_moved_zero (c : Content) : c.moved 0 = c := by
  induction c using Content.ind with
  | nil | str | ref | sect | toc | image | lazy | target => simp_all [Content.moved]
  | seq cs ih | para cs ih | pre cs ih | list cs o ih =>
    simp only [Content.moved, movedL_eq]
    rw [List.map_congr_left ih, List.map_id']
  | styled st b c ps ih ihp =>
    simp only [Content.moved, movedP_eq, ih]
    rw [List.map_congr_left (g := id) fun p hp => by simp [ihp p hp]]
    simp
  | link c u ih | aux c ih => simp only [Content.moved, ih]
  | table rs ih =>
    simp only [Content.moved, movedR_eq]
    rw [List.map_congr_left (g := id) fun r hr => by rw [List.map_congr_left (ih r hr)]; simp]
    simp
  | defs ds ih =>
    simp only [Content.moved, movedD_eq]
    rw [List.map_congr_left (g := id) fun p hp => by simp [(ih p hp).1, (ih p hp).2]]
    simp

theorem tag_moved_zero (g : Tag) : g.moved 0 = g := by
  cases g
  simp [Tag.moved, content_moved_zero]

theorem map_same {α : Type} {f : α → α} (hf : ∀ a, f a = a) (l : List α) : l.map f = l := by
  rw [List.map_congr_left (g := id) fun a _ => hf a, List.map_id]

theorem sec_moved_zero (x : Sec) : x.moved 0 = x := by
  cases x
  simp [Sec.moved, content_moved_zero, tag_moved_zero, map_same tag_moved_zero]

theorem behind_nothing (h : Heap) : Heap.behind [] h = h := by
  simp [Heap.behind, map_same sec_moved_zero]

theorem raw_moved_zero (r : Raw) : r.moved 0 = r := by cases r <;> simp [Raw.moved, content_moved_zero]

theorem ret_moved_zero (r : Ret) : r.moved 0 = r := by cases r <;> simp [Ret.moved, content_moved_zero]

theorem World.localAt_nothing (W : World) : W.LocalAt [] := by
  intro p name f _ h i args
  simp only [List.length_nil, Nat.add_zero, behind_nothing, ret_moved_zero]
  rw [List.map_congr_left (g := id) fun r _ => raw_moved_zero r, List.map_id]

/-! ### Files are only looked at by `EvaluateFile` -/

section
variable (W : World) (fs : Files) (k : Nat) (inc : Inc)

theorem findMethod_on (name : Str) : ∀ ps : List Nat, findMethod (W.on fs) name ps = findMethod W name ps
  | [] => rfl
  | p :: ps => by
    rw [findMethod, findMethod, findMethod_on name ps]
    rfl

theorem callMethod_on (i : Nat) (m : Method) (args : List ArgV) : callMethod (W.on fs) k inc i m args = callMethod W k inc i m args := by
  unfold callMethod
  split
  · rfl
  · cases m with
    | base b => cases b <;> rfl
    | foreign f => rfl

theorem convertAll_on (i : Nat) (args : List (Node × Ev)) : ∀ (ts : List Ty) (v : Option Ty),
    convertAll (W.on fs) k i ts v args = convertAll W k i ts v args := by
  induction args with
  | nil => intro ts v; cases ts <;> rfl
  | cons a as ih =>
    intro ts v
    cases ts <;> cases v <;> simp only [convertAll, ih] <;> rfl

theorem invokeFn_on (fn : Str) (loc : Location) (args : List (Node × Ev)) :
    invokeFn (W.on fs) k inc fn loc args = invokeFn W k inc fn loc args := by
  unfold invokeFn
  simp only [findMethod_on, convertAll_on, callMethod_on]

mutual
theorem evalNode_on : ∀ n : Node, evalNode (W.on fs) k inc n = evalNode W k inc n
  | .str s => by rw [evalNode, evalNode]
  | .seq ns => by rw [evalNode, evalNode, evalSeq_on ns]
  | .para ls => by rw [evalNode, evalNode, evalLines_on ls]
  | .pre ls => by rw [evalNode, evalNode, evalLines_on ls]
  | .invoke fn args loc => by rw [evalNode, evalNode, evalArgs_on args, invokeFn_on]
theorem evalSeq_on : ∀ ns : List Node, evalSeq (W.on fs) k inc ns = evalSeq W k inc ns
  | [] => by rw [evalSeq, evalSeq]
  | n :: ns => by rw [evalSeq, evalSeq, evalNode_on n, evalSeq_on ns]
theorem evalLines_on : ∀ ls : List (List Node), evalLines (W.on fs) k inc ls = evalLines W k inc ls
  | [] => by rw [evalLines, evalLines]
  | l :: ls => by rw [evalLines, evalLines, evalSeq_on l, evalLines_on ls]
theorem evalArgs_on : ∀ ns : List Node, evalArgs (W.on fs) k inc ns = evalArgs W k inc ns
  | [] => by rw [evalArgs, evalArgs]
  | n :: ns => by rw [evalArgs, evalArgs, evalNode_on n, evalArgs_on ns]
end
end

/-! ### Loads that find the same -/

/-- What a call of `EvaluateFile` evaluates. -/
def Moment.node (m : Moment) (path : Str) : Res Node :=
  match m.before path with
  | none => .err (.plain q%"stat error")
  | some info =>
    match cached m.cache path info.mtime with
    | some node => .ok node
    | none => readNow m.after path

/-- The part of `EvaluateFile` behind the reading. -/
def amidBody (W : World) (env : Nat → Moment) (n : Nat) (parent : Option Nat) (path : Str) (plugins : List Nat) (t : Nat)
    (node : Node) : M Nat := do
  let i ← M.alloc { Sec.fresh parent path with plugins := plugins }
  evalBody (evalNode W n (fun p q => do
    let c ← evalAmid W env n (some p) q [0]
    M.upd p fun x => { x with children := x.children ++ [c] }) node) i
  remember path node t
  pure i

theorem evalAmid_run (W : World) (env : Nat → Moment) (n : Nat) (parent : Option Nat) (path : Str) (plugins : List Nat) (s : St) :
    ∃ t, evalAmid W env (n + 1) parent path plugins s =
      (M.lift ((env s.heap.length).node path) >>= amidBody W env n parent path plugins t) s ∧
      ∀ i, (env s.heap.length).before path = some i → t = i.mtime := by
  unfold evalAmid
  rw [M.bind_run, M.bind]
  dsimp only [M.get]
  cases hb : (env s.heap.length).before path with
  | none => exact ⟨0, by rw [Moment.node, hb]; rfl, by simp⟩
  | some info =>
    refine ⟨info.mtime, ?_, by simp⟩
    rw [Moment.node, hb]
    dsimp only
    cases hc : cached (env s.heap.length).cache path info.mtime <;> rfl


theorem Fits.nowhere {W : World} (cache : List (Str × Node × Nat)) : Fits (W.on fun _ => none) cache := by
  intro path info node h
  cases h

/-- Two loads that find the same do the same. -/
theorem Sim.amid {W : World} {env env' : Nat → Moment} (he : ∀ k path, (env k).node path = (env' k).node path) : ∀ (n : Nat)
    (parent : Option Nat) (path : Str) (plugins : List Nat),
    Sim (W.on fun _ => none) [] (fun a b => b = a) (evalAmid W env n parent path plugins) (evalAmid W env' n parent path plugins) := by
  intro n
  induction n with
  | zero => intro parent path plugins s s' _; exact .inl rfl
  | succ n ih =>
    intro parent path plugins s s' hs
    have hh : s'.heap = s.heap := by rw [hs.heap, behind_nothing]
    obtain ⟨t, e, -⟩ := evalAmid_run W env n parent path plugins s
    obtain ⟨t', e', -⟩ := evalAmid_run W env' n parent path plugins s'
    rw [e, e', hh, he]
    refine Sim.bind (R := fun a b => b = a) (Sim.lift ?_) (fun node node' hn => ?_) s s' hs
    · cases (env' s.heap.length).node path with
      | ok a => exact .inr rfl
      | err e => exact .inr rfl
      | panic => exact .inr trivial
      | more => exact .inl rfl
    · subst hn
      unfold amidBody
      have ha := Sim.alloc (W := W.on fun _ => none) (old := []) { Sec.fresh parent path with plugins := plugins }
      rw [List.length_nil, sec_moved_zero] at ha
      refine ha.bind fun c' c e => ?_
      obtain rfl : c' = c := e.symm
      rw [← evalNode_on W (fun _ => none), ← evalNode_on W (fun _ => none)]
      refine (Sim.body ?_ c').bind fun _ _ _ => Sim.bind (R := fun _ _ => True) ?_ fun _ _ _ => .pure rfl
      · refine Sim.evalNode (World.localAt_nothing _) (Nat.le_refl n) (fun i q => ?_) node'
        refine (ih (some i) q [0]).bind fun a b e => ?_
        subst e
        exact Sim.upd i fun x => by simp [Sec.moved]
      · exact fun u u' hu => .inr ⟨trivial, hu.heap, Fits.nowhere _, Fits.nowhere _⟩

/-- The same for a load alone. -/
def fileBody (W : World) (n : Nat) (parent : Option Nat) (path : Str) (plugins : List Nat) (t : Nat) (node : Node) : M Nat := do
  let i ← M.alloc { Sec.fresh parent path with plugins := plugins }
  evalBody (evalNode W n (fun p q => do
    let c ← Booklit.evalFile W n (some p) q [0]
    M.upd p fun x => { x with children := x.children ++ [c] }) node) i
  remember path node t
  pure i

theorem evalFile_some {W : World} {path : Str} {info : FileInfo} (hf : W.fs path = some info) (n : Nat) (parent : Option Nat)
    (plugins : List Nat) (s : St) : Booklit.evalFile W (n + 1) parent path plugins s =
      (M.lift (nodeOf s path info) >>= fileBody W n parent path plugins info.mtime) s := by
  unfold Booklit.evalFile
  rw [M.bind_run, M.bind]
  dsimp only [M.get]
  rw [hf]
  dsimp only
  rw [nodeOf]
  cases cached s.cache path info.mtime <;> rfl

theorem evalFile_none {W : World} {path : Str} (hf : W.fs path = none) (n : Nat) (parent : Option Nat)
    (plugins : List Nat) (s : St) : Booklit.evalFile W (n + 1) parent path plugins s = (.err (.plain q%"stat error"), s) := by
  rw [evalFile_run, hf]

/-- A load that finds what is in the files does what it would do alone. -/
theorem Sim.amid_alone {W : World} {fs : Files} {env : Nat → Moment} (hb : ∀ k, (env k).before = fs)
    (he : ∀ k path info, fs path = some info → (env k).node path = parseFile path info) : ∀ (n : Nat)
    (parent : Option Nat) (path : Str) (plugins : List Nat),
    Sim (W.on fs) [] (fun a b => b = a) (Booklit.evalFile (W.on fs) n parent path plugins) (evalAmid W env n parent path plugins) := by
  intro n
  induction n with
  | zero => intro parent path plugins s s' _; exact .inl rfl
  | succ n ih =>
    intro parent path plugins s s' hs
    obtain ⟨t, e, ht⟩ := evalAmid_run W env n parent path plugins s'
    rw [e]
    cases hf : fs path with
    | none =>
      have : (env s'.heap.length).node path = .err (.plain q%"stat error") := by rw [Moment.node, hb, hf]
      rw [this, evalFile_none (W := W.on fs) hf]
      exact .inr ⟨rfl, hs⟩
    | some info =>
      rw [evalFile_some (W := W.on fs) hf, he _ _ _ hf, hs.fits.nodeOf hf, ht info (by rw [hb, hf])]
      refine Sim.bind (R := fun a b => b = a ∧ parseFile path info = .ok a) (Sim.lift ?_) (fun node node' hn => ?_) s s' hs
      · cases parseFile path info with
        | ok a => exact .inr ⟨rfl, rfl⟩
        | err e => exact .inr rfl
        | panic => exact .inr trivial
        | more => exact .inl rfl
      · obtain ⟨rfl, hp⟩ := hn
        unfold amidBody fileBody
        have ha := Sim.alloc (W := W.on fs) (old := []) { Sec.fresh parent path with plugins := plugins }
        rw [List.length_nil, sec_moved_zero] at ha
        refine ha.bind fun c' c e => ?_
        obtain rfl : c' = c := e.symm
        rw [← evalNode_on W fs n]
        refine (Sim.body ?_ c').bind fun _ _ _ => (Sim.remember hf hp).bind fun _ _ _ => .pure rfl
        refine Sim.evalNode (World.localAt_nothing _) (Nat.le_refl n) (fun i q => ?_) node'
        refine (ih (some i) q [0]).bind fun a b e => ?_
        subst e
        exact Sim.upd i fun x => by simp [Sec.moved]


/-- The end of loading. -/
def collectM (n i : Nat) : M Nat := fun s =>
  match s.heap.collect n i with
  | .ok h => (.ok i, { s with heap := h })
  | .err e => (.err e, s)
  | .panic => (.panic, s)
  | .more => (.more, s)

theorem Sim.collectM {W : World} (n i : Nat) : Sim W [] (fun a b => b = a) (collectM n i) (collectM n i) := by
  intro s s' hs
  have hh : s'.heap = s.heap := by rw [hs.heap, behind_nothing]
  unfold Booklit.collectM
  rw [hh]
  cases s.heap.collect n i with
  | ok h => exact .inr ⟨rfl, by rw [behind_nothing], hs.fits, hs.fits'⟩
  | err e => exact .inr ⟨rfl, hs⟩
  | panic => exact .inr ⟨trivial, hs⟩
  | more => exact .inl rfl

/-- Both results at once. -/
theorem Sim.same {W : World} {m m' : M Nat} (h : Sim W [] (fun a b => b = a) m m') (s s' : St) (hs : Alike W [] s s') :
    (m s).1 = .more ∨ ((m' s').1 = (m s).1 ∧ (m' s').2.heap = (m s).2.heap) := by
  refine (h s s' hs).imp id fun ⟨h1, h2⟩ => ⟨?_, by rw [h2.heap, behind_nothing]⟩
  revert h1
  cases (m s).1 <;> cases (m' s').1 <;> intro h1 <;> first | exact h1.elim | rfl | skip
  · cases h1; rfl
  · cases h1; rfl

theorem loadAmid_same {W : World} {env env' : Nat → Moment} (he : ∀ k path, (env k).node path = (env' k).node path) (n : Nat)
    (path : Str) (plugins : List Nat) :
    (loadAmid W env n path plugins ⟨[], []⟩).1 = .more ∨
      ((loadAmid W env' n path plugins ⟨[], []⟩).1 = (loadAmid W env n path plugins ⟨[], []⟩).1 ∧
       (loadAmid W env' n path plugins ⟨[], []⟩).2.heap = (loadAmid W env n path plugins ⟨[], []⟩).2.heap) := by
  refine Sim.same (W := W.on fun _ => none) ?_ _ _ ⟨by simp [Heap.behind], Fits.nowhere _, Fits.nowhere _⟩
  refine (Sim.amid he n none path plugins).bind fun a b e => ?_
  subst e
  exact Sim.collectM n b

theorem loadAmid_alone {W : World} {fs : Files} {env : Nat → Moment} (hb : ∀ k, (env k).before = fs)
    (he : ∀ k path info, fs path = some info → (env k).node path = parseFile path info) (n : Nat) (path : Str) (plugins : List Nat) :
    (loadFile (W.on fs) n none path plugins ⟨[], []⟩).1 = .more ∨
      ((loadAmid W env n path plugins ⟨[], []⟩).1 = (loadFile (W.on fs) n none path plugins ⟨[], []⟩).1 ∧
       (loadAmid W env n path plugins ⟨[], []⟩).2.heap = (loadFile (W.on fs) n none path plugins ⟨[], []⟩).2.heap) := by
  refine Sim.same (W := W.on fs) ?_ _ _ ⟨by simp [Heap.behind], Fits.empty _, Fits.empty _⟩
  refine (Sim.amid_alone hb he n none path plugins).bind fun a b e => ?_
  subst e
  exact Sim.collectM n b

theorem answerAmid_same {W : World} {env env' : Nat → Moment} (he : ∀ k path, (env k).node path = (env' k).node path) (E : Engine)
    (n k : Nat) (input path : Str) : answerAmid W env E n k input path = answerAmid W env' E n k input path := by
  have h1 := loadAmid_same (W := W) he n input [0]
  have h2 := loadAmid_same (W := W) (fun k p => (he k p).symm) n input [0]
  rw [answerAmid, answerAmid]
  revert h1 h2
  cases loadAmid W env n input [0] ⟨[], []⟩ with
  | mk r s =>
    cases loadAmid W env' n input [0] ⟨[], []⟩ with
    | mk r' s' =>
      dsimp only
      intro h1 h2
      have : r' = r ∧ (r = .more ∨ s'.heap = s.heap) := by
        rcases h1 with h1 | h1
        · rcases h2 with h2 | h2
          · rw [h1, h2]; exact ⟨rfl, .inl rfl⟩
          · rw [h2.1] at h1; exact ⟨h2.1.symm, .inl (h2.1 ▸ h1)⟩
        · exact ⟨h1.1, .inr h1.2⟩
      obtain ⟨rfl, hh⟩ := this
      cases requestTag E.ext path with
      | none => rfl
      | some _ =>
        dsimp only
        cases r' with
        | ok i =>
          rcases hh with hh | hh
          · cases hh
          · dsimp only
            rw [hh]
        | _ => rfl

theorem answerAmid_alone {W : World} {fs : Files} {env : Nat → Moment} (hb : ∀ k, (env k).before = fs)
    (he : ∀ k path info, fs path = some info → (env k).node path = parseFile path info) (E : Engine)
    (n k : Nat) (input path : Str) (hm : (answer (W.on fs) E n k input path ⟨[], []⟩).1 ≠ .more) :
    answerAmid W env E n k input path = (answer (W.on fs) E n k input path ⟨[], []⟩).1 := by
  have h1 := loadAmid_alone (W := W) hb he n input [0]
  revert hm
  rw [answerAmid, answer]
  revert h1
  cases loadFile (W.on fs) n none input [0] ⟨[], []⟩ with
  | mk r s =>
    cases loadAmid W env n input [0] ⟨[], []⟩ with
    | mk r' s' =>
      dsimp only
      intro h1
      cases requestTag E.ext path with
      | none => intro _; rfl
      | some _ =>
        dsimp only
        intro hm
        rcases h1 with h1 | ⟨h1, h2⟩
        · subst h1
          exact absurd rfl hm
        · subst h1
          cases r' with
          | ok i =>
            dsimp only
            rw [h2]
            cases s.heap.requested E.ext k i path with
            | none => rfl
            | some x => cases x <;> rfl
          | _ => rfl

/-! ### What can be found -/

namespace Cache

theorem run_split {s : Sys} : ∀ {as bs : List Action} {t u : Sys}, run s as = some t → run s (as ++ bs) = some u → run t bs = some u := by
  intro as
  induction as generalizing s with
  | nil => intro bs t u h h'; simp only [run, Option.some.injEq] at h; subst h; exact h'
  | cons a as ih =>
    intro bs t u h h'
    simp only [run, List.cons_append] at h h'
    split at h
    · next s1 h1 => rw [h1] at h'; exact ih h h'
    · simp at h

theorem cached_nothing (p : Str) (t : Nat) : cached [] p t = none := rfl

theorem Passes.start (s : Sys) (as : List Action) : Passes s as s := ⟨[], as, rfl, rfl⟩

theorem Passes.within {s t u : Sys} {as bs cs ds : List Action} (h : run s as = some t) (hp : Passes t bs u) (e : cs = as ++ bs ++ ds) :
    Passes s cs u := by
  obtain ⟨xs, ys, rfl, hr⟩ := hp
  exact ⟨as ++ xs, ys ++ ds, by rw [e]; simp, run_append h hr⟩

/-- A version that was not there before is current at the time when it comes. -/
theorem appears {p : Str} {w : FileInfo} : ∀ {as : List Action} {s t : Sys}, run s as = some t → w ∈ t.disk p → w ∉ s.disk p →
    ∃ u, Passes s as u ∧ u.files p = some w := by
  intro as
  induction as with
  | nil => intro s t h h1 h2; simp only [run, Option.some.injEq] at h; subst h; exact absurd h1 h2
  | cons a as ih =>
    intro s t h h1 h2
    simp only [run] at h
    split at h
    · next s1 hs =>
      by_cases hw : w ∈ s1.disk p
      · refine ⟨s1, ⟨[a], as, rfl, by simp only [run, hs]⟩, ?_⟩
        have same : ∀ {f : Nat → Loader} {c}, w ∈ (Sys.mk s.disk s.present c f).disk p → False := fun h => h2 h
        cases a with
        | edit path info =>
          simp only [step, Option.some.injEq] at hs
          subst hs
          by_cases hp : p = path
          · subst hp
            simp only [set, if_true, List.mem_cons] at hw
            rcases hw with rfl | hw
            · simp [Sys.files, set]
            · exact absurd hw h2
          · simp only [set, hp, if_false] at hw
            exact absurd hw h2
        | remove path =>
          simp only [step, Option.some.injEq] at hs
          subst hs
          exact absurd hw h2
        | stat id path =>
          simp only [step] at hs
          split at hs <;> simp at hs
          subst hs
          exact absurd hw h2
        | look id =>
          simp only [step] at hs
          split at hs
          · split at hs <;> (simp at hs; subst hs; exact absurd hw h2)
          · simp at hs
        | read id =>
          simp only [step] at hs
          split at hs <;> simp at hs
          subst hs
          exact absurd hw h2
        | giveUp id =>
          simp only [step] at hs
          split at hs <;> simp at hs
          subst hs
          exact absurd hw h2
        | store id =>
          simp only [step] at hs
          split at hs <;> simp at hs
          subst hs
          exact absurd hw h2
      · obtain ⟨u, hu, hf⟩ := ih h h1 hw
        exact ⟨u, Passes.within (as := [a]) (bs := as) (ds := []) (by simp only [run, hs]) hu (by simp), hf⟩
    · simp at h

theorem files_some {s : Sys} {p : Str} {i : FileInfo} (h : s.files p = some i) : ∃ old, s.disk p = i :: old := by
  unfold Sys.files at h
  split at h
  · cases hd : s.disk p with
    | nil => rw [hd] at h; cases h
    | cons x xs =>
      rw [hd] at h
      cases h
      exact ⟨xs, rfl⟩
  · cases h

/-- What a call of `EvaluateFile` evaluates comes from versions that are there while it runs. -/
theorem Meets.current {as bs : List Action} {s t : Sys} (before : run Sys.init as = some s) (during : run s bs = some t)
    (times : ∀ q, Increasing (t.disk q)) {m : Moment} (h : Meets s bs m) (p : Str) :
    ∃ b a, Has s bs p b ∧ Has s bs p a ∧ (Moment.mk (fun _ => b) [] (fun _ => a)).node p = m.node p := by
  obtain ⟨b1, b2, b3, b4, t1, t2, t3, rfl, h1, h2, h3, rfl⟩ := h
  have q1 : Has s (b1 ++ b2 ++ b3 ++ b4) p (t1.files p) := ⟨t1, ⟨b1, b2 ++ b3 ++ b4, by simp, h1⟩, rfl⟩
  have q3 : Has s (b1 ++ b2 ++ b3 ++ b4) p (t3.files p) :=
    ⟨t3, ⟨b1 ++ b2 ++ b3, b4, by simp, run_append (run_append h1 h2) h3⟩, rfl⟩
  cases hf : t1.files p with
  | none => rw [hf] at q1; exact ⟨none, t3.files p, q1, q3, by simp only [Moment.node, hf]⟩
  | some info =>
    rw [hf] at q1
    cases hc : cached t2.cache p info.mtime with
    | none => exact ⟨some info, t3.files p, q1, q3, by simp only [Moment.node, hf, hc, cached_nothing, readNow]⟩
    | some node =>
      have r2 : run Sys.init (as ++ (b1 ++ b2)) = some t2 := run_append before (run_append h1 h2)
      have rest : run t2 (b3 ++ b4) = some t := run_split (as := b1 ++ b2) (run_append h1 h2) (by simpa using during)
      have inc : ∀ q, Increasing (t2.disk q) := fun q => (times q).suffix (run_disk rest q)
      obtain ⟨u, hm, hle⟩ := cached_mem hc
      obtain ⟨w, hw, hle', hp⟩ := (Inv.init.run r2 inc).cache _ _ _ hm
      obtain ⟨x, hx⟩ : ∃ x, Passes t1 b2 x ∧ x.files p = some w := by
        by_cases hin : w ∈ t1.disk p
        · refine ⟨t1, Passes.start _ _, ?_⟩
          obtain ⟨old, ho⟩ := files_some hf
          have inc1 := (inc p).suffix (run_disk h2 p)
          rw [ho] at inc1 hin
          rcases List.mem_cons.1 hin with rfl | hin
          · exact hf
          · have := (List.pairwise_cons.1 inc1).1 w hin
            omega
        · exact appears h2 hw hin
      have hx' : Has s (b1 ++ b2 ++ b3 ++ b4) p (some w) :=
        ⟨x, Passes.within (as := b1) (bs := b2) (ds := b3 ++ b4) h1 hx.1 (by simp), hx.2⟩
      refine ⟨some w, some w, hx', hx', ?_⟩
      simp only [Moment.node, hf, hc, cached_nothing, readNow, hp]

/-- Files stay as they are unless they are changed. -/
theorem quiet_step {s s' : Sys} {a : Action} (h : step s a = some s') (hq : a.changes = false) : s'.files = s.files := by
  cases a with
  | edit path info => cases hq
  | remove path => cases hq
  | stat id path =>
    simp only [step] at h
    split at h <;> simp at h
    subst h
    rfl
  | look id =>
    simp only [step] at h
    split at h
    · split at h <;> (simp at h; subst h; rfl)
    · simp at h
  | read id =>
    simp only [step] at h
    split at h <;> simp at h
    subst h
    rfl
  | giveUp id =>
    simp only [step] at h
    split at h <;> simp at h
    subst h
    rfl
  | store id =>
    simp only [step] at h
    split at h <;> simp at h
    subst h
    rfl

theorem quiet_run : ∀ {as : List Action} {s t : Sys}, run s as = some t → (∀ a ∈ as, a.changes = false) → t.files = s.files := by
  intro as
  induction as with
  | nil => intro s t h _; simp only [run, Option.some.injEq] at h; subst h; rfl
  | cons a as ih =>
    intro s t h hq
    simp only [run] at h
    split at h
    · next s1 hs => rw [ih h fun x hx => hq x (by simp [hx]), quiet_step hs (hq a (by simp))]
    · simp at h

theorem quiet_has {as : List Action} {s : Sys} (hq : ∀ a ∈ as, a.changes = false) {p : Str} {v : Option FileInfo} (h : Has s as p v) :
    v = s.files p := by
  obtain ⟨t, ⟨bs, cs, rfl, hr⟩, rfl⟩ := h
  rw [quiet_run hr fun a ha => hq a (by simp [ha])]

/-- The versions of a file that come along. -/
def edits (q : Str) : List Action → List FileInfo
  | [] => []
  | .edit p i :: as => edits q as ++ if q = p then [i] else []
  | _ :: as => edits q as

theorem run_edits (q : Str) : ∀ {as : List Action} {s t : Sys}, run s as = some t → t.disk q = edits q as ++ s.disk q := by
  intro as
  induction as with
  | nil => intro s t h; simp only [run, Option.some.injEq] at h; subst h; rfl
  | cons a as ih =>
    intro s t h
    simp only [run] at h
    split at h
    · next s1 hs =>
      rw [ih h]
      cases a with
      | edit p i =>
        simp only [step, Option.some.injEq] at hs
        subst hs
        simp only [edits, set]
        split
        · next e => subst e; simp
        · simp
      | remove p =>
        simp only [step, Option.some.injEq] at hs
        subst hs
        rfl
      | stat id path =>
        simp only [step] at hs
        split at hs <;> simp at hs
        subst hs
        rfl
      | look id =>
        simp only [step] at hs
        split at hs
        · split at hs <;> (simp at hs; subst hs; rfl)
        · simp at hs
      | read id =>
        simp only [step] at hs
        split at hs <;> simp at hs
        subst hs
        rfl
      | giveUp id =>
        simp only [step] at hs
        split at hs <;> simp at hs
        subst hs
        rfl
      | store id =>
        simp only [step] at hs
        split at hs <;> simp at hs
        subst hs
        rfl
    · simp at h

/-- The state after some steps. -/
def stateAfter (as : List Action) : Sys := (run Sys.init as).getD Sys.init

theorem run_stateAfter {as : List Action} (h : (run Sys.init as).isSome = true) : run Sys.init as = some (stateAfter as) := by
  obtain ⟨t, ht⟩ := Option.isSome_iff_exists.1 h
  rw [stateAfter, ht, Option.getD_some]

theorem run_prefix {s t : Sys} : ∀ {as bs : List Action}, run s (as ++ bs) = some t → (run s as).isSome = true := by
  intro as
  induction as generalizing s with
  | nil => intro bs _; rfl
  | cons a as ih =>
    intro bs h
    simp only [run, List.cons_append] at h ⊢
    split at h
    · next s1 hs => exact ih h
    · simp at h

/-- One step after the other. -/
theorem run_from {as bs : List Action} (h : (run Sys.init (as ++ bs)).isSome = true) :
    run (stateAfter as) bs = some (stateAfter (as ++ bs)) :=
  run_split (run_stateAfter (run_prefix (run_stateAfter h))) (run_stateAfter h)

end Cache

end Booklit
