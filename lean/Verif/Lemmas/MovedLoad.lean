import Verif.Lemmas.MovedEval
import Verif.Lemmas.SafeFile
import Verif.Spec.Served

/-!
Loading behind other sections, and the cache of a server.
-/

namespace Booklit

/-- A target. -/
def Target.moved (d : Nat) (t : Target) : Target := ⟨t.name, t.loc, t.title.moved d, t.content.moved d⟩

theorem andThen_moved {d : Nat} (a b : Option (List Target)) :
    andThen (a.map (List.map (Target.moved d))) (b.map (List.map (Target.moved d))) =
      (andThen a b).map (List.map (Target.moved d)) := by
  cases a <;> cases b <;> simp [andThen]

theorem targetsL_moved {d : Nat} {cs : List Content} (h : ∀ c ∈ cs, targets (c.moved d) = (targets c).map (List.map (Target.moved d))) :
    targetsL (cs.map (Content.moved d)) = (targetsL cs).map (List.map (Target.moved d)) := by
  induction cs with
  | nil => rfl
  | cons c cs ih => simp only [List.map_cons, targetsL, h c (by simp), ih fun x hx => h x (by simp [hx]), andThen_moved]

theorem targets_moved {d : Nat} (c : Content) : targets (c.moved d) = (targets c).map (List.map (Target.moved d)) := by
  induction c using Content.ind with
  | nil | str | ref | sect | toc | image | lazy | target => rfl
  | seq cs ih | para cs ih | pre cs ih | list cs o ih => simpa only [Content.moved, targets, movedL_eq] using targetsL_moved ih
  | styled st b c ps ih ihp =>
    have hp : targetsP (ps.map fun p => (p.1, p.2.moved d)) = (targetsP ps).map (List.map (Target.moved d)) := by
      clear ih
      induction ps with
      | nil => rfl
      | cons p ps ih =>
        obtain ⟨k, v⟩ := p
        have hv := ihp (k, v) (by simp)
        dsimp only at hv
        simp only [List.map_cons, targetsP, moved_isNil, hv, ih fun x hx => ihp x (by simp [hx])]
        rw [← andThen_moved]
        split <;> rfl
    simp only [Content.moved, targets, movedP_eq, ih, hp, andThen_moved]
  | link c u ih | aux c ih => simpa only [Content.moved, targets] using ih
  | table rs ih =>
    simp only [Content.moved, targets, movedR_eq]
    induction rs with
    | nil => rfl
    | cons r rs ih' =>
      simp only [List.map_cons, targetsR, targetsL_moved (ih r (by simp)), ih' fun x hx => ih x (by simp [hx]), andThen_moved]
  | defs ds ih =>
    simp only [Content.moved, targets, movedD_eq]
    induction ds with
    | nil => rfl
    | cons p ds ih' =>
      obtain ⟨a, b⟩ := p
      have hv := ih (a, b) (by simp)
      dsimp only at hv
      simp only [List.map_cons, targetsD, hv.1, hv.2, ih' fun x hx => ih x (by simp [hx]), andThen_moved]

theorem secTargets_moved {d : Nat} (x : Sec) : (x.moved d).targets = x.targets.map (List.map (Target.moved d)) := by
  have : ((x.moved d).partials.map (·.2)) = (x.partials.map (·.2)).map (Content.moved d) := by simp [Sec.moved, Function.comp_def]
  rw [Sec.targets, Sec.targets, this, targetsL_moved fun c _ => targets_moved c]
  simp only [Sec.moved, targets_moved, andThen_moved]

theorem addTargets_moved (old : Heap) (i : Nat) (ts : List Target) : ∀ h : Heap,
    (old.behind h).addTargets (i + old.length) (ts.map (Target.moved old.length)) = old.behind (h.addTargets i ts) := by
  induction ts with
  | nil => intro h; rfl
  | cons t ts ih =>
    intro h
    simp only [List.map_cons, Heap.addTargets]
    rw [← ih]
    congr 1
    rw [Heap.setTagAnchored, Heap.setTagAnchored]
    refine behind_upd old h i fun x => ?_
    simp [Sec.moved, Tag.moved, Target.moved]

theorem collectLoop_moved {old : Heap} {v v' : Heap → Nat → Res Heap}
    (hv : ∀ h i, v h i = .more ∨ (v h i).Like (fun a b => b = old.behind a) (v' (old.behind h) (i + old.length))) (cs : List Nat) :
    ∀ h : Heap, collectLoop v h cs = .more ∨
      (collectLoop v h cs).Like (fun a b => b = old.behind a) (collectLoop v' (old.behind h) (cs.map (· + old.length))) := by
  induction cs with
  | nil => intro h; exact .inr rfl
  | cons c cs ih =>
    intro h
    simp only [List.map_cons, collectLoop]
    rcases hv h c with e | e
    · rw [e]
      exact .inl rfl
    · revert e
      cases v h c <;> cases v' (old.behind h) (c + old.length) <;> intro e <;> first | exact e.elim | exact .inr e | skip
      cases e
      exact ih _

theorem collect_moved {old : Heap} : ∀ {n n' : Nat}, n ≤ n' → ∀ (h : Heap) (i : Nat), collectSection n h i = .more ∨
    (collectSection n h i).Like (fun a b => b = old.behind a) (collectSection n' (old.behind h) (i + old.length)) := by
  intro n
  induction n with
  | zero => intro n' _ h i; exact .inl rfl
  | succ n ih =>
    intro n' hn h i
    obtain ⟨n', rfl⟩ : ∃ k, n' = k + 1 := ⟨n' - 1, by omega⟩
    rw [collectSection, collectSection, behind_moved old h i, secTargets_moved]
    cases (h.get i).targets with
    | none => exact .inr trivial
    | some ts =>
      simp only [Option.map_some, addTargets_moved]
      exact collectLoop_moved (fun h i => ih (by omega) h i) _ _

theorem Sim.loadFile {W : World} {old : Heap} (hl : W.LocalAt old) {n n' : Nat} (hn : n ≤ n') (parent : Option Nat) (path : Str)
    (plugins : List Nat) : Sim W old (fun a b => b = a + old.length) (loadFile W n parent path plugins)
      (loadFile W n' (parent.map (· + old.length)) path plugins) := by
  refine (Sim.evalFile hl hn parent path plugins).bind fun i j e => ?_
  subst e
  intro s s' hs
  have := collect_moved (old := old) hn s.heap i
  rw [← hs.heap] at this
  rcases this with e | e
  · simp only [Heap.collect, e]
    exact .inl trivial
  · simp only [Heap.collect]
    revert e
    cases collectSection n s.heap i <;> cases collectSection n' s'.heap (i + old.length) <;> intro e <;>
      first | exact e.elim | skip
    · exact .inr ⟨rfl, e, hs.fits, hs.fits'⟩
    · exact .inr ⟨e, hs⟩
    · exact .inr ⟨e, hs⟩

/-- Loading behind other sections and with a filled cache gives the same as loading right after the start. -/
theorem load_behind {W : World} {s : St} (hl : W.LocalAt s.heap) (hf : Fits W s.cache) {n n' : Nat} (hn : n ≤ n') (path : Str)
    (plugins : List Nat) : (loadFile W n none path plugins ⟨[], []⟩).1 = .more ∨
      ((loadFile W n none path plugins ⟨[], []⟩).1.Like (fun a b => b = a + s.heap.length) (loadFile W n' none path plugins s).1 ∧
       (loadFile W n' none path plugins s).2.heap = s.heap.behind (loadFile W n none path plugins ⟨[], []⟩).2.heap) :=
  (Sim.loadFile (old := s.heap) hl hn none path plugins ⟨[], []⟩ s ⟨by simp [Heap.behind], Fits.empty W, hf⟩).imp id
    fun h => ⟨h.1, h.2.heap⟩

/-! ### The cache -/

/-- A condition on the entries of the cache. -/
def CacheAll (Q : Str → Node → Nat → Prop) (s : St) : Prop := ∀ e ∈ s.cache, Q e.1 e.2.1 e.2.2

/-- Evaluation keeps the condition. -/
def KeepsAll (Q : Str → Node → Nat → Prop) (_ : Nat) (s s' : St) : Prop :=
  s.heap.length ≤ s'.heap.length ∧ (CacheAll Q s → CacheAll Q s')

theorem KeepsAll.inv {W : World} {Q : Str → Node → Nat → Prop}
    (hQ : ∀ s path info n, CacheAll Q s → W.fs path = some info → nodeOf s path info = .ok n → Q path n info.mtime) :
    EvalInv W (fun _ => True) (KeepsAll Q) where
  refl := fun _ s => ⟨Nat.le_refl _, id⟩
  trans := fun h h' => ⟨Nat.le_trans h.1 h'.1, h'.2 ∘ h.2⟩
  len := fun h => h.1
  upd := fun _ _ => ⟨by simp [Heap.length_upd], id⟩
  content := ContentInv.true W
  body := fun _ _ _ => ⟨by simp [Heap.length_upd], id⟩
  failed := fun {i s s'} _ h => by
    have hl := h.1
    simp [St.inline] at hl
    exact ⟨by omega, h.2⟩
  inline := fun {i s s'} _ h => by
    have hl := h.1
    simp [St.inline] at hl
    exact ⟨by simp [St.linkInline, Heap.length_upd]; omega, h.2⟩
  failedFile := fun {i s s' path} _ h => by
    have hl := h.1
    simp [St.file] at hl
    exact ⟨by omega, h.2⟩
  file := fun {i s s' path} _ _ h => by
    have hl := h.1
    simp [St.file] at hl
    exact ⟨by simp [St.link, Heap.length_upd]; omega, h.2⟩
  remember := fun {i s s'} path info n hf hn h => ⟨h.1, fun hc => by
    intro e he
    rcases List.mem_cons.1 he with rfl | he
    · exact hQ s path info n hc hf hn
    · exact h.2 hc e (List.mem_filter.1 he).1⟩

theorem loadFile_all {W : World} {Q : Str → Node → Nat → Prop}
    (hQ : ∀ s path info n, CacheAll Q s → W.fs path = some info → nodeOf s path info = .ok n → Q path n info.mtime)
    (n : Nat) (parent : Option Nat) (path : Str) (plugins : List Nat) {s : St} (hs : CacheAll Q s) :
    CacheAll Q (loadFile W n parent path plugins s).2 := by
  have heval : CacheAll Q (evalFile W n parent path plugins s).2 := by
    rcases keeps_file (KeepsAll.inv hQ) n parent path plugins s with ⟨e, h⟩ | h | h | ⟨s', ⟨h1, h2⟩ | ⟨h1, h2, h3⟩⟩
    · rw [h]; exact hs
    · rw [h]; exact hs
    · rw [h]; exact hs
    · rw [h1]; exact h2.2 hs
    · rw [h2]; exact h3.2 hs
  rw [loadFile_run]
  revert heval
  cases evalFile W n parent path plugins s with
  | mk r s' =>
    cases r with
    | ok i =>
      intro heval
      dsimp only
      cases hc : s'.heap.collect n i <;> exact heval
    | _ => exact id

/-- Each entry of the cache was made from one of the past states of the files. -/
def FromPast (past : List Files) (path : Str) (n : Node) (t : Nat) : Prop :=
  ∃ fs ∈ past, ∃ info, fs path = some info ∧ info.mtime = t ∧ parseFile path info = .ok n

theorem parseFile_data {path : Str} {i i' : FileInfo} (h : i.data = i'.data) : parseFile path i = parseFile path i' := by
  rw [parseFile, parseFile, h]

theorem entry_mem {α : Type} {l : List (Str × α)} {p : Str} {a : α} (h : l.lookup p = some a) : (p, a) ∈ l := by
  induction l with
  | nil => cases h
  | cons e l ih =>
    obtain ⟨x, y⟩ := e
    rw [List.lookup_cons] at h
    split at h
    · next e => cases h; rw [beq_iff_eq] at e; subst e; exact List.mem_cons_self
    · exact List.mem_cons_of_mem _ (ih h)

theorem fits_of_past {W : World} {fs : Files} {past : List Files} (hp : ∀ old ∈ past, Later old fs) {s : St}
    (h : CacheAll (FromPast (fs :: past)) s) : Fits (W.on fs) s.cache := by
  intro path info node hf e
  change fs path = some info at hf
  rw [cached] at e
  cases hl : s.cache.lookup path with
  | none => rw [hl] at e; cases e
  | some x =>
    rw [hl] at e
    obtain ⟨m, u⟩ := x
    dsimp only at e
    split at e
    · next hle =>
      cases e
      obtain ⟨fs', hfs', info', h1, h2, h3⟩ := h _ (entry_mem hl)
      dsimp only at h1 h2 h3
      rcases List.mem_cons.1 hfs' with rfl | hmem
      · rw [h1] at hf
        cases hf
        exact h3
      · rcases hp _ hmem path info' info h1 hf with hd | hlt
        · rw [parseFile_data hd]
          exact h3
        · omega
    · cases e

theorem Served.past {W : World} {E : Engine} {input : Str} {past : List Files} {s : St} (h : Served W E input past s) :
    CacheAll (FromPast past) s ∧ ∃ fs old, past = fs :: old ∧ ∀ o ∈ old, Later o fs := by
  induction h with
  | start fs => exact ⟨fun e he => (by cases he), fs, [], rfl, by simp⟩
  | @request fs past s n k path _ ih =>
    obtain ⟨h1, fs', old, h2, h3⟩ := ih
    refine ⟨?_, fs', old, h2, h3⟩
    cases h2
    have := loadFile_all (W := W.on fs) (Q := FromPast (fs :: past)) (fun s path info node hs hf hn => by
      have hfit : Fits (W.on fs) s.cache := fits_of_past h3 hs
      rw [hfit.nodeOf hf] at hn
      exact ⟨fs, by simp, info, hf, rfl, hn⟩) n none input [0] h1
    rw [answer]
    cases requestTag E.ext path with
    | none => exact h1
    | some _ =>
      dsimp only
      revert this
      cases loadFile (W.on fs) n none input [0] s with
      | mk r s' =>
        cases r with
        | ok i =>
          intro this
          dsimp only
          split <;> exact this
        | _ => exact id
  | @edit past s fs _ hl ih =>
    obtain ⟨h1, -⟩ := ih
    refine ⟨fun e he => ?_, fs, past, rfl, hl⟩
    obtain ⟨fs', h4, h5⟩ := h1 e he
    exact ⟨fs', List.mem_cons_of_mem _ h4, h5⟩

theorem Served.fits {W : World} {E : Engine} {input : Str} {fs : Files} {past : List Files} {s : St}
    (h : Served W E input (fs :: past) s) : Fits (W.on fs) s.cache := by
  obtain ⟨h1, fs', old, h2, h3⟩ := h.past
  cases h2
  exact fits_of_past h3 h1

end Booklit
