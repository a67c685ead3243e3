import Verif.Lemmas.ErasedEval
import Verif.Model.Command

/-!
Loading and building without places.
-/

namespace Booklit

/-- A target. -/
def Target.erased (t : Target) : Target := ⟨t.name, Location.zero, t.title.erased, t.content.erased⟩

theorem andThen_erased (a b : Option (List Target)) :
    andThen (a.map (List.map Target.erased)) (b.map (List.map Target.erased)) = (andThen a b).map (List.map Target.erased) := by
  cases a <;> cases b <;> simp [andThen]

theorem targetsL_erased {cs : List Content} (h : ∀ c ∈ cs, targets c.erased = (targets c).map (List.map Target.erased)) :
    targetsL (cs.map Content.erased) = (targetsL cs).map (List.map Target.erased) := by
  induction cs with
  | nil => rfl
  | cons c cs ih => simp only [List.map_cons, targetsL, h c (by simp), ih fun x hx => h x (by simp [hx]), andThen_erased]

theorem targets_erased (c : Content) : targets c.erased = (targets c).map (List.map Target.erased) := by
  induction c using Content.ind with
  | nil | str | ref | sect | toc | image | lazy | target => rfl
  | seq cs ih | para cs ih | pre cs ih | list cs o ih => simpa only [Content.erased, targets, erasedL_eq] using targetsL_erased ih
  | styled st b c ps ih ihp =>
    have hp : targetsP (ps.map fun p => (p.1, p.2.erased)) = (targetsP ps).map (List.map Target.erased) := by
      clear ih
      induction ps with
      | nil => rfl
      | cons p ps ih =>
        obtain ⟨k, v⟩ := p
        have hv := ihp (k, v) (by simp)
        dsimp only at hv
        simp only [List.map_cons, targetsP, erased_isNil, hv, ih fun x hx => ihp x (by simp [hx])]
        rw [← andThen_erased]
        split <;> rfl
    simp only [Content.erased, targets, erasedP_eq, ih, hp, andThen_erased]
  | link c u ih | aux c ih => simpa only [Content.erased, targets] using ih
  | table rs ih =>
    simp only [Content.erased, targets, erasedR_eq]
    induction rs with
    | nil => rfl
    | cons r rs ih' =>
      simp only [List.map_cons, targetsR, targetsL_erased (ih r (by simp)), ih' fun x hx => ih x (by simp [hx]), andThen_erased]
  | defs ds ih =>
    simp only [Content.erased, targets, erasedD_eq]
    induction ds with
    | nil => rfl
    | cons p ds ih' =>
      obtain ⟨a, b⟩ := p
      have hv := ih (a, b) (by simp)
      dsimp only at hv
      simp only [List.map_cons, targetsD, hv.1, hv.2, ih' fun x hx => ih x (by simp [hx]), andThen_erased]

theorem secTargets_erased (x : Sec) : x.erased.targets = x.targets.map (List.map Target.erased) := by
  have : (x.erased.partials.map (·.2)) = (x.partials.map (·.2)).map Content.erased := by simp [Sec.erased, Function.comp_def]
  rw [Sec.targets, Sec.targets, this, targetsL_erased fun c _ => targets_erased c]
  simp only [Sec.erased, targets_erased, andThen_erased]

theorem addTargets_erased (i : Nat) (ts : List Target) : ∀ h : Heap,
    Heap.addTargets h.erased i (ts.map Target.erased) = Heap.erased (h.addTargets i ts) := by
  induction ts with
  | nil => intro h; rfl
  | cons t ts ih =>
    intro h
    simp only [List.map_cons, Heap.addTargets]
    rw [← ih]
    congr 1
    rw [Heap.setTagAnchored, Heap.setTagAnchored]
    refine erased_upd h i fun x => ?_
    simp [Sec.erased, Tag.erased, Target.erased]

theorem collectLoop_erased {v v' : Heap → Nat → Res Heap} (hv : ∀ (h : Heap) i, v' h.erased i = (v h i).erased Heap.erased) (cs : List Nat) :
    ∀ h : Heap, collectLoop v' h.erased cs = (collectLoop v h cs).erased Heap.erased := by
  induction cs with
  | nil => intro h; rfl
  | cons c cs ih =>
    intro h
    simp only [collectLoop, hv]
    exact Res.bind_erased ih

theorem collect_erased : ∀ (n : Nat) (h : Heap) (i : Nat), collectSection n h.erased i = (collectSection n h i).erased Heap.erased := by
  intro n
  induction n with
  | zero => intro h i; rfl
  | succ n ih =>
    intro h i
    rw [collectSection, collectSection, heap_erased h i, secTargets_erased]
    cases (h.get i).targets with
    | none => rfl
    | some ts =>
      simp only [Option.map_some, addTargets_erased]
      exact collectLoop_erased ih _ _

/-- `loadFile` on syntax trees, without a cache. -/
def loadTrees (W : World) (P : Str → Option (Res Node)) (n : Nat) (parent : Option Nat) (path : Str) (plugins : List Nat) : M Nat := do
  let i ← evalTrees W P n parent path plugins
  fun s =>
    match s.heap.collect n i with
    | .ok h => (.ok i, { s with heap := h })
    | .err e => (.err e, s)
    | .panic => (.panic, s)
    | .more => (.more, s)

theorem Fade.loadFile {W : World} (hl : Blind W.foreign) (n : Nat) (parent : Option Nat) (path : Str) (plugins : List Nat) :
    Fade W (fun a b => b = a) (loadFile W n parent path plugins) (loadTrees W.dry (treesOf W.fs) n parent path plugins) := by
  refine (Fade.evalFile hl n parent path plugins).bind fun i j e => ?_
  obtain rfl : i = j := e.symm
  intro s s' hs
  simp only [Heap.collect, hs.heap, collect_erased]
  cases collectSection n s.heap i with
  | ok h => exact ⟨rfl, rfl, hs.fits⟩
  | err e => exact ⟨rfl, hs⟩
  | panic => exact ⟨trivial, hs⟩
  | more => exact ⟨trivial, hs⟩

/-- Results that differ in places only. -/
def Res.Same {α : Type} (r r' : Res α) : Prop := r'.erased id = r.erased id

/-- Heaps that differ in places only. -/
def Heap.Same (h h' : Heap) : Prop := h'.erased = h.erased

/-- Worlds that differ in places in files only. -/
structure World.Same (W W' : World) : Prop where
  files : FilesAlike W.fs W'.fs
  registry : W'.registry = W.registry
  foreign : W'.foreign = W.foreign
  brokenOk : W'.brokenOk = W.brokenOk

theorem load_same {W W' : World} (hl : Blind W.foreign) (hw : W.Same W') {s s' : St} (hs : s.heap.Same s'.heap)
    (hf : Fits W s.cache) (hf' : Fits W' s'.cache) (n : Nat) (parent : Option Nat) (path : Str) (plugins : List Nat) :
    (loadFile W n parent path plugins s).1.Same (loadFile W' n parent path plugins s').1 ∧
    (loadFile W n parent path plugins s).2.heap.Same (loadFile W' n parent path plugins s').2.heap ∧
    Fits W (loadFile W n parent path plugins s).2.cache ∧ Fits W' (loadFile W' n parent path plugins s').2.cache := by
  have hl' : Blind W'.foreign := by rw [hw.foreign]; exact hl
  have a := Fade.loadFile hl n parent path plugins s ⟨s.heap.erased, []⟩ ⟨rfl, hf⟩
  have b := Fade.loadFile hl' n parent path plugins s' ⟨s.heap.erased, []⟩ ⟨hs.symm, hf'⟩
  have e : W'.dry = W.dry := by rw [World.dry, World.dry, hw.registry, hw.foreign, hw.brokenOk]
  rw [e, ← treesOf_alike hw.files] at b
  exact ⟨(Res.Fade.eq (f := id) b.1).symm.trans (Res.Fade.eq (f := id) a.1), b.2.heap.symm.trans a.2.heap, a.2.fits, b.2.fits⟩

section
variable {h h' : Heap} (H : h.Same h')
include H

theorem Heap.Same.sec (i : Nat) : (h'.get i).erased = (h.get i).erased := by
  rw [← heap_erased h i, ← heap_erased h' i, H]

theorem Heap.Same.children (i : Nat) : (h'.get i).children = (h.get i).children := by
  have := congrArg Sec.children (H.sec i)
  exact this

theorem Heap.Same.findTag (n i : Nat) (name : Str) :
    (h'.findTag n i name).map (List.map Tag.erased) = (h.findTag n i name).map (List.map Tag.erased) := by
  rw [← findTag_erased (heap_erased h), ← findTag_erased (heap_erased h'), H]

theorem Heap.Same.text (b : Bool) (n : Nat) {c c' : Content} (hc : c'.erased = c.erased) :
    (h.text b n c).Same (h'.text b n c') := by
  rw [Res.Same, ← heapText_erased (heap_erased h), ← heapText_erased (heap_erased h'), H, hc]

theorem Heap.Same.page (M : Tmpl.Mode) (ts : Templates.TSet) (S : Site) (n i : Nat) :
    (Tmpl.pageWith M ts S h n i).Same (Tmpl.pageWith M ts S h' n i) := by
  rw [Res.Same, ← Tmpl.pageWith_erased S (heap_erased h), ← Tmpl.pageWith_erased S (heap_erased h'), H]

theorem Heap.Same.fileName (ext : Str) (i : Nat) : h'.fileName ext i = h.fileName ext i := by
  have e : (h'.get i).primaryTag.name = (h.get i).primaryTag.name := by
    have := congrArg (fun x => x.primaryTag.name) (H.sec i)
    exact this
  rw [Heap.fileName, Heap.fileName, e]

theorem Heap.Same.isPage (i : Nat) : h'.isPage i = h.isPage i := by
  have hp : (h'.get i).parent = (h.get i).parent := by
    have := congrArg Sec.parent (H.sec i)
    exact this
  rw [Heap.isPage, Heap.isPage, hp]
  cases (h.get i).parent with
  | none => rfl
  | some p =>
    have := congrArg Sec.split (H.sec p)
    exact this

end

end Booklit
