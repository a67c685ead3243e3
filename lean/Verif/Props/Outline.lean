import Verif.Lemmas.OutlineL
import Verif.Props.Load

/-!
What a document makes: children and plugins (C30, C34), included files (C61), settings (C62).
-/

namespace Booklit.Props

open Booklit

/-- **C30, C34, C61, C62**: the section a file is loaded into is what the calls in the file make of it, and so are its
children, and theirs. -/
theorem C34_outline {W : World} (hW : W.noNodes) {n : Nat} {path : Str} {plugins : List Nat} {s s' : St} {i : Nat}
    (hr : Reach W s) (h0 : plugins.head? = some 0) (hp : path ≠ []) (h : loadFile W n none path plugins s = (.ok i, s')) :
    ∃ node, W.Wrote path node ∧ (s'.heap.get i).path = path ∧ Follows W s'.heap false path plugins i node := by
  obtain ⟨s1, h2, he, hc, rfl⟩ := loadFile_ok h
  obtain ⟨rfl, _, _, _, node, hw, hpath, _, hruns⟩ := file_does hW n hr.sound hr.cacheOk (by intro p h; cases h) h0 hp he
  have m := collect_more n _ _ _ hc
  have hface : ∀ j, (h2.get j).path = (s1.heap.get j).path ∧ (h2.get j).loc = (s1.heap.get j).loc ∧
      (h2.get j).face = (s1.heap.get j).face := by
    intro j
    obtain ⟨gs, e⟩ := m.2 j
    rw [e]
    exact ⟨rfl, rfl, rfl⟩
  refine ⟨node, hw, (hface _).1.trans hpath, ?_⟩
  dsimp only
  rw [Follows, (hface _).2.2]
  exact (hruns false (by simp)).keep (Nat.zero_le _) (by rw [m.1]; exact Nat.le_refl _) fun j _ _ => hface j

/-- **C34**: a section has one child for each call of `\section` and `\include-section` run in it, in this order. The child
of a call starts with the plugins used before the call if it is made by `\section`, with baselit if by `\include-section`,
and is in turn what its argument or file makes of it, below a single page if the section is one, or is below one, when the
child is made. -/
theorem C34_children {W : World} {h : Heap} {up : Bool} {file : Str} {ps : List Nat} {i : Nat} {node : Node}
    (hf : Follows W h up file ps i node) :
    (h.get i).children.length = (node.steps.filter Node.isKid).length ∧
    ∀ pre call post, node.steps = pre ++ call :: post → call.isKid = true →
      ∃ qs c, Uses W (pre.filter Node.isUse) qs ∧ (h.get i).children[(pre.filter Node.isKid).length]? = some c ∧
        IsChild W h (up || pre.any Node.isSingle) file (ps ++ qs) call c := by
  have hp := Runs.plan hf
  have e : stepsAll [node] = node.steps := by simp [stepsAll]
  rw [e] at hp
  refine ⟨?_, fun pre call post h1 h2 => ?_⟩
  · obtain ⟨_, ks, hk, e'⟩ := hp.counts
    have : (h.get i).children = ks := by simpa [Face.start, Sec.face] using e'
    rw [this, hk]
  · obtain ⟨qs, c, hq, hc, hi⟩ := hp.at h1 h2
    exact ⟨qs, c, hq, by simpa [Face.start, Sec.face] using hc, by simpa [Face.start] using hi⟩

/-- **C30**: the plugins of a section are those it started with and then those named by the calls of `\use-plugin` run in
it: not those of its children, which come with their own. -/
theorem C30_plugins {W : World} {h : Heap} {up : Bool} {file : Str} {ps : List Nat} {i : Nat} {node : Node}
    (hf : Follows W h up file ps i node) :
    ∃ qs, Uses W (node.steps.filter Node.isUse) qs ∧ (h.get i).plugins = ps ++ qs := by
  have hp := Runs.plan hf
  have e : stepsAll [node] = node.steps := by simp [stepsAll]
  rw [e] at hp
  exact hp.counts.1

/-- **C30**: an inline section has the plugins its parent used before it, and then its own. -/
theorem C30_inherited {W : World} {h : Heap} {up : Bool} {file : Str} {ps : List Nat} {i : Nat} {node : Node}
    (hf : Follows W h up file ps i node)
    {pre post : List Node} {fn : Str} {a : Node} {loc : Location} (hn : methodName fn = q%"Section")
    (hs : node.steps = pre ++ .invoke fn [a] loc :: post) :
    ∃ before own c, Uses W (pre.filter Node.isUse) before ∧ Uses W (a.steps.filter Node.isUse) own ∧
      (h.get i).children[(pre.filter Node.isKid).length]? = some c ∧ (h.get c).plugins = ps ++ before ++ own := by
  obtain ⟨qs, c, hq, hc, hi⟩ := (C34_children hf).2 _ _ _ hs (by simp [Node.isKid, hn])
  obtain ⟨_, fn', a', loc', e, ⟨_, _, _, hc2⟩ | ⟨h1, _⟩⟩ := hi
  · cases e
    obtain ⟨own, ho, hp⟩ := C30_plugins hc2
    exact ⟨qs, own, c, hq, ho, hc, hp⟩
  · cases e
    rw [hn] at h1
    cases h1

/-- **C61**: an included section comes from the file named, relative to the directory of the including file. -/
theorem C61_relative {W : World} {h : Heap} {up : Bool} {file : Str} {ps : List Nat} {i : Nat} {node : Node}
    (hf : Follows W h up file ps i node)
    {pre post : List Node} {fn : Str} {a : Node} {loc : Location} {name : Str} (hn : methodName fn = q%"IncludeSection")
    (hs : node.steps = pre ++ .invoke fn [a] loc :: post) (ha : a.literal = some name) :
    ∃ c n, (h.get i).children[(pre.filter Node.isKid).length]? = some c ∧ (h.get c).path = joinPath (dirPath file) name ∧
      W.Wrote (joinPath (dirPath file) name) n ∧ Follows W h (up || pre.any Node.isSingle) (joinPath (dirPath file) name) [0] c n := by
  obtain ⟨qs, c, hq, hc, hi⟩ := (C34_children hf).2 _ _ _ hs (by simp [Node.isKid, hn])
  obtain ⟨_, fn', a', loc', e, ⟨h1, _⟩ | ⟨_, p, n, h3, h4, _, h5, h6⟩⟩ := hi
  · cases e
    rw [hn] at h1
    cases h1
  · cases e
    have := h3 _ ha
    subst this
    exact ⟨c, n, hc, h4, h5, h6⟩

/-- **C62**: the flags of a section are set exactly by the calls run in it, and style, title location and partials only
by such calls: not by those in its children or parents. -/
theorem C62_settings {W : World} {h : Heap} {up : Bool} {file : Str} {ps : List Nat} {i : Nat} {node : Node}
    (hf : Follows W h up file ps i node) :
    ((h.get i).preventSplit = true ↔ q%"SinglePage" ∈ node.ran) ∧
    ((h.get i).resetDepth = true ↔ q%"SplitSections" ∈ node.ran) ∧
    ((h.get i).omitToc = true ↔ q%"OmitChildrenFromTableOfContents" ∈ node.ran) ∧
    (q%"Styled" ∉ node.ran → (h.get i).style = []) ∧
    (q%"Title" ∉ node.ran → (h.get i).titleLoc = Location.zero) ∧
    (q%"SetPartial" ∉ node.ran → ∀ name, (h.get i).partialOf name = .nil) := by
  have hp := Runs.flags hf
  have e : ranAll [node] = node.ran := by simp [ranAll]
  rw [e] at hp
  refine ⟨?_, ?_, ?_, hp.style, hp.title, fun hn name => congrFun (hp.parts hn) name⟩
  · have := hp.single; simp only [Sec.face, Face.start, Bool.false_or] at this; rw [this, decide_eq_true_iff]
  · have := hp.resets; simp only [Sec.face, Face.start, Bool.false_or] at this; rw [this, decide_eq_true_iff]
  · have := hp.omits; simp only [Sec.face, Face.start, Bool.false_or] at this; rw [this, decide_eq_true_iff]

/-- Files for the examples. -/
def outlineWorld : World where
  fs := fun p =>
    if p = q%"d/a.lit" then
      some ⟨1, some q%"\\section{A}\n\n\\use-plugin{p}\n\n\\section{\\use-plugin{q}\\ho}\n\n\\include-section{b.lit}\n\n\\section{\n\\styled{x}\n\\omit-children-from-table-of-contents\n}\n\\single-page\n"⟩
    else if p = q%"d/b.lit" then some ⟨1, some q%"\\section{C}"⟩
    else none
  registry := fun n => if n = q%"p" then some 1 else if n = q%"q" then some 2 else none
  foreign := fun p n => if p = 1 ∧ n = q%"Hi" then some ⟨[.content], some .string, fun _ _ _ => .content (.str q%"hi")⟩ else
    if p = 2 ∧ n = q%"Ho" then some ⟨[], none, fun _ _ _ => .content (.str q%"ho")⟩ else none
  brokenOk := false

theorem outlineWorld_noNodes : outlineWorld.noNodes := by
  intro p name f h
  simp only [outlineWorld] at h
  split at h
  · cases h; simp
  · split at h
    · cases h; simp
    · cases h

/-- Loading the example. -/
def outlineLoad : Res Nat × St := loadFile outlineWorld 9 none q%"d/a.lit" [0] ⟨[], []⟩

/-- The example loads, so its root follows the calls in the file: all theorems above apply to it. -/
theorem outline_follows : ∃ i s' node, outlineLoad = (.ok i, s') ∧ outlineWorld.Wrote q%"d/a.lit" node ∧
    Follows outlineWorld s'.heap false q%"d/a.lit" [0] i node := by
  have h : okAnd outlineLoad (fun _ _ => true) = true := by decide +kernel
  cases hl : outlineLoad with
  | mk r s' =>
    rw [hl] at h
    cases r with
    | ok i =>
      obtain ⟨node, hw, _, hf⟩ := C34_outline outlineWorld_noNodes .start rfl (by decide) hl
      exact ⟨i, s', node, rfl, hw, hf⟩
    | err _ => cases h
    | panic => cases h
    | more => cases h

example : ∃ i s' node, outlineLoad = (.ok i, s') ∧ outlineWorld.Wrote q%"d/a.lit" node ∧
    (s'.heap.get i).children.length = (node.steps.filter Node.isKid).length := by
  obtain ⟨i, s', node, h1, h2, h3⟩ := outline_follows
  exact ⟨i, s', node, h1, h2, (C34_children h3).1⟩

/-- Children in order, and their plugins: nothing before `\use-plugin{p}`, inherited and its own, only baselit in an
included file, not those of the sibling. -/
example : okAnd outlineLoad (fun i s => decide (((s.heap.get i).children.map fun c => ((s.heap.get c).path, (s.heap.get c).plugins)) =
    [([], [0]), ([], [0, 1, 2]), (q%"d/b.lit", [0]), ([], [0, 1])])) = true := by decide +kernel

example : okAnd outlineLoad (fun i s => decide (((s.heap.get i).children.map fun c =>
    ((s.heap.get c).style, (s.heap.get c).omitToc, (s.heap.get c).preventSplit)) =
      [([], false, false), ([], false, false), ([], false, false), (q%"x", true, false)]) && (s.heap.get i).preventSplit) = true := by
  decide +kernel

/-- The steps of a document. -/
example : (((Node.seq [.para [[.invoke q%"use-plugin" [.str q%"p"] Location.zero, .str q%" ",
      .invoke q%"bold" [.invoke q%"section" [.invoke q%"use-plugin" [.str q%"q"] Location.zero] Location.zero] Location.zero]],
    .invoke q%"include-section" [.str q%"b.lit"] Location.zero]).steps.map fun
      | .invoke fn _ _ => fn
      | _ => []) : List Str) = [q%"use-plugin", q%"section", q%"include-section"] := by decide +kernel

end Booklit.Props
