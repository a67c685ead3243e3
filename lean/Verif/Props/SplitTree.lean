import Verif.Lemmas.PagedL
import Verif.Props.Outline
import Verif.Props.Section

/-!
C23 and C27 for all sections of a document.
-/

namespace Booklit.Props

open Booklit Booklit.Tree

/-- **C27, exactly, for every section**: a section is split if and only if no section above it had been declared to be a
single page when it was made, and some `\split-sections` in it comes before every `\single-page` in it. -/
theorem C27_sections {W : World} {h : Heap} {up : Bool} {file : Str} {ps : List Nat} {i : Nat} {node : Node}
    (hf : Follows W h up file ps i node) : (h.get i).split = true ↔ up = false ∧ SplitFirst node.pageCalls := by
  have := (Runs.pages hf).splits
  simpa [Face.start, Sec.face, Node.pageCalls.seq] using this

/-- **C27, exactly, for subsections**: whether a section made by `\section` is split depends only on the calls in it and on
`\single-page` having been called before it, in the section around it or above. -/
theorem C27_subsection {W : World} {h : Heap} {up : Bool} {file : Str} {ps : List Nat} {i : Nat} {node : Node}
    (hf : Follows W h up file ps i node) {pre post : List Node} {fn : Str} {a : Node} {loc : Location}
    (hn : methodName fn = q%"Section") (hs : node.steps = pre ++ .invoke fn [a] loc :: post) :
    ∃ c, (h.get i).children[(pre.filter Node.isKid).length]? = some c ∧
      ((h.get c).split = true ↔ up = false ∧ (∀ x ∈ pre, x.isSingle = false) ∧ SplitFirst a.pageCalls) := by
  obtain ⟨qs, c, _, hc, hi⟩ := (C34_children hf).2 _ _ _ hs (by simp [Node.isKid, hn])
  obtain ⟨_, fn', a', loc', e, ⟨_, _, _, hc2⟩ | ⟨h1, _⟩⟩ := hi
  · cases e
    refine ⟨c, hc, ?_⟩
    rw [C27_sections hc2, Bool.or_eq_false_iff, List.any_eq_false, and_assoc]
    simp
  · cases e
    rw [hn] at h1
    cases h1

/-- **C27, exactly, for included files**: whether an included section is split depends only on the calls in its file and on
`\single-page` having been called before it, in the section that includes it or above. -/
theorem C27_included {W : World} {h : Heap} {up : Bool} {file : Str} {ps : List Nat} {i : Nat} {node : Node}
    (hf : Follows W h up file ps i node) {pre post : List Node} {fn : Str} {a : Node} {loc : Location} {name : Str}
    (hn : methodName fn = q%"IncludeSection") (hs : node.steps = pre ++ .invoke fn [a] loc :: post) (ha : a.literal = some name) :
    ∃ c n, (h.get i).children[(pre.filter Node.isKid).length]? = some c ∧ W.Wrote (joinPath (dirPath file) name) n ∧
      ((h.get c).split = true ↔ up = false ∧ (∀ x ∈ pre, x.isSingle = false) ∧ SplitFirst n.pageCalls) := by
  obtain ⟨c, n, hc, _, hw, hfc⟩ := C61_relative hf hn hs ha
  refine ⟨c, n, hc, hw, ?_⟩
  rw [C27_sections hfc, Bool.or_eq_false_iff, List.any_eq_false, and_assoc]
  simp

/-- Every section of a book whose top follows the calls of a file follows the calls it is made of. -/
theorem follows_all {W : World} {h : Heap} {t : Tree} (b : Book h t) {file : Str} {ps : List Nat} {node : Node}
    (hf : Follows W h false file ps t.root node) : ∀ {ks s}, At t ks s →
      ∃ up file ps node, Follows W h up file ps s.root node ∧ (up = true → PageAbove h s.root) := by
  intro ks s hs
  induction hs with
  | here => exact ⟨false, file, ps, node, hf, by simp⟩
  | @step ks p k s hp hk ih =>
    obtain ⟨up, file, ps, node, hf, hup⟩ := ih
    have hch := b.children p ⟨ks, hp⟩
    have hpar := b.parent p ⟨ks, hp⟩ s (List.mem_of_getElem? hk)
    obtain ⟨hlen, hkid⟩ := C34_children hf
    have hkl : k < (node.steps.filter Node.isKid).length := by
      rw [← hlen, hch, List.length_map]
      exact (List.getElem?_eq_some_iff.1 hk).1
    obtain ⟨pre, call, post, e, hc, hl⟩ := filter_at Node.isKid node.steps k hkl
    obtain ⟨qs, c, _, hc', hi⟩ := hkid pre call post e hc
    rw [hl, hch, List.getElem?_map, hk] at hc'
    cases hc'
    have habove : (up || pre.any Node.isSingle) = true → PageAbove h s.root := by
      intro hu
      refine ⟨p.root, hpar, onSinglePage_iff.2 ?_⟩
      cases hup' : up with
      | true => exact .inr (hup hup')
      | false =>
        have hplan := (Runs.plan hf).up_eq
        have e' : stepsAll [node] = node.steps := by simp [stepsAll]
        rw [e', e, hup'] at hplan
        rw [hup'] at hu
        left
        simp only [Face.start, Sec.face, Bool.false_or, List.any_append] at hplan hu
        rw [hplan, hu]
        rfl
    obtain ⟨_, fn', a', loc', -, ⟨_, _, _, hc2⟩ | ⟨_, q, n, _, _, _, _, hc2⟩⟩ := hi
    · exact ⟨_, _, _, _, hc2, habove⟩
    · exact ⟨_, _, _, _, hc2, habove⟩

/-- The ancestors of a section in a book. -/
theorem ancestors_sub {h : Heap} {t : Tree} (b : Book h t) {ks : List Nat} {s : Tree} (hs : At t ks s) :
    ∀ a ∈ t.ancestors ks, ∃ js u, At t js u ∧ u.root = a ∧
      ∀ x ∈ t.ancestors js, x ∈ t.ancestors ks := by
  induction hs with
  | here => intro a ha; simp [ancestors] at ha
  | @step ks p k s hp hk ih =>
    intro a ha
    rw [ancestors_snoc hp k hk] at ha
    rcases List.mem_cons.1 ha with rfl | ha
    · exact ⟨ks, p, hp, rfl, fun x hx => by rw [ancestors_snoc hp k hk]; exact List.mem_cons_of_mem _ hx⟩
    · obtain ⟨js, u, h1, h2, h3⟩ := ih a ha
      exact ⟨js, u, h1, h2, fun x hx => by rw [ancestors_snoc hp k hk]; exact List.mem_cons_of_mem _ (h3 x hx)⟩

/-- **C23, for documents**: after a successful load, the header level of a section is one plus the number of its ancestors
that are on the same page, capped at 6, if `\single-page` is not used above it. Compare `C23_false`. -/
theorem C23_document_partial {W : World} (hW : W.noNodes) {n : Nat} {path : Str} {plugins : List Nat} {s s' : St} {i : Nat}
    (hr : Reach W s) (h0 : plugins.head? = some 0) (hp : path ≠ []) (h : loadFile W n none path plugins s = (.ok i, s')) :
    ∃ t : Tree, t.root = i ∧ Book s'.heap t ∧ ∀ ks u, At t ks u → (∀ a ∈ t.ancestors ks, (s'.heap.get a).preventSplit = false) →
      Ends (fun n => s'.heap.headerDepth n u.root)
        (min 6 (1 + ((t.ancestors ks).takeWhile fun a => !(s'.heap.get a).split).length)) := by
  obtain ⟨t, rfl, b⟩ := C28_loaded_tree h
  obtain ⟨node, _, _, hf⟩ := C34_outline hW hr h0 hp h
  refine ⟨t, rfl, b, fun ks u hu hpre => C23_depth_within_page_partial b hu ?_⟩
  have key : ∀ {ks u}, At t ks u → (∀ a ∈ t.ancestors ks, (s'.heap.get a).preventSplit = false) →
      ¬ PageAbove s'.heap u.root := by
    intro ks u hu
    induction hu with
    | here =>
      rintro _ ⟨p, hp, _⟩
      rw [b.top] at hp
      cases hp
    | @step ks p k s hp hk ih =>
      intro ha
      rw [ancestors_snoc hp k hk] at ha
      rintro ⟨q, hq, ho⟩
      rw [b.parent p ⟨ks, hp⟩ s (List.mem_of_getElem? hk)] at hq
      cases hq
      rcases onSinglePage_iff.1 ho with ho | ho
      · rw [ha _ List.mem_cons_self] at ho
        cases ho
      · exact ih (fun a h => ha a (List.mem_cons_of_mem _ h)) ho
  have each : ∀ {js v}, At t js v → ¬ PageAbove s'.heap v.root → (s'.heap.get v.root).preventSplit = false →
      (s'.heap.get v.root).resetDepth = (s'.heap.get v.root).split := by
    intro js v hv hna hns
    obtain ⟨up, file, ps, nd, hfv, hup⟩ := follows_all b hf hv
    have hu : up = false := by
      cases up with
      | false => rfl
      | true => exact absurd (hup rfl) hna
    have h1 := C27_sections hfv
    have h2 := (Runs.pages hfv).resets
    have h3 := (Runs.pages hfv).single
    simp only [Face.start, Sec.face, Node.pageCalls.seq, List.append_nil, Bool.false_eq_true, false_or] at h2 h3
    rw [hns] at h3
    rw [Bool.eq_iff_iff, h1, h2, hu]
    constructor
    · intro hm
      obtain ⟨x, y, e⟩ := List.append_of_mem hm
      exact ⟨rfl, x, y, e, fun hx => by cases h3.2 (e ▸ List.mem_append_left _ hx)⟩
    · rintro ⟨_, x, y, e, _⟩
      rw [e]
      simp
  intro a ha
  obtain ⟨js, v, hv, rfl, hsub⟩ := ancestors_sub b hu a ha
  exact each hv (key hv fun x hx => hpre x (hsub x hx)) (hpre _ ha)

/-- All theorems of this file apply to the example document. -/
example : ∃ i s' node, outlineLoad = (.ok i, s') ∧ Follows outlineWorld s'.heap false q%"d/a.lit" [0] i node ∧
    ((s'.heap.get i).split = true ↔ SplitFirst node.pageCalls) := by
  obtain ⟨i, s', node, h1, _, h3⟩ := outline_follows
  exact ⟨i, s', node, h1, h3, by simpa using C27_sections h3⟩

/-- A document with split sections before and after `\single-page`, also in an included file. -/
def splitWorld : World where
  fs := fun p =>
    if p = q%"d/a.lit" then
      some ⟨1, some q%"\\section{\\split-sections\n\n\\section{\\section{B}}}\n\n\\include-section{b.lit}\n\n\\single-page\n\n\\section{\\split-sections}\n\n\\include-section{b.lit}\n"⟩
    else if p = q%"d/b.lit" then some ⟨1, some q%"\\split-sections\n\n\\single-page\n\n\\split-sections\n\n\\section{\\split-sections}"⟩
    else if p = q%"d/c.lit" then
      some ⟨1, some q%"\\split-sections\n\n\\section{\\section{\\split-sections\n\n\\section{\\section{D}}}}"⟩
    else none
  registry := fun _ => none
  foreign := fun _ _ => none
  brokenOk := false

/-- The sections before `\single-page` are split, those after are not. -/
example : okAnd (loadFile splitWorld 9 none q%"d/a.lit" [0] ⟨[], []⟩) (fun i s =>
    decide (((s.heap.get i).children.map fun c => ((s.heap.get c).split, (s.heap.get c).resetDepth)) =
      [(true, true), (true, true), (false, true), (false, true)])) = true := by decide +kernel

/-- In the included file the same: its section comes after its `\single-page`. -/
example : okAnd (loadFile splitWorld 9 none q%"d/a.lit" [0] ⟨[], []⟩) (fun i s =>
    decide (((s.heap.get i).children.flatMap fun c => (s.heap.get c).children.map fun d => ((s.heap.get d).split, (s.heap.get d).resetDepth)) =
      [(false, false), (false, true), (false, true)])) = true := by decide +kernel

/-- `C23_document_partial` applies to a document with sections split at two levels. -/
example : ∃ i s', loadFile splitWorld 9 none q%"d/c.lit" [0] ⟨[], []⟩ = (.ok i, s') ∧
    ∃ t : Tree, t.root = i ∧ Book s'.heap t ∧ ∀ ks u, At t ks u → (∀ a ∈ t.ancestors ks, (s'.heap.get a).preventSplit = false) →
      Ends (fun n => s'.heap.headerDepth n u.root)
        (min 6 (1 + ((t.ancestors ks).takeWhile fun a => !(s'.heap.get a).split).length)) := by
  have h : okAnd (loadFile splitWorld 9 none q%"d/c.lit" [0] ⟨[], []⟩) (fun _ _ => true) = true := by decide +kernel
  cases hl : loadFile splitWorld 9 none q%"d/c.lit" [0] ⟨[], []⟩ with
  | mk r s' =>
    rw [hl] at h
    cases r with
    | ok i =>
      exact ⟨i, s', rfl, C23_document_partial (by intro p name f h; cases h) .start rfl (by decide) hl⟩
    | err _ => cases h
    | panic => cases h
    | more => cases h

/-- Its sections, in the order in which they are made: none is a single page; split or not, and the header levels. -/
example : okAnd (loadFile splitWorld 9 none q%"d/c.lit" [0] ⟨[], []⟩) (fun _ s =>
    decide ((s.heap.map fun x => (x.preventSplit, x.split)) =
      [(false, true), (false, false), (false, true), (false, false), (false, false)]) &&
    decide ((List.range 5).map (s.heap.headerDepth 9) = [some 1, some 1, some 2, some 1, some 2])) = true := by decide +kernel

end Booklit.Props
