import Verif.Lemmas.PagesL

/-!
Properties of section trees: C18 (numbers), C19 (queries), C20 (navigation), C21 (tag lookup), C22 (references),
C23 (header levels), C24, C25 (pages and links), C55 (tables of contents).

Throughout, `Book h t` says that the sections in memory form the tree `t`, `Tree.At t ks s` that `s` is the part of
`t` reached through the child positions `ks`, and `Ends f v` that the recursion `f` comes to an end with value `v`.
-/

namespace Booklit.Props

open Booklit Booklit.Tree

/-- A section of the sample book. -/
def sampleSec (name : Str) (parent : Option Nat) (children : List Nat) (split : Bool) : Sec :=
  { Sec.fresh parent [] with
    title := .str name, children := children, split := split, resetDepth := split
    primaryTag := ⟨name, .str name, none, [], .nil, Location.zero⟩
    tags := [⟨name, .str name, none, [], .nil, Location.zero⟩, ⟨q%"dup", .str name, none, [], .nil, Location.zero⟩] }

/-- A book: `a` (split) contains `b` and `e`; `b` contains `c` and `d` (split), which contains `f`. -/
def sampleHeap : Heap := [sampleSec q%"a" none [1, 4] true, sampleSec q%"b" (some 0) [2, 3] false,
  sampleSec q%"c" (some 1) [] false, sampleSec q%"d" (some 1) [5] true, sampleSec q%"e" (some 0) [] false,
  sampleSec q%"f" (some 3) [] false]

def sampleTree : Tree := .node 0 [.node 1 [.node 2 [], .node 3 [.node 5 []]], .node 4 []]

/-- The sample is a book. -/
theorem sampleBook : Book sampleHeap sampleTree := .of_check (by decide) (by decide) (by decide)

/-- **C18.** The number of a section spells its path of 1-based positions from the top, and no two sections of
a book have the same number. -/
theorem C18_numbers {h : Heap} {t : Tree} (b : Book h t) {ks : List Nat} {s : Tree} (hs : At t ks s) :
    Ends (fun n => h.number n s.root) (dotted (ks.map (· + 1))) ∧
    ∀ {ks' : List Nat} {s' : Tree} {v : Str}, At t ks' s' → Ends (fun n => h.number n s.root) v →
      Ends (fun n => h.number n s'.root) v → s'.root = s.root ∧ ks' = ks := by
  refine ⟨number_ends b hs, fun hs' hv hv' => ?_⟩
  have e := dotted_inj (((number_ends b hs').unique hv').trans ((number_ends b hs).unique hv).symm)
  have : ∀ {a b : List Nat}, a.map (· + 1) = b.map (· + 1) → a = b := by
    intro a
    induction a with
    | nil => intro b h; cases b <;> simp at h ⊢
    | cons x a ih =>
      intro b h
      cases b with
      | nil => simp at h
      | cons y b =>
        simp only [List.map_cons, List.cons.injEq] at h
        rw [ih h.2, show x = y by omega]
  have e' := this e
  subst e'
  exact ⟨by rw [hs'.inj hs], rfl⟩

example : At sampleTree [0, 1, 0] (.node 5 []) ∧ sampleHeap.number 9 5 = some q%"1.2.1" ∧
    sampleHeap.number 9 4 = some q%"2" :=
  ⟨.step (.step (.step .here rfl) rfl) rfl, by decide, by decide⟩

/-- **C19.** From every section, `Top` is the top of the book, `Depth` the number of ancestors, `Contains` holds
exactly for the sections below it and itself, and `IsOrHasChild` exactly for itself and its children. -/
theorem C19_tree_queries {h : Heap} {t : Tree} (b : Book h t) {ks : List Nat} {s : Tree} (hs : At t ks s) :
    Ends (fun n => h.top n s.root) t.root ∧
    Ends (fun n => h.depth n s.root) (t.ancestors ks).length ∧
    (∀ {ks' : List Nat} {s' : Tree}, At t ks' s' → ∃ yes : Bool,
      Ends (fun n => h.contains n s.root s'.root) yes ∧ (yes = true ↔ ∃ rest, ks' = ks ++ rest)) ∧
    (∀ {ks' : List Nat} {s' : Tree}, At t ks' s' →
      (h.isOrHasChild s.root s'.root = true ↔ ks' = ks ∨ ∃ k, ks' = ks ++ [k])) := by
  have hanc : (t.ancestors ks).length = ks.length := by
    induction hs with
    | here => rfl
    | step hp hk ih => rw [ancestors_snoc hp _ hk]; simp [ih]
  refine ⟨top_ends b hs, hanc ▸ depth_ends b hs, fun {ks' s'} hs' => ⟨_, contains_ends b s'.root s ⟨_, hs⟩, ?_⟩, fun {ks' s'} hs' => ?_⟩
  · rw [decide_eq_true_iff, mem_ids]
    constructor
    · rintro ⟨r, ⟨rest, hr⟩, e⟩
      exact ⟨rest, (At.unique b.nodup (hs.append hr) hs' e).1.symm⟩
    · rintro ⟨rest, rfl⟩
      obtain ⟨p, hp, hps⟩ := hs'.of_append
      rw [hp.inj hs] at hps
      exact ⟨s', ⟨rest, hps⟩, rfl⟩
  · simp only [Heap.isOrHasChild, Bool.or_eq_true, decide_eq_true_iff, List.contains_iff_mem, b.kid_children hs, List.mem_map]
    constructor
    · rintro (e | ⟨c, hc, e⟩)
      · exact .inl (At.unique b.nodup hs' hs e.symm).1
      · obtain ⟨k, hk, rfl⟩ := List.getElem_of_mem hc
        exact .inr ⟨k, (At.unique b.nodup hs' (.step hs (List.getElem?_eq_getElem hk)) e.symm).1⟩
    · rintro (rfl | ⟨k, rfl⟩)
      · exact .inl (by rw [hs.inj hs'])
      · obtain ⟨p, hp, hps⟩ := hs'.of_append
        rw [hp.inj hs] at hps
        rcases hps.uncons with ⟨e, _⟩ | ⟨k', l, c, e, hc, hl⟩
        · simp at e
        · simp only [List.cons.injEq] at e
          obtain ⟨rfl, rfl⟩ := e
          obtain rfl := hl.inj .here
          exact .inr ⟨_, List.mem_of_getElem? hc, rfl⟩

example : sampleHeap.contains 9 1 5 = some true ∧ sampleHeap.contains 9 4 5 = some false ∧
    sampleHeap.isOrHasChild 1 5 = false ∧ sampleHeap.depth 9 5 = some 3 ∧ sampleHeap.top 9 5 = some 0 := by decide

/-- **C20 (Next).** Following `Next` from the top visits one by one, in document order, exactly the sections all
of whose ancestors are split, each once, and then ends. -/
theorem C20_next_visits {h : Heap} {t : Tree} (b : Book h t) :
    (t.visible h)[0]? = some t.root ∧
    (∀ j i, (t.visible h)[j]? = some i → Ends (fun n => h.next n i) (t.visible h)[j + 1]?) ∧
    (t.visible h).Sublist t.ids ∧ (t.visible h).Nodup ∧
    (∀ i, i ∈ t.visible h ↔ ∃ ks s, At t ks s ∧ s.root = i ∧ ∀ a ∈ t.ancestors ks, (h.get a).split = true) := by
  classical
  refine ⟨by rw [visible_eq]; rfl, fun j i hj => ?_, visible_sublist h t, b.nodup.sublist (visible_sublist h t), fun i =>
    ⟨visible_mem, fun ⟨ks, s, hs, e, ha⟩ => e ▸ mem_visible hs ha⟩⟩
  obtain ⟨ks, s, hs, rfl, -⟩ := visible_mem (List.mem_of_getElem? hj)
  -- the function computed by `Next`
  let f : Nat → Option Nat := fun i =>
    if hx : ∃ v, Ends (fun n => h.next n i) v then Classical.choose hx else none
  have hf : ∀ ks s, At t ks s → f s.root = nextAt h t ks s := by
    intro ks s hs
    have hx : ∃ v, Ends (fun n => h.next n s.root) v := ⟨_, next_ends b hs⟩
    simp only [f, dif_pos hx]
    exact (Classical.choose_spec hx).unique (next_ends b hs)
  have := visible_chain h f none t (fun ks s hs _ => by rw [hf ks s hs]; simp) j s.root hj
  rw [hf ks s hs] at this
  have e := next_ends b hs
  rw [this] at e
  simpa using e

example : sampleTree.visible sampleHeap = [0, 1, 4] ∧ sampleHeap.next 9 0 = some (some 1) ∧
    sampleHeap.next 9 1 = some (some 4) ∧ sampleHeap.next 9 4 = some none := by decide

/-- Going back with `Prev` leads from one section to another. -/
inductive Back (h : Heap) : Nat → Nat → Prop
  | refl (i) : Back h i i
  | step {i j k} : h.prev i = some j → Back h j k → Back h i k

/-- **C20 (Prev).** `Prev` is the preceding sibling, or the parent for a first child, and nil at the top; going
back always arrives at the top. -/
theorem C20_prev {h : Heap} {t : Tree} (b : Book h t) :
    h.prev t.root = none ∧
    (∀ {ks p s}, At t ks p → p.kids[0]? = some s → h.prev s.root = some p.root) ∧
    (∀ {ks p k s s'}, At t ks p → p.kids[k]? = some s → p.kids[k + 1]? = some s' → h.prev s'.root = some s.root) ∧
    (∀ s, t.Sub s → Back h s.root t.root) := by
  refine ⟨by simp [Heap.prev, b.top], fun hp hs => by rw [prev_at b hp hs]; simp,
    fun hp hs hs' => by rw [prev_at b hp hs']; simp [hs], ?_⟩
  rintro s ⟨ks, hs⟩
  induction hs with
  | here => exact .refl _
  | @step ks p k s hp hk ih =>
    induction k generalizing s with
    | zero => exact .step (by rw [prev_at b hp hk]; simp) ih
    | succ k ihk =>
      have hlt : k < p.kids.length := by
        have := (List.getElem?_eq_some_iff.mp hk).1; omega
      have hk' : p.kids[k]? = some p.kids[k] := List.getElem?_eq_getElem hlt
      exact .step (j := p.kids[k].root) (by rw [prev_at b hp hk]; simp [hk']) (ihk hk')

example : sampleHeap.prev 4 = some 1 ∧ sampleHeap.prev 3 = some 2 ∧ sampleHeap.prev 2 = some 1 := by decide

/-- **C21.** `FindTag` finds, from whichever section it is asked, every tag of that name in the whole book
exactly once. -/
theorem C21_find_tag {h : Heap} {t : Tree} (b : Book h t) (s : Tree) (hs : t.Sub s) (name : Str) :
    ∃ r, Ends (fun n => h.findTag n s.root name) r ∧ r.Perm (t.tagsNamed h name) := by
  obtain ⟨ks, hs⟩ := hs
  exact findTag_ends b hs name

example : (sampleHeap.findTag 20 3 q%"e").map (fun l => l.map (·.name)) = some [q%"e"] ∧
    (sampleHeap.findTag 20 3 q%"dup").map List.length = some 6 ∧
    (sampleTree.tagsNamed sampleHeap q%"dup").length = 6 := by decide

/-- **C22.** From every section, a reference to a name resolves to a tag iff that tag is the only one with the
name in the whole book. When there is none it is an unknown-tag error (no tag if the reference is optional), when
there are several it is an ambiguous-reference error listing all of them. -/
theorem C22_references {h : Heap} {t : Tree} (b : Book h t) (s : Tree) (hs : t.Sub s) (name : Str) (optional : Bool) :
    ∃ r, Ends (fun n => h.resolve n s.root name optional) r ∧
      match t.tagsNamed h name with
      | [] => r = if optional then .nothing else .unknown
      | [g] => r = .tag g
      | gs => ∃ ls, r = .ambiguous ls ∧ ls.Perm (gs.map fun g => (g.sec, g.loc)) := by
  obtain ⟨l, hl, hp⟩ := C21_find_tag b s hs name
  generalize t.tagsNamed h name = gs at hp ⊢
  match gs, l, hp with
  | [], l, hp =>
    obtain rfl := List.perm_nil.mp hp
    exact ⟨_, hl.congr fun n hn => by simp [Heap.resolve, hn], rfl⟩
  | [g], l, hp =>
    obtain rfl := List.perm_singleton.mp hp
    exact ⟨_, hl.congr fun n hn => by simp [Heap.resolve, hn], rfl⟩
  | g :: g' :: gs, [], hp => exact absurd hp.length_eq (by simp)
  | g :: g' :: gs, [_], hp => exact absurd hp.length_eq (by simp)
  | g :: g' :: gs, x :: y :: l, hp =>
    exact ⟨_, hl.congr fun n hn => by simp only [Heap.resolve, hn, Option.map_some], _, rfl, hp.map _⟩

example : (sampleTree.tagsNamed sampleHeap q%"f").length = 1 ∧ (sampleTree.tagsNamed sampleHeap q%"zz").length = 0 := by
  decide

/-- **C22.** With broken references allowed, every reference that would fail shows a made-up tag saying so, and
all others are unaffected. -/
theorem C22_allow_broken (h : Heap) (n i : Nat) (name : Str) (optional : Bool) (loc : Location) {r : Resolved}
    (hr : h.resolve n i name optional = some r) :
    h.refTag n false i name optional loc = some r ∧
    ∃ r', h.refTag n true i name optional loc = some r' ∧
      match r with
      | .tag g => r' = .tag g
      | .nothing => r' = .nothing
      | _ => ∃ g, r' = .tag g ∧ g.name = name ∧ g.sec = some i ∧
          g.title = .str (q%"{broken reference: " ++ name ++ q%"}") := by
  cases r <;> simp [Heap.refTag, hr]

/-- **C23.** The header level of a section is between 1 and 6: one plus the number of nearest ancestors that do
not restart the depth, capped at 6. -/
theorem C23_header_levels {h : Heap} {t : Tree} (b : Book h t) {ks : List Nat} {s : Tree} (hs : At t ks s) :
    ∃ l, Ends (fun n => h.headerDepth n s.root) l ∧ 1 ≤ l ∧ l ≤ 6 ∧
      l = min 6 (1 + ((t.ancestors ks).takeWhile fun a => !(h.get a).resetDepth).length) := by
  refine ⟨_, (pageDepth_ends b hs).congr fun n hn => by simp only [Heap.headerDepth, hn, Option.map_some]; rfl, ?_⟩
  generalize ((t.ancestors ks).takeWhile fun a => !(h.get a).resetDepth).length = d
  split <;> omega

example : sampleTree.ancestors [0, 1, 0] = [3, 1, 0] ∧ sampleHeap.headerDepth 9 5 = some 1 ∧
    sampleHeap.headerDepth 9 3 = some 2 := by decide

/-- **C23 (part).** In a book whose sections restart the depth exactly when they are split, the header level is one
plus the number of ancestors on the same page, capped. Missing: sections that restart the depth without being
split, see `C23_false`. -/
theorem C23_depth_within_page_partial {h : Heap} {t : Tree} (b : Book h t) {ks : List Nat} {s : Tree} (hs : At t ks s)
    (hr : ∀ a ∈ t.ancestors ks, (h.get a).resetDepth = (h.get a).split) :
    Ends (fun n => h.headerDepth n s.root)
      (min 6 (1 + ((t.ancestors ks).takeWhile fun a => !(h.get a).split).length)) := by
  obtain ⟨l, hl, -, -, e⟩ := C23_header_levels b hs
  have : ∀ l : List Nat, (∀ a ∈ l, (h.get a).resetDepth = (h.get a).split) →
      (l.takeWhile fun a => !(h.get a).resetDepth) = l.takeWhile fun a => !(h.get a).split := by
    intro l
    induction l with
    | nil => intro _; rfl
    | cons a l ih =>
      intro ha
      rw [List.takeWhile_cons, List.takeWhile_cons, ha a (by simp), ih fun x hx => ha x (by simp [hx])]
  rw [← this _ hr, ← e]
  exact hl

/-- A book with `\single-page` at the top and `\split-sections` in the section below: the section below restarts the
depth although it is not split. -/
def singlePageHeap : Heap := [{ sampleSec q%"a" none [1] false with preventSplit := true },
  { sampleSec q%"b" (some 0) [2] false with resetDepth := true }, sampleSec q%"c" (some 1) [] false]

/-- **C23 fails** as stated: with `\split-sections` below `\single-page` all three sections are on one page, but the
innermost has a first-level header, above its parent's second-level one. -/
theorem C23_false : Book singlePageHeap (.node 0 [.node 1 [.node 2 []]]) ∧ singlePageHeap.shown 20 0 = some [0, 1, 2] ∧
    singlePageHeap.headerDepth 9 1 = some 2 ∧ singlePageHeap.headerDepth 9 2 = some 1 :=
  ⟨.of_check (by decide) (by decide) (by decide), by decide, by decide, by decide⟩

/-- **C24.** Writing the book comes to an end with a list of pages. The URL of any tag of any section names the
file of one of these pages, one that shows the section; the part after `#` is the tag's anchor or, when there is
none and the section is shown inside another section's page, the section's own primary tag. -/
theorem C24_links_to_pages {h : Heap} {t : Tree} (b : Book h t) :
    ∃ ps, Ends (fun n => h.written n t.root) ps ∧
      ∀ s, t.Sub s → ∀ (ext : Str) (g : Tag), g.sec = some s.root →
        ∃ o ∈ ps, ∃ on url, Ends (fun n => h.shown n o) on ∧ s.root ∈ on ∧ Ends (fun n => h.url ext n g) url ∧
          url = (h.get o).primaryTag.name ++ ['.'] ++ ext ++
            (if g.anchor ≠ [] then '#' :: g.anchor
             else if o ≠ s.root ∧ (h.get s.root).primaryTag.name ≠ [] then '#' :: (h.get s.root).primaryTag.name
             else []) := by
  have hw := written_ends b t (Sub.refl t)
  simp only [Heap.isPage, b.top, if_true] at hw
  refine ⟨_, hw, ?_⟩
  rintro s ⟨ks, hs⟩ ext g hg
  obtain ⟨o, h1, h2, h3, -, h5, h6⟩ := owner_ends b hs
  refine ⟨o.root, ?_, o.inlined h, _, shown_ends b o h6, h3 _ (root_inlined h s), ?_, rfl⟩
  · rcases h2 with rfl | h2
    · simp
    · exact List.mem_append_right _ (List.mem_map_of_mem h2)
  · refine (url_ends ext g.anchor h1 h5).congr fun n hn => ?_
    simp only [Heap.url, hg, hn, Heap.fileName]
    by_cases ha : g.anchor = []
    · by_cases ho : o.root = s.root
      · simp [ha, ho]
      · by_cases hp : (h.get s.root).primaryTag.name = []
        · simp [ha, hp]
        · simp [ha, ho, hp]
    · simp [ha]

example : sampleHeap.written 20 0 = some [0, 1, 5, 4] ∧
    sampleHeap.url q%"html" 20 ⟨q%"c", .nil, some 2, [], .nil, Location.zero⟩ = some q%"b.html#c" ∧
    sampleHeap.url q%"html" 20 ⟨q%"x", .nil, some 5, q%"x", .nil, Location.zero⟩ = some q%"f.html#x" := by decide

/-- **C25.** Every section of the book is shown on exactly one of the written pages, and there only once: the
sections shown on the pages are together exactly those of the book. -/
theorem C25_one_page_each {h : Heap} {t : Tree} (b : Book h t) :
    ∃ (ps : List Nat) (on : Nat → List Nat), Ends (fun n => h.written n t.root) ps ∧
      (∀ p ∈ ps, Ends (fun n => h.shown n p) (on p)) ∧
      (ps.flatMap on).Perm t.ids ∧ (ps.flatMap on).Nodup ∧
      (∀ i ∈ t.ids, ∃ p ∈ ps, i ∈ on p ∧ ∀ q ∈ ps, i ∈ on q → q = p) := by
  classical
  have hw := written_ends b t (Sub.refl t)
  simp only [Heap.isPage, b.top, if_true, List.singleton_append] at hw
  let on : Nat → List Nat := fun i =>
    if hx : ∃ v, Ends (fun n => h.shown n i) v then Classical.choose hx else []
  have hon : ∀ s, t.Sub s → on s.root = s.inlined h := by
    intro s hs
    have hx : ∃ v, Ends (fun n => h.shown n s.root) v := ⟨_, shown_ends b s hs⟩
    simp only [on, dif_pos hx]
    exact (Classical.choose_spec hx).unique (shown_ends b s hs)
  have hsub : ∀ p ∈ t.root :: (t.pages h).map root, ∃ s, t.Sub s ∧ s.root = p := by
    intro p hp
    rcases List.mem_cons.mp hp with rfl | hp
    · exact ⟨t, Sub.refl t, rfl⟩
    · obtain ⟨s, hs, rfl⟩ := List.mem_map.mp hp
      exact ⟨s, pages_sub h hs, rfl⟩
  have hflat : (t.root :: (t.pages h).map root).flatMap on = t.inlined h ++ (t.pages h).flatMap fun p => p.inlined h := by
    have aux : ∀ l : List Tree, (∀ s ∈ l, t.Sub s) → (l.map root).flatMap on = l.flatMap fun p => p.inlined h := by
      intro l
      induction l with
      | nil => intro _; rfl
      | cons s l ih =>
        intro hl
        simp only [List.map_cons, List.flatMap_cons]
        rw [hon s (hl s (by simp)), ih fun x hx => hl x (by simp [hx])]
    rw [List.flatMap_cons, hon t (Sub.refl t), aux _ fun s hs => pages_sub h hs]
  have hperm : ((t.root :: (t.pages h).map root).flatMap on).Perm t.ids := hflat ▸ pages_perm h t
  have hnd := hperm.nodup_iff.mpr b.nodup
  refine ⟨_, on, hw, ?_, hperm, hnd, ?_⟩
  · intro p hp
    obtain ⟨s, hs, rfl⟩ := hsub p hp
    rw [hon s hs]; exact shown_ends b s hs
  · intro i hi
    obtain ⟨p, hp, hip⟩ := List.mem_flatMap.mp (hperm.mem_iff.mpr hi)
    refine ⟨p, hp, hip, fun q hq hiq => ?_⟩
    generalize t.root :: (t.pages h).map root = l at hp hq hnd
    clear hperm hflat hsub hw
    induction l with
    | nil => simp at hp
    | cons x l ih =>
      rw [List.flatMap_cons, List.nodup_append] at hnd
      rcases List.mem_cons.mp hp with rfl | hp' <;> rcases List.mem_cons.mp hq with rfl | hq'
      · rfl
      · exact absurd rfl (hnd.2.2 i hip i (List.mem_flatMap.mpr ⟨q, hq', hiq⟩))
      · exact absurd rfl (hnd.2.2 i hiq i (List.mem_flatMap.mpr ⟨p, hp', hip⟩))
      · exact ih hp' hq' hnd.2.1

example : sampleHeap.shown 20 0 = some [0] ∧ sampleHeap.shown 20 1 = some [1, 2, 3] ∧
    sampleHeap.shown 20 5 = some [5] ∧ sampleHeap.shown 20 4 = some [4] := by decide

/-- **C55.** A table of contents lists the sections below in document order, each once, leaving out exactly those
below a section (itself included) that omits its children. -/
theorem C55_toc {h : Heap} {t : Tree} (b : Book h t) (s : Tree) (hs : t.Sub s) :
    ∃ l, Ends (fun n => h.toc n s.root) l ∧ l.Sublist s.ids ∧ l.Nodup ∧
      ∀ ks d, At s ks d → (d.root ∈ l ↔ ks ≠ [] ∧ ∀ a ∈ s.ancestors ks, (h.get a).omitToc = false) := by
  have hsl := listed_sublist h s
  have hn := b.nodup.sublist hs.sublist
  have hsl' : (s.listed h).Sublist s.ids := by rw [ids_eq]; exact hsl.cons _
  exact ⟨_, toc_ends b s hs, hsl', hn.sublist hsl', fun ks d hd => mem_listed hn hd⟩

example : sampleHeap.toc 20 0 = some [1, 2, 3, 5, 4] ∧ sampleHeap.toc 20 1 = some [2, 3, 5] := by decide

/-- **C60**: `HasAnchors` tells whether any of the sections shown together with the section has an anchored tag, and
`AnchorTags` lists a section's anchored tags in order. -/
theorem C60_has_anchors {h : Heap} {t : Tree} (b : Book h t) (s : Tree) (hs : t.Sub s) :
    ∃ on r, Ends (fun n => h.shown n s.root) on ∧ Ends (fun n => h.hasAnchors n s.root) r ∧
      (r = true ↔ ∃ j ∈ on, ∃ g ∈ (h.get j).tags, g.anchor ≠ []) := by
  refine ⟨_, _, shown_ends b s hs, hasAnchors_ends b s hs, ?_⟩
  simp [anchored, hasAnchor_iff]

theorem C60_anchor_tags (h : Heap) (i : Nat) :
    (h.anchorTags i).Sublist (h.get i).tags ∧ ∀ g, g ∈ h.anchorTags i ↔ g ∈ (h.get i).tags ∧ g.anchor ≠ [] := by
  refine ⟨List.filter_sublist, fun g => ?_⟩
  simp [Heap.anchorTags]

/-- A book of three sections: only the second has an anchored tag, and the first is split. -/
def anchorHeap (split : Bool) : Heap :=
  [{ Sec.fresh none [] with children := [1], split := split },
   { Sec.fresh none [] with parent := some 0, children := [2], tags := [⟨q%"x", .nil, some 1, q%"x", .nil, Location.zero⟩] },
   { Sec.fresh none [] with parent := some 1 }]

example : Book (anchorHeap true) (.node 0 [.node 1 [.node 2 []]]) ∧ (anchorHeap true).hasAnchors 9 0 = some false ∧
    (anchorHeap false).hasAnchors 9 0 = some true ∧ (anchorHeap true).hasAnchors 9 1 = some true ∧
    (anchorHeap true).hasAnchors 9 2 = some false :=
  ⟨.of_check (by decide) (by decide) (by decide), by decide, by decide, by decide, by decide⟩

end Booklit.Props
