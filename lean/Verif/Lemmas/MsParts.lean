import Verif.Lemmas.MsTitle
import Verif.Lemmas.LinksL

/-!
Evaluation of manuscripts: the sections they become.
-/

namespace Booklit.Ms

open Booklit Booklit.Src

variable {W : World}

/-! ### The sections -/

/-- The tag of a target in section `i`. -/
def MarkIs (i : Nat) (m : Str × Str) (g : Tag) : Prop :=
  ∃ (ss : List Str) (l : Location), m.1 ≠ [] ∧ ss ≠ [] ∧ ss.flatten = m.2 ∧ g = ⟨m.1, oneBody (ss.map .str), some i, m.1, .nil, l⟩

/-- The tags of a section, before and after the targets in its text have been collected. -/
def Tagged (f : Bool) (x : Sec) (p : Part) (i : Nat) : Prop :=
  match f with
  | false => ∃ l, x.tags = p.tags.map fun g => ⟨g, x.title, some i, [], .nil, l⟩
  | true => ∃ l gs, x.tags = (p.tags.map fun g => ⟨g, x.title, some i, [], .nil, l⟩) ++ gs ∧ All2 (MarkIs i) (marksBlks p.body) gs

/-- The section that part `p` becomes, without its body. -/
structure Shape (f : Bool) (x : Sec) (par : Option Nat) (p : Part) (i : Nat) (kids : List Nat) : Prop where
  parent : x.parent = par
  title : titleOk p.title ∧ ∃ cs, cs ≠ [] ∧ TitlesIs p.title cs ∧ x.title = oneBody cs
  tag : ∃ l, x.primaryTag = ⟨p.name, x.title, some i, [], .nil, l⟩
  tags : Tagged f x p i
  split : x.split = p.split
  resetDepth : x.resetDepth = p.split
  omitToc : x.omitToc = p.hide
  style : x.style = []
  partials : x.partials = []
  children : x.children = kids

/-- The body. -/
def Bodied (x : Sec) (p : Part) (i : Nat) : Prop :=
  (p.body = [] ∧ x.body = .str []) ∨ ∃ cs, cs ≠ [] ∧ BlksIs i p.body cs ∧ x.body = oneBody cs

mutual
inductive Made (f : Bool) (h : Heap) : Option Nat → Part → Tree → Prop
  | mk {par : Option Nat} {p : Part} {i : Nat} {kids : List Tree} : i < h.length → Shape f (h.get i) par p i (kids.map Tree.root) →
      Bodied (h.get i) p i → MadeL f h (some i) p.subs kids → Made f h par p (.node i kids)
inductive MadeL (f : Bool) (h : Heap) : Option Nat → List Part → List Tree → Prop
  | nil {par : Option Nat} : MadeL f h par [] []
  | cons {par : Option Nat} {p : Part} {ps : List Part} {t : Tree} {ts : List Tree} : Made f h par p t → MadeL f h par ps ts →
      MadeL f h par (p :: ps) (t :: ts)
end

mutual
theorem Made.keep {f : Bool} {h h' : Heap} (hl : h.length ≤ h'.length) : ∀ {par : Option Nat} {p : Part} {t : Tree}, Made f h par p t →
    (∀ j ∈ t.ids, h'.get j = h.get j) → Made f h' par p t
  | par, p, .node i kids, .mk h1 h2 h3 h4, e => by
    have ei := e i (by simp [Tree.ids])
    refine .mk (by omega) (by rw [ei]; exact h2) (by rw [ei]; exact h3) (h4.keep hl fun j hj => e j (by simp [Tree.ids, hj]))
theorem MadeL.keep {f : Bool} {h h' : Heap} (hl : h.length ≤ h'.length) : ∀ {par : Option Nat} {ps : List Part} {ts : List Tree}, MadeL f h par ps ts →
    (∀ j ∈ Tree.idsL ts, h'.get j = h.get j) → MadeL f h' par ps ts
  | _, _, _, .nil, _ => .nil
  | _, _, _, .cons h1 h2, e => .cons (h1.keep hl fun j hj => e j (by simp [Tree.idsL, hj]))
      (h2.keep hl fun j hj => e j (by simp [Tree.idsL, hj]))
end

/-! ### Growing heaps -/

/-- Sections have been added, and of the ones before only `i` has changed. -/
structure Wider (i : Nat) (s s' : St) : Prop where
  len : s.heap.length ≤ s'.heap.length
  same : ∀ j, j < s.heap.length → j ≠ i → s'.heap.get j = s.heap.get j
  calm : Calm s'.heap
  plugins : (s'.heap.get i).plugins = (s.heap.get i).plugins

theorem Wider.ready {i : Nat} {s s' : St} (h : Wider i s s') (r : Ready s i) : Ready s' i :=
  ⟨h.calm, by rw [h.plugins]; exact r.base, by have := r.lt; have := h.len; omega⟩

theorem Wider.trans {i : Nat} {a b c : St} (h1 : Wider i a b) (h2 : Wider i b c) : Wider i a c :=
  ⟨Nat.le_trans h1.len h2.len, fun j hj hi => by rw [h2.same j (by have := h1.len; omega) hi, h1.same j hj hi], h2.calm,
    h2.plugins.trans h1.plugins⟩

theorem Wider.refl {i : Nat} {s : St} (h : Calm s.heap) : Wider i s s := ⟨Nat.le_refl _, fun _ _ _ => rfl, h, rfl⟩

theorem Calm.upd {h : Heap} (hc : Calm h) (i : Nat) (f : Sec → Sec) (h1 : ∀ x, (f x).preventSplit = x.preventSplit)
    (h2 : ∀ x, (f x).parent = x.parent) : Calm (h.upd i f) := by
  intro j
  rw [Heap.get_field h i j f Sec.preventSplit h1, Heap.get_field h i j f Sec.parent h2]
  exact hc j

theorem Wider.upd {i : Nat} {s : St} (hc : Calm s.heap) (f : Sec → Sec) (h1 : ∀ x, (f x).preventSplit = x.preventSplit)
    (h2 : ∀ x, (f x).parent = x.parent) (h3 : ∀ x, (f x).plugins = x.plugins) : Wider i s { s with heap := s.heap.upd i f } :=
  ⟨by simp [Heap.length_upd], fun j _ hj => Heap.get_upd_ne _ _ hj, hc.upd i f h1 h2, Heap.get_field _ i i f Sec.plugins h3⟩

theorem Touch.wider {i : Nat} {s s' : St} (h : Touch i s s') (hc : Calm s.heap) : Wider i s s' := by
  rcases h with rfl | ⟨l, rfl⟩
  · exact .refl hc
  · exact .upd hc _ (fun _ => rfl) (fun _ => rfl) fun _ => rfl

theorem Calm.append {h : Heap} (hc : Calm h) {x : Sec} (h1 : x.preventSplit = false) (h2 : ∀ p, x.parent = some p → p < h.length) :
    Calm (h ++ [x] : Heap) := by
  intro j
  by_cases hj : j < h.length
  · rw [Heap.get_append_lt _ _ hj]
    exact hc j
  · by_cases hj' : j = h.length
    · subst hj'
      rw [Heap.get_append_eq]
      exact ⟨h1, h2⟩
    · rw [Heap.get_out (by simp; omega)]
      exact ⟨rfl, fun p hp => by cases hp⟩

/-! ### Calls that change the section -/

/-- The state after `\title`. -/
def titled (s : St) (i : Nat) (l : Location) (t : Content) (names : List Str) : St :=
  { s with heap := s.heap.upd i fun x => { x with
    invokeLoc := l, title := t, titleLoc := l, tags := names.map fun g => ⟨g, t, some i, [], .nil, l⟩,
    primaryTag := (names.map fun g => (⟨g, t, some i, [], .nil, l⟩ : Tag)).headD Tag.zero } }

/-- The names given to a section. -/
theorem convertNames {k : Nat} {inc : Inc} {i : Nat} {s : St} : ∀ {tags : List Str} {as : List Node}, (∀ g ∈ tags, oneLine g) →
    as.map Node.erase = treeArgs (tags.map fun g => argOf (wordsOf [] g)) →
    ∃ vs, convertAll W k i [] (some .string) (evalArgs W k inc as) s = (.ok vs, s) ∧ vs.any ArgV.isZero = false ∧ strArgs vs = tags
  | [], as, _, e => by
    rw [List.map_nil, treeArgs, List.map_eq_nil_iff] at e
    subst e
    exact ⟨[], rfl, rfl, rfl⟩
  | g :: gs, as, h, e => by
    rw [List.map_cons, treeArgs, List.map_eq_cons_iff] at e
    obtain ⟨a, as, rfl, e1, e2⟩ := e
    obtain ⟨vs, h1, h2, h3⟩ : ∃ vs, convertAll W k i [] (some .string) (evalArgs W k inc as) s = (.ok vs, s) ∧ _ := convertNames (fun g h' => h g (List.mem_cons_of_mem _ h')) e2
    refine ⟨.str g :: vs, ?_, by rw [List.any_cons, h2]; rfl, by rw [strArgs, h3]⟩
    simp only [evalArgs, convertAll, M.bind_run, M.bind, convert_text (h g List.mem_cons_self).1 e1, h1, M.pure_run]

theorem evalTitle {k : Nat} {inc : Inc} {i : Nat} {n : Node} {title : List Span} {tags : List Str} {r : Content} {s : St} (rd : Ready s i)
    (hb : (s.heap.get i).title = .str []) (e : n.erase = (titlePara title tags).tree) (h1 : titleOk title) (h2 : ∀ g ∈ tags, oneLine g) :
    ∃ cs l, cs ≠ [] ∧ TitlesIs title cs ∧ evalNode W k inc n i r s =
      (.ok r, titled s i l (oneBody cs) (tagsOr title tags)) := by
  replace e := callPara_nodes e
  obtain ⟨bs, loc, rfl, e⟩ := e
  rw [eraseL_map, treeArgs, List.map_eq_cons_iff] at e
  obtain ⟨a, as, rfl, e1, e2⟩ := e
  replace e1 := arg_seq (words_ne h1.1.1 h1.1.2.2) e1
  obtain ⟨ms, rfl, e1⟩ := e1
  obtain ⟨cs, s1, g1, g2, g3⟩ := evalSpans (W := W) (k := k) (inc := inc) (i := i) h1.1.2.2 e1 (s := s.calling i loc) (cs0 := [])
    ((Touch.call i s loc).ready rd) (by intro c hc; cases hc)
  rw [List.nil_append] at g1
  have hne := g3.ne h1.1.1
  have ht := g3.titles h1.2.2
  have hs3 : convert W k i .content (.seq ms, evalNode W k inc (.seq ms)) (s.calling i loc) = (.ok (.content (oneBody cs)), s1) :=
    convert_content (by rw [evalNode]; exact g1) (oneBody_notNil g3.items hne)
  obtain ⟨l, rfl⟩ : ∃ l, s1 = s.calling i l := by
    rcases g2 with rfl | ⟨l, rfl⟩
    · exact ⟨loc, rfl⟩
    · exact ⟨l, by simp only [St.calling, Heap_upd_upd]⟩
  refine ⟨cs, l, hne, ht, callPara_none ?_⟩
  have hget : (s.calling i l).heap.get i = { s.heap.get i with invokeLoc := l } := Heap.get_upd_eq _ _ rd.lt
  have hnames : ∃ vs, convertAll W k i [] (some .string) (evalArgs W k inc as) (s.calling i l) = (.ok vs, s.calling i l) ∧
      vs.any ArgV.isZero = false ∧ titleNames W k (oneBody cs) (strArgs vs) (s.calling i l) =
        (.ok (tagsOr title tags), s.calling i l) := by
    obtain ⟨vs, h3, h4, h5⟩ := convertNames (W := W) (k := k) (inc := inc) (i := i) (s := s.calling i l) h2 e2
    refine ⟨vs, h3, h4, ?_⟩
    rw [h5]
    cases tags with
    | nil =>
      obtain ⟨ds, d1, d2⟩ := ht.strip h1.2.2
      obtain ⟨d, hst, hw⟩ := Whole.strip (Or.inl ⟨hne, rfl⟩) (ht.lone h1.2.1) d1
      have hd : defaultTag W k (oneBody cs) (s.calling i l) = (.ok (slug (plainSpans (essence title))), s.calling i l) := by
        rw [defaultTag, hst]
        simp only [d2.text hw]
        rfl
      rw [titleNames, if_pos rfl]
      simp only [M.bind_run, M.bind, hd, M.pure_run, tagsOr]
    | cons g gs => rfl
  obtain ⟨vs, hv, hz, hnm⟩ := hnames
  obtain ⟨path, ee⟩ := invoke_base (W := W) (k := k) (inc := inc) (fn := q%"title") (args := .seq ms :: as) (loc := loc) (r := .nil) rd (b := .title)
    (by decide) (by simp [arityOk, Base.sig]) (vals := .content (oneBody cs) :: vs) (s1 := s.calling i l)
    (by simp only [Base.sig, evalArgs, convertAll, M.bind_run, M.bind, hs3, hv, M.pure_run])
    (by rw [List.any_cons, hz]; rfl) (ret := .error none) (s2 := titled s i l (oneBody cs) (tagsOr title tags)) (by
      rw [callBase]
      simp only [M.bind_run, M.bind, M.get]
      rw [hget, if_pos (by show (s.heap.get i).title.isEmpty = true; rw [hb]; rfl)]
      simp only [M.bind_run, M.bind, hnm, setTitle, M.upd, M.pure_run]
      simp only [titled, St.calling, Heap_upd_upd])
  rw [ee]
  rfl

/-- The state after `\split-sections`. -/
def splitted (s : St) (i : Nat) (l : Location) : St :=
  { s with heap := s.heap.upd i fun x => { x with invokeLoc := l, resetDepth := true, split := true } }

theorem evalSplit {k : Nat} {inc : Inc} {i : Nat} {n : Node} {r : Content} {s : St} (rd : Ready s i)
    (e : n.erase = (callPara q%"split-sections" []).tree) :
    ∃ l, evalNode W k inc n i r s = (.ok r, splitted s i l) := by
  replace e := callPara_nodes e
  obtain ⟨bs, loc, rfl, e⟩ := e
  rw [eraseL_map, treeArgs, List.map_eq_nil_iff] at e
  subst e
  refine ⟨loc, callPara_none ?_⟩
  have hc : Calm ((s.heap.upd i fun x => { x with invokeLoc := loc }).upd i fun x => { x with resetDepth := true }) := by
    refine Calm.upd (Calm.upd rd.calm i _ ?_ ?_) i _ ?_ ?_ <;> intro _ <;> rfl
  have hp := hc.prevented (((s.heap.upd i fun x => { x with invokeLoc := loc }).upd i fun x => { x with resetDepth := true }).length + 1) i
    (by simp only [Heap.length_upd]; have := rd.lt; omega)
  obtain ⟨path, ee⟩ := invoke_base (W := W) (k := k) (inc := inc) (fn := q%"split-sections") (args := []) (loc := loc) (r := .nil) rd
    (b := .splitSections) (by decide) rfl (vals := []) (s1 := s.calling i loc) rfl rfl (ret := .nothing) (s2 := splitted s i loc) (by
      simp only [callBase, M.bind_run, M.bind, M.get, M.upd, M.lift, St.calling, hp, Res.ofFuel]
      rw [if_neg (by simp)]
      simp only [M.bind_run, M.bind, M.upd, M.pure_run, splitted, Heap_upd_upd])
  rw [ee]
  rfl

/-- The state after `\omit-children-from-table-of-contents`. -/
def hidden (s : St) (i : Nat) (l : Location) : St :=
  { s with heap := s.heap.upd i fun x => { x with invokeLoc := l, omitToc := true } }

theorem evalHide {k : Nat} {inc : Inc} {i : Nat} {n : Node} {r : Content} {s : St} (rd : Ready s i)
    (e : n.erase = (callPara q%"omit-children-from-table-of-contents" []).tree) :
    ∃ l, evalNode W k inc n i r s = (.ok r, hidden s i l) := by
  replace e := callPara_nodes e
  obtain ⟨bs, loc, rfl, e⟩ := e
  rw [eraseL_map, treeArgs, List.map_eq_nil_iff] at e
  subst e
  refine ⟨loc, callPara_none ?_⟩
  obtain ⟨path, ee⟩ := invoke_base (W := W) (k := k) (inc := inc) (fn := q%"omit-children-from-table-of-contents") (args := []) (loc := loc)
    (r := .nil) rd (b := .omitChildren) (by decide) rfl (vals := []) (s1 := s.calling i loc) rfl rfl (ret := .nothing) (s2 := hidden s i loc) (by
      simp only [callBase, M.bind_run, M.bind, M.upd, St.calling, M.pure_run, hidden, Heap_upd_upd])
  rw [ee]
  rfl

theorem upd_here (h : Heap) (i : Nat) {f : Sec → Sec} (hf : f (h.get i) = h.get i) : h.upd i f = h := by
  refine List.ext_getElem? fun n => ?_
  rw [Heap.upd, List.getElem?_modify]
  by_cases e : i = n
  · subst e
    cases g : h[i]? with
    | none => rfl
    | some x =>
      have : h.get i = x := by rw [Heap.get, List.getD_eq_getElem?_getD, g]; rfl
      rw [this] at hf
      simp [hf]
  · simp [e]

/-- The state after the settings of a section. -/
def settled (s : St) (i : Nat) (split hide : Bool) (l : Location) : St :=
  { s with heap := s.heap.upd i fun x => { x with
      invokeLoc := l, resetDepth := x.resetDepth || split, split := x.split || split, omitToc := x.omitToc || hide } }

theorem evalSettings {k : Nat} {inc : Inc} {i : Nat} {ns : List Node} {r : Content} {s : St} {split hide : Bool} (rd : Ready s i)
    (e : eraseL ns = treeParas (settings split hide)) : ∃ l, evalSeq W k inc ns i r s = (.ok r, settled s i split hide l) := by
  rw [eraseL_map] at e
  have hw : ∀ l, Wider i s (splitted s i l) := fun l => .upd rd.calm _ (fun _ => rfl) (fun _ => rfl) fun _ => rfl
  cases split with
  | false =>
    cases hide with
    | false =>
      simp only [settings, Bool.false_eq_true, if_false, List.append_nil, treeParas, List.map_eq_nil_iff] at e
      subst e
      refine ⟨(s.heap.get i).invokeLoc, ?_⟩
      have : settled s i false false (s.heap.get i).invokeLoc = s := by
        simp only [settled, Bool.or_false]
        exact congrArg (St.mk · s.cache) (upd_here _ _ rfl)
      rw [this]
      rfl
    | true =>
      simp only [settings, Bool.false_eq_true, if_false, if_true, List.nil_append, treeParas, List.map_eq_singleton_iff] at e
      obtain ⟨m, rfl, e⟩ := e
      obtain ⟨l, h1⟩ := evalHide (W := W) (k := k) (inc := inc) (r := r) rd e
      refine ⟨l, ?_⟩
      simp only [evalSeq, M.bind_run, M.bind, h1, M.pure_run, hidden, settled, Bool.or_false, Bool.or_true]
  | true =>
    cases hide with
    | false =>
      simp only [settings, Bool.false_eq_true, if_false, if_true, List.append_nil, treeParas, List.map_eq_singleton_iff] at e
      obtain ⟨m, rfl, e⟩ := e
      obtain ⟨l, h1⟩ := evalSplit (W := W) (k := k) (inc := inc) (r := r) rd e
      refine ⟨l, ?_⟩
      simp only [evalSeq, M.bind_run, M.bind, h1, M.pure_run, splitted, settled, Bool.or_false, Bool.or_true]
    | true =>
      simp only [settings, if_true, List.cons_append, List.nil_append, treeParas, List.map_eq_cons_iff, List.map_eq_nil_iff] at e
      obtain ⟨m, _, rfl, e, m', _, rfl, e', rfl⟩ := e
      obtain ⟨l, h1⟩ := evalSplit (W := W) (k := k) (inc := inc) (r := r) rd e
      obtain ⟨l', h2⟩ := evalHide (W := W) (k := k) (inc := inc) (r := r) ((hw l).ready rd) e'
      refine ⟨l', ?_⟩
      simp only [evalSeq, M.bind_run, M.bind, h1]
      rw [h2]
      simp only [M.pure_run, hidden, splitted, settled, Bool.or_true, Heap_upd_upd]

/-! ### Sections -/

/-- A new section. -/
def fresh (par : Option Nat) (path : Str) (plugins : List Nat) : Sec := { Sec.fresh par path with plugins := plugins }

theorem treeParas_app (a b : List Para) : treeParas (a ++ b) = treeParas a ++ treeParas b := by
  induction a with
  | nil => rfl
  | cons p a ih => simp [treeParas, ih]

/-- The state in which the text of a section in `i` is evaluated. -/
def opened (s : St) (i : Nat) : St := { s with heap := s.heap ++ [fresh (some i) [] (s.heap.get i).plugins] }

/-- The state after a section in `i`, whose number is `c`, has been evaluated to `r`. -/
def closed (s : St) (i c : Nat) (r : Content) : St :=
  let s1 := if r.isNil then s else { s with heap := s.heap.upd c fun x => { x with body := r } }
  let s2 : St := { s1 with heap := s1.heap.upd c fun x => { x with loc := (s1.heap.get i).invokeLoc } }
  { s2 with heap := s2.heap.upd i fun x => { x with children := x.children ++ [c] } }

theorem evalInline_run {i : Nat} {ev : Ev} {r : Content} {s s' : St} (h : ev s.heap.length .nil (opened s i) = (.ok r, s')) :
    evalInline i ev s = (.ok (), closed s' i s.heap.length r) := by
  have h' : ev s.heap.length .nil { s with heap := s.heap ++ [{ Sec.fresh (some i) [] with plugins := (s.heap.get i).plugins }] } =
    (.ok r, s') := h
  simp only [evalInline, M.bind_run, M.bind, M.get, M.alloc, evalBody, h', closed]
  cases r.isNil <;> rfl

theorem section_run {k : Nat} {inc : Inc} {i : Nat} {a : Node} {loc : Location} {r c : Content} {s s' : St} (rd : Ready s i)
    (h : evalNode W k inc a s.heap.length .nil (opened (s.calling i loc) i) = (.ok c, s')) :
    evalNode W k inc (.para [[.invoke q%"section" [a] loc]]) i r s = (.ok r, closed s' i s.heap.length c) := by
  refine callPara_none ?_
  have hl := St.length_calling s i loc
  rw [← hl] at h
  obtain ⟨path, ee⟩ := invoke_base (W := W) (k := k) (inc := inc) (fn := q%"section") (args := [a]) (loc := loc) (r := .nil) rd
    (b := .section) (by decide) rfl (vals := [.node a (evalNode W k inc a)]) (s1 := s.calling i loc) rfl rfl (ret := .error none)
    (s2 := closed s' i s.heap.length c) (by
      simp only [callBase, M.bind_run, M.bind, M.attempt, evalInline_run h, M.pure_run, hl])
  rw [ee]
  rfl

/-- The sections that have been made are the new ones, each in one place. -/
structure New (n m : Nat) (ts : List Tree) : Prop where
  ids : ∀ j, j ∈ Tree.idsL ts ↔ n ≤ j ∧ j < m
  nodup : (Tree.idsL ts).Nodup

theorem closed_length (s : St) (i c : Nat) (r : Content) : (closed s i c r).heap.length = s.heap.length := by
  simp only [closed, Heap.length_upd]
  split
  · rfl
  · exact Heap.length_upd ..

theorem closed_other {s : St} {i c : Nat} {r : Content} {j : Nat} (h1 : j ≠ i) (h2 : j ≠ c) :
    (closed s i c r).heap.get j = s.heap.get j := by
  simp only [closed]
  rw [Heap.get_upd_ne _ _ h1, Heap.get_upd_ne _ _ h2]
  split
  · rfl
  · exact Heap.get_upd_ne _ _ h2

theorem closed_outer {s : St} {i c : Nat} {r : Content} (hi : i < s.heap.length) (h2 : i ≠ c) :
    (closed s i c r).heap.get i = { s.heap.get i with children := (s.heap.get i).children ++ [c] } := by
  simp only [closed]
  split
  · rw [Heap.get_upd_eq _ _ (by simp only [Heap.length_upd]; exact hi), Heap.get_upd_ne _ _ h2]
  · rw [Heap.get_upd_eq _ _ (by simp only [Heap.length_upd]; exact hi), Heap.get_upd_ne _ _ h2, Heap.get_upd_ne _ _ h2]

theorem closed_inner {s : St} {i c : Nat} {r : Content} (hc : c < s.heap.length) (h2 : c ≠ i) :
    ∃ l, (closed s i c r).heap.get c = { s.heap.get c with body := if r.isNil then (s.heap.get c).body else r, loc := l } := by
  simp only [closed]
  split
  · rename_i hr
    rw [Heap.get_upd_ne _ _ h2, Heap.get_upd_eq _ _ hc]
    exact ⟨_, rfl⟩
  · rename_i hr
    rw [Heap.get_upd_ne _ _ h2, Heap.get_upd_eq _ _ (by simp only [Heap.length_upd]; exact hc), Heap.get_upd_eq _ _ hc]
    exact ⟨_, rfl⟩

theorem closed_calm {s : St} {i c : Nat} {r : Content} (h : Calm s.heap) : Calm (closed s i c r).heap := by
  simp only [closed]
  refine Calm.upd (Calm.upd ?_ _ _ ?_ ?_) _ _ ?_ ?_
  · split
    · exact h
    · refine h.upd _ _ ?_ ?_ <;> intro _ <;> rfl
  all_goals exact fun _ => rfl

theorem Shape.loc {f : Bool} {x : Sec} {par : Option Nat} {p : Part} {i : Nat} {kids : List Nat} (h : Shape f x par p i kids) (b : Content) (l : Location) :
    Shape f { x with body := b, loc := l } par p i kids :=
  ⟨h.parent, h.title, h.tag, by cases f <;> exact h.tags, h.split, h.resetDepth, h.omitToc, h.style, h.partials, h.children⟩

theorem Shape.body {f : Bool} {x : Sec} {par : Option Nat} {p : Part} {i : Nat} {kids : List Nat} (h : Shape f x par p i kids) (b : Content) :
    Shape f { x with body := b } par p i kids :=
  ⟨h.parent, h.title, h.tag, by cases f <;> exact h.tags, h.split, h.resetDepth, h.omitToc, h.style, h.partials, h.children⟩

mutual
theorem evalPart {k : Nat} {inc : Inc} : ∀ {p : Part}, p.ok → ∀ {ns : List Node}, eraseL ns = treeParas p.sur →
    ∀ {i : Nat} {s : St} {par : Option Nat} {path : Str} {ps : List Nat}, Ready s i → s.heap.get i = fresh par path ps →
    ∃ cs kids s', evalSeq W k inc ns i .nil s = (.ok (oneBody cs), s') ∧ BlksIs i p.body cs ∧ Wider i s s' ∧
      Shape false (s'.heap.get i) par p i (kids.map Tree.root) ∧ (s'.heap.get i).body = .str [] ∧ MadeL false s'.heap (some i) p.subs kids ∧
      New s.heap.length s'.heap.length kids
  | .mk title tags split hide body subs, h, ns, e, i, s, par, path, ps, rd, hf => by
    obtain ⟨o1, o2, o3, o4⟩ := h
    rw [Part.sur, treeParas, eraseL_map, List.map_eq_cons_iff] at e
    obtain ⟨n, ns, rfl, e1, e⟩ := e
    rw [treeParas_app, treeParas_app, List.map_eq_append_iff] at e
    obtain ⟨ns1, ns', rfl, e2, e⟩ := e
    rw [List.map_eq_append_iff] at e
    obtain ⟨ns2, ns3, rfl, e3, e4⟩ := e
    have lt := rd.lt
    -- the title
    obtain ⟨ts, l, t1, t2, t3⟩ := evalTitle (W := W) (k := k) (inc := inc) (r := .nil) rd (by rw [hf]; rfl) e1 o1 o2
    have w1 : Wider i s (titled s i l (oneBody ts) (tagsOr title tags)) :=
      .upd rd.calm _ (fun _ => rfl) (fun _ => rfl) fun _ => rfl
    have g1 : (titled s i l (oneBody ts) (tagsOr title tags)).heap.get i = _ := Heap.get_upd_eq _ _ lt
    have len1 : (titled s i l (oneBody ts) (tagsOr title tags)).heap.length = s.heap.length := Heap.length_upd ..
    rw [hf] at g1
    -- the settings
    have hsplit : ∃ s2, evalSeq W k inc ns1 i .nil (titled s i l (oneBody ts) (tagsOr title tags)) = (.ok .nil, s2) ∧
        Wider i s s2 ∧ s2.heap.length = s.heap.length ∧ (s2.heap.get i).body = .str [] ∧
        Shape false (s2.heap.get i) par (.mk title tags split hide body subs) i [] := by
      obtain ⟨l', h1⟩ := evalSettings (W := W) (k := k) (inc := inc) (ns := ns1) (r := .nil) (w1.ready rd) (by rw [eraseL_map]; exact e2)
      have g2 : (settled (titled s i l (oneBody ts) (tagsOr title tags)) i split hide l').heap.get i = _ :=
        Heap.get_upd_eq _ _ (by rw [len1]; exact lt)
      rw [g1] at g2
      have w2 : Wider i _ (settled (titled s i l (oneBody ts) (tagsOr title tags)) i split hide l') :=
        .upd w1.calm _ (fun _ => rfl) (fun _ => rfl) fun _ => rfl
      refine ⟨_, h1, w1.trans w2, by rw [← len1]; exact Heap.length_upd .., by rw [g2]; rfl, ?_⟩
      rw [g2]
      exact ⟨rfl, ⟨o1, ts, t1, t2, rfl⟩, ⟨l, by cases tags <;> rfl⟩, ⟨l, rfl⟩, rfl, rfl, rfl, rfl, rfl, rfl⟩
    obtain ⟨s2, h2, w2, len2, bd2, sh2⟩ := hsplit
    -- the text
    obtain ⟨cs, s3, h3, tch, hb⟩ := evalBlks (W := W) (k := k) (inc := inc) (i := i) o3 (ns := ns2) (by rw [eraseL_map]; exact e3)
      (cs0 := []) (w2.ready rd) (by intro c hc; cases hc)
    rw [List.nil_append] at h3
    have w3 : Wider i s s3 := w2.trans (tch.wider w2.calm)
    have len3 : s3.heap.length = s.heap.length := by rw [tch.length, len2]
    have bd3 : (s3.heap.get i).body = .str [] := by rw [tch.field Sec.body (fun _ _ => rfl)]; exact bd2
    have sh3 : Shape false (s3.heap.get i) par (.mk title tags split hide body subs) i [] := by
      have ft := tch.field Sec.title (fun _ _ => rfl) i
      have fg := tch.field Sec.primaryTag (fun _ _ => rfl) i
      refine ⟨?_, ?_, ?_, ?_, ?_, ?_, ?_, ?_, ?_, ?_⟩
      · rw [tch.field Sec.parent (fun _ _ => rfl)]; exact sh2.parent
      · rw [ft]; exact sh2.title
      · rw [fg, ft]; exact sh2.tag
      · obtain ⟨l, e⟩ := sh2.tags
        exact ⟨l, by rw [ft, tch.field Sec.tags (fun _ _ => rfl)]; exact e⟩
      · rw [tch.field Sec.split (fun _ _ => rfl)]; exact sh2.split
      · rw [tch.field Sec.resetDepth (fun _ _ => rfl)]; exact sh2.resetDepth
      · rw [tch.field Sec.omitToc (fun _ _ => rfl)]; exact sh2.omitToc
      · rw [tch.field Sec.style (fun _ _ => rfl)]; exact sh2.style
      · rw [tch.field Sec.partials (fun _ _ => rfl)]; exact sh2.partials
      · rw [tch.field Sec.children (fun _ _ => rfl)]; exact sh2.children
    -- the sections below
    obtain ⟨kids, s4, h4, w4, ⟨l4, g4⟩, m4, n4⟩ := evalParts (k := k) (inc := inc) o4 (ns := ns3) (by rw [eraseL_map]; exact e4)
      (r := oneBody cs) (w3.ready rd)
    refine ⟨cs, kids, s4, ?_, hb, w3.trans w4, ?_, ?_, m4, by rw [← len3]; exact n4⟩
    · simp only [evalSeq, M.bind_run, M.bind, t3]
      rw [evalSeq_append]
      simp only [M.bind_run, M.bind, h2]
      rw [evalSeq_append]
      simp only [M.bind_run, M.bind]
      rw [show evalSeq W k inc ns2 i Content.nil s2 = (.ok (oneBody cs), s3) from h3]
      exact h4
    · rw [g4, sh3.children]
      exact ⟨sh3.parent, sh3.title, sh3.tag, sh3.tags, sh3.split, sh3.resetDepth, sh3.omitToc, sh3.style, sh3.partials, rfl⟩
    · rw [g4]
      exact bd3
theorem evalParts {k : Nat} {inc : Inc} : ∀ {ps : List Part}, okParts ps → ∀ {ns : List Node}, eraseL ns = treeParas (surParts ps) →
    ∀ {i : Nat} {s : St} {r : Content}, Ready s i →
    ∃ kids s', evalSeq W k inc ns i r s = (.ok r, s') ∧ Wider i s s' ∧
      (∃ l, s'.heap.get i = { s.heap.get i with invokeLoc := l, children := (s.heap.get i).children ++ kids.map Tree.root }) ∧
      MadeL false s'.heap (some i) ps kids ∧ New s.heap.length s'.heap.length kids
  | [], _, ns, e, i, s, r, rd => by
    rw [surParts, treeParas, eraseL_map, List.map_eq_nil_iff] at e
    subst e
    refine ⟨[], s, rfl, .refl rd.calm, ⟨(s.heap.get i).invokeLoc, by simp⟩, .nil, ⟨fun j => ?_, by simp [Tree.idsL]⟩⟩
    simp only [Tree.idsL, List.not_mem_nil, false_iff]
    omega
  | p :: ps, h, ns, e, i, s, r, rd => by
    rw [surParts, treeParas, eraseL_map, List.map_eq_cons_iff] at e
    obtain ⟨n, ns, rfl, e1, e⟩ := e
    replace e1 := callPara_nodes e1
    obtain ⟨as, loc, rfl, e1⟩ := e1
    rw [treeArgs, treeArgs, eraseL_map, List.map_eq_singleton_iff] at e1
    obtain ⟨a, rfl, e1⟩ := e1
    rw [Arg.tree] at e1
    replace e1 := erase_seq e1
    obtain ⟨ms, rfl, e1⟩ := e1
    have lt := rd.lt
    have rd1 := (Touch.call i s loc).ready rd
    have len1 := St.length_calling s i loc
    have lt1 := rd1.lt
    -- the new section
    have gi : (s.calling i loc).heap.get i = { s.heap.get i with invokeLoc := loc } := Heap.get_upd_eq _ _ lt
    have len2 : (opened (s.calling i loc) i).heap.length = s.heap.length + 1 := by simp [opened, len1]
    have calm2 : Calm (opened (s.calling i loc) i).heap := rd1.calm.append rfl (by intro q hq; cases hq; exact lt1)
    have gc : (opened (s.calling i loc) i).heap.get s.heap.length = fresh (some i) [] (s.heap.get i).plugins := by
      rw [← len1, opened, Heap.get_append_eq, gi]
    have rd2 : Ready (opened (s.calling i loc) i) s.heap.length := ⟨calm2, by rw [gc]; exact rd.base, by omega⟩
    obtain ⟨cs, kids, s3, h3, b3, w3, sh3, bd3, m3, n3⟩ := evalPart (k := k) (inc := inc) h.1 (ns := ms) e1 rd2 gc
    have hsec := section_run (W := W) (k := k) (inc := inc) (a := .seq ms) (r := r) rd (by rw [evalNode]; exact h3)
    -- after it
    have len3 := w3.len
    have ne : i ≠ s.heap.length := by omega
    have gi3 : s3.heap.get i = { s.heap.get i with invokeLoc := loc } := by
      rw [w3.same i (by omega) ne, opened, Heap.get_append_lt _ _ lt1, gi]
    have go := closed_outer (s := s3) (i := i) (c := s.heap.length) (r := oneBody cs) (by omega) ne
    obtain ⟨lc, gcc⟩ := closed_inner (s := s3) (i := i) (c := s.heap.length) (r := oneBody cs) (by omega) (Ne.symm ne)
    have w4 : Wider i s (closed s3 i s.heap.length (oneBody cs)) := by
      refine ⟨by rw [closed_length]; omega, fun j hj hji => ?_, closed_calm w3.calm, by rw [go, gi3]⟩
      rw [closed_other hji (by omega), w3.same j (by omega) (by omega), opened,
        Heap.get_append_lt _ _ (by omega), St.calling, Heap.get_upd_ne _ _ hji]
    have made : Made false (closed s3 i s.heap.length (oneBody cs)).heap (some i) p (.node s.heap.length kids) := by
      refine .mk (by rw [closed_length]; omega) (by rw [gcc]; exact sh3.loc _ _) ?_ ?_
      · rw [gcc]
        cases hcs : cs with
        | nil =>
          subst hcs
          refine .inl ⟨?_, ?_⟩
          · cases hb : p.body with
            | nil => rfl
            | cons b bs => rw [hb] at b3; exact absurd rfl (b3.ne (by simp))
          · exact bd3
        | cons c r =>
          refine .inr ⟨c :: r, by simp, hcs ▸ b3, ?_⟩
          have := oneBody_notNil (hcs ▸ b3.items) (by simp : c :: r ≠ [])
          show (if (oneBody (c :: r)).isNil = true then (s3.heap.get s.heap.length).body else oneBody (c :: r)) = oneBody (c :: r)
          rw [this]
          rfl
      · refine m3.keep (by rw [closed_length]; exact Nat.le_refl _) fun j hj => ?_
        have := (n3.ids j).1 hj
        exact closed_other (by omega) (by omega)
    -- the rest
    obtain ⟨kids', s', h5, w5, ⟨l5, g5⟩, m5, n5⟩ := evalParts (k := k) (inc := inc) h.2 (ns := ns) (by rw [eraseL_map]; exact e) (r := r)
      (w4.ready rd)
    have len5 := w5.len
    rw [closed_length] at len5
    refine ⟨.node s.heap.length kids :: kids', s', ?_, w4.trans w5, ⟨l5, ?_⟩, .cons (made.keep w5.len fun j hj => ?_) m5, fun j => ?_, ?_⟩
    · simp only [evalSeq, M.bind_run, M.bind, hsec, h5]
    · rw [g5, go, gi3]
      simp [Tree.root]
    · have : s.heap.length ≤ j ∧ j < s3.heap.length := by
        rw [Tree.ids, List.mem_cons] at hj
        rcases hj with rfl | hj
        · omega
        · have := (n3.ids j).1 hj; omega
      exact w5.same j (by rw [closed_length]; omega) (by omega)
    · have h1 := n3.ids j
      have h2 := n5.ids j
      rw [closed_length] at h2
      simp only [Tree.idsL, Tree.ids, List.mem_append, List.mem_cons, h1, h2]
      omega
    · rw [Tree.idsL, Tree.ids]
      refine List.nodup_append.2 ⟨List.nodup_cons.2 ⟨fun hm => ?_, n3.nodup⟩, n5.nodup, fun a ha b hb hab => ?_⟩
      · have := (n3.ids _).1 hm; omega
      · have h2 := (n5.ids b).1 hb
        rw [closed_length] at h2
        rcases List.mem_cons.1 ha with rfl | ha
        · omega
        · have := (n3.ids a).1 ha; omega
end

end Booklit.Ms
