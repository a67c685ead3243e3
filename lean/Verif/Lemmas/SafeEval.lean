import Verif.Lemmas.SafeL

/-!
Tame documents do not crash the evaluator.
-/

namespace Booklit

variable {W : World} {C : Str → Node → Prop} {A : Prop} {p : Str}

theorem Sound.splitPrevented {h : Heap} (hs : Sound h) : ∀ (i n : Nat), i < h.length → i < n →
    ∃ b, h.splitPrevented n i = some b := by
  intro i
  induction i using Nat.strongRecOn with
  | ind i ih =>
    intro n hi hn
    obtain ⟨m, rfl⟩ : ∃ m, n = m + 1 := ⟨n - 1, by omega⟩
    rw [Heap.splitPrevented]
    split
    · exact ⟨_, rfl⟩
    · cases hp : (h.get i).parent with
      | none => exact ⟨false, rfl⟩
      | some p =>
        have := (hs i hi).1 p hp
        exact ih p this m (by omega) (by omega)

theorem joinPath_ne (f p : Str) : joinPath (dirPath f) p ≠ [] := by
  have hc : ∀ s, cleanPath s ≠ [] := by
    intro s
    rw [cleanPath]
    split
    · simp
    · split
      · simp
      · assumption
  rw [joinPath, if_pos (show dirPath f ≠ [] from hc _)]
  exact hc _

/-- Two evaluations of a node of file `p`. -/
structure EvRel (A : Prop) (C : Str → Node → Prop) (p : Str) (n : Node) (ev ev' : Ev) : Prop where
  both : ∀ i r, Both A (Ok C p i) (ev i r) (ev' i r) fun a b => a = b ∧ ResOk n r a
  frame : EvOk (fun _ => True) Frame ev

/-- Two values of an argument. -/
inductive VRel (A : Prop) (C : Str → Node → Prop) (p : Str) (n : Node) : Ty → ArgV → ArgV → Prop
  | str {t : Str} : (∀ x, n.literal = some x → t = x) → VRel A C p n .string (.str t) (.str t)
  | content {c : Content} : c.isNil = false → (n.closed = true → c.shut = true) → VRel A C p n .content (.content c) (.content c)
  | node {ev ev' : Ev} : EvRel A C p n ev ev' → VRel A C p n .node (.node n ev) (.node n ev')

/-- Two lists of values for the parameters. -/
inductive Vals (A : Prop) (C : Str → Node → Prop) (p : Str) : List Ty → Option Ty → List Node → List ArgV → List ArgV → Prop
  | nil {v : Option Ty} : Vals A C p [] v [] [] []
  | cons {t : Ty} {ts : List Ty} {v : Option Ty} {n : Node} {ns : List Node} {a a' : ArgV} {as as' : List ArgV} :
      VRel A C p n t a a' → Vals A C p ts v ns as as' → Vals A C p (t :: ts) v (n :: ns) (a :: as) (a' :: as')
  | var {t : Ty} {n : Node} {ns : List Node} {a a' : ArgV} {as as' : List ArgV} :
      VRel A C p n t a a' → Vals A C p [] (some t) ns as as' → Vals A C p [] (some t) (n :: ns) (a :: as) (a' :: as')

theorem closedAll_iff : ∀ {ns : List Node}, closedAll ns = true ↔ ∀ n ∈ ns, n.closed = true
  | [] => by simp [closedAll]
  | n :: ns => by simp [closedAll, closedAll_iff (ns := ns)]

/-- Variadic contents. -/
theorem Vals.contents : ∀ {ns : List Node} {vs vs' : List ArgV}, Vals A C p [] (some .content) ns vs vs' →
    vs = vs' ∧ (contentArgs vs).length = ns.length ∧ (∀ c ∈ contentArgs vs, c.isNil = false) ∧
      (closedAll ns = true → ∀ c ∈ contentArgs vs, c.shut = true)
  | _, _, _, .nil => ⟨rfl, rfl, by simp [contentArgs], by simp [contentArgs]⟩
  | _, _, _, .var (n := n) (ns := ns) (.content hc hs) h => by
    obtain ⟨rfl, h1, h2, h3⟩ := Vals.contents h
    refine ⟨rfl, by simp [contentArgs, h1], ?_, ?_⟩
    · simp only [contentArgs, List.mem_cons, forall_eq_or_imp]; exact ⟨hc, h2⟩
    · intro hcl
      simp only [closedAll, Bool.and_eq_true] at hcl
      simp only [contentArgs, List.mem_cons, forall_eq_or_imp]
      exact ⟨hs hcl.1, h3 hcl.2⟩

/-- Variadic strings. -/
theorem Vals.strings : ∀ {ns : List Node} {vs vs' : List ArgV}, Vals A C p [] (some .string) ns vs vs' →
    vs = vs' ∧ (strArgs vs).length = ns.length
  | _, _, _, .nil => ⟨rfl, rfl⟩
  | _, _, _, .var (n := n) (ns := ns) (.str _) h => by
    obtain ⟨rfl, h1⟩ := Vals.strings h
    exact ⟨rfl, by simp [strArgs, h1]⟩

/-- The callback of a file `p` that may include the files `I`. -/
def IncRel (A : Prop) (C : Str → Node → Prop) (W : World) (p : Str) (I : Str → Prop) (k k' : Nat) : Prop :=
  ∀ i q, q ≠ [] → I q → Both A (Ok C p i) (incl W k i q) (incl W k' i q) fun _ _ => True

/-- The included files are among `I`. -/
def IncOk (I : Str → Prop) (p : Str) (n : Node) : Prop :=
  ∀ a ∈ n.includes, (∀ q, I q) ∨ ∃ t, a.literal = some t ∧ I (joinPath (dirPath p) t)

/-- What a base function with these arguments returns. -/
def RetRel (b : Base) (args : List Node) (r : Ret) : Prop :=
  match r with
  | .nothing => b.makes = false
  | .error none => b.makes = false
  | .error (some _) => True
  | .content c => c.isNil = false ∧ (closedCall b args = true → c.shut = true)
  | .both c none => c.isNil = false ∧ (closedCall b args = true → c.shut = true)
  | .both _ (some _) => True
  | .other => False
where
  closedCall (b : Base) (args : List Node) : Bool := (match b with
    | .reference => decide (2 ≤ args.length)
    | .target => args.length == 3
    | _ => true) && closedAll args

theorem both_body {n : Node} {ev ev' : Ev} (h : EvRel A C p n ev ev') (c : Nat) :
    Both A (Ok C p c) (evalBody ev c) (evalBody ev' c) fun _ _ => True := by
  rw [evalBody, evalBody]
  refine both_bind (h.both c .nil) fun a b hab => ?_
  obtain ⟨rfl, _⟩ := hab
  split
  · exact both_pure trivial
  · exact both_weaken (both_upd _ fun x => ⟨rfl, rfl, id⟩) fun _ _ _ => trivial

theorem both_inline (W : World) {n : Node} {ev ev' : Ev} (h : EvRel A C p n ev ev') (i : Nat) :
    Both A (Ok C p i) (evalInline i ev) (evalInline i ev') fun _ _ => True := by
  intro s hs
  rw [evalInline_run, evalInline_run]
  have hnew : Ok C p s.heap.length (s.inline i) := by
    have hold : ∀ j, j < s.heap.length → Heap.get (s.inline i).heap j = s.heap.get j := fun j hj => Heap.get_append_lt _ _ hj
    have e0 : Heap.get (s.inline i).heap s.heap.length = { Sec.fresh (some i) [] with plugins := (s.heap.get i).plugins } :=
      Heap.get_append_eq _ _
    refine ⟨by simp [St.inline], ?_, hs.cache, ?_⟩
    · refine hs.sound.add _ (fun p hp => ?_) (hs.sound i hs.lt).2
      cases hp
      exact hs.lt
    · refine .up (j := i) (by rw [e0]; rfl) (by rw [e0]; rfl) ?_
      exact hs.file.keep hs.sound (fun j hj => by rw [hold j hj]; exact ⟨rfl, rfl⟩) hs.lt
  obtain ⟨e, hg, hr⟩ := both_body h s.heap.length (s.inline i) hnew
  have hfr : Frame s.heap.length (s.inline i) (evalBody ev s.heap.length (s.inline i)).2 :=
    keeps_body (Frame.inv W) h.frame (s.inline i) (by simp [St.inline])
  revert e hg hr hfr
  cases evalBody ev s.heap.length (s.inline i) with
  | mk r s1 =>
    cases evalBody ev' s.heap.length (s.inline i) with
    | mk r' s1' =>
      intro e hg hr hfr
      dsimp only at e hg hr hfr
      subst e
      obtain ⟨hl, hold⟩ := hfr.new
      have hlt := hs.lt
      have hok : Ok C p i s1 := ⟨by omega, hg.sound, hg.cache,
        hs.file.keep hs.sound (fun j hj => by rw [hold j hj]; exact ⟨rfl, rfl⟩) hs.lt⟩
      cases hr with
      | ok h =>
        refine ⟨rfl, ?_, .ok trivial⟩
        have h1 := hok.upd (j := s.heap.length) (fun x => { x with loc := (s1.heap.get i).invokeLoc }) fun x => ⟨rfl, rfl, id⟩
        exact h1.upd (j := i) (fun x => { x with children := x.children ++ [s.heap.length] }) fun x => ⟨rfl, rfl, id⟩
      | err e => exact ⟨rfl, hok, .err e⟩
      | more h => exact ⟨rfl, hok, .more h⟩

theorem shut_nil {c : Content} (h : c.shut = true) : c.isNil = false := by
  have := all_self h
  simp at this
  exact this.1

theorem shut_list {cs : List Content} {o : Bool} (h : ∀ c ∈ cs, c.shut = true) : (Content.list cs o).shut = true := by
  simp only [Content.shut, Content.all, Bool.and_eq_true, allL_iff]
  exact ⟨⟨rfl, rfl⟩, h⟩

theorem shut_items {cs : List Content} {o : Bool} (h : (Content.list cs o).shut = true) : ∀ c ∈ cs, c.shut = true := by
  simp only [Content.shut, Content.all, Bool.and_eq_true, allL_iff] at h
  exact h.2

theorem tableRows_shut : ∀ {cs : List Content} {rows}, (∀ c ∈ cs, c.shut = true) → tableRows cs = some rows →
    ∀ r ∈ rows, ∀ x ∈ r, x.shut = true
  | [], rows, _, h => by cases h; simp
  | c :: cs, rows, hc, h => by
    cases c with
    | list items o =>
      simp only [tableRows, Option.map_eq_some_iff] at h
      obtain ⟨rs, h1, rfl⟩ := h
      simp only [List.mem_cons, forall_eq_or_imp] at hc ⊢
      exact ⟨shut_items hc.1, tableRows_shut hc.2 h1⟩
    | _ => cases h

theorem definitionItems_shut : ∀ {cs : List Content} {ds}, (∀ c ∈ cs, c.shut = true) →
    definitionItems cs = some ds → ∀ d ∈ ds, d.1.shut = true ∧ d.2.shut = true
  | [], rows, _, h => by cases h; simp
  | c :: cs, rows, hc, h => by
    rw [definitionItems.eq_def] at h
    split at h
    · next e => cases e
    · next a b o ds e =>
      cases e
      simp only [Option.map_eq_some_iff] at h
      obtain ⟨rs, h1, rfl⟩ := h
      simp only [List.mem_cons, forall_eq_or_imp] at hc ⊢
      have := shut_items hc.1
      exact ⟨⟨this a (by simp), this b (by simp)⟩, definitionItems_shut hc.2 h1⟩
    · cases h

theorem both_callBase {I : Str → Prop} {k k' : Nat} (hinc : IncRel A C W p I k k') {i : Nat} (b : Base) {args : List Node}
    {vs vs' : List ArgV} (hv : Vals A C p b.sig.1 b.sig.2 args vs vs') (ht : b = .title → args.length = 1 → closedAll args = true)
    (hi : b = .includeSection → ∀ a ∈ args, (∀ q, I q) ∨ ∃ t, a.literal = some t ∧ I (joinPath (dirPath p) t)) :
    Both A (Ok C p i) (callBase W k (incl W k) i b vs) (callBase W k' (incl W k') i b vs') fun r r' => r = r' ∧ RetRel b args r := by
  cases b with
  | usePlugin =>
    cases hv with | cons h1 h2 => ?_
    cases h1
    cases h2
    rename_i t _
    simp only [callBase]
    cases W.registry t with
    | none => exact both_pure ⟨rfl, trivial⟩
    | some q =>
      refine both_bind (both_upd _ fun x => ⟨rfl, rfl, fun h => ?_⟩) fun _ _ _ => both_pure ⟨rfl, rfl⟩
      simp only [Sec.usePlugin]
      cases hx : x.plugins with
      | nil => rw [hx] at h; cases h
      | cons a b => rw [hx] at h; exact h
  | styled =>
    cases hv with | cons h1 h2 => ?_
    cases h1
    cases h2
    simp only [callBase]
    exact both_bind (both_upd _ fun x => ⟨rfl, rfl, id⟩) fun _ _ _ => both_pure ⟨rfl, rfl⟩
  | title =>
    cases hv with | cons h1 h2 => ?_
    cases h1 with | content hn hs => ?_
    rename_i n ns tags tags' c
    obtain ⟨rfl, hlen⟩ := h2.strings
    simp only [callBase]
    refine both_get fun s hs' => ?_
    have hkeep : ∀ {α β : Type} {m : M α} {m' : M β} {Q : α → β → Prop}, Both A (Ok C p i) m m' Q →
        (m s).2 = (m' s).2 ∧ Ok C p i (m s).2 ∧ RRel A Q (m s).1 (m' s).1 := fun h => h s hs'
    split
    · refine hkeep (both_bind (Q := fun a b => a = b) ?_ fun a b hab => ?_)
      · unfold titleNames
        split
        · next hnone =>
          have hns : ns = [] := by
            rw [hnone] at hlen
            exact List.length_eq_zero_iff.1 hlen.symm
          subst hns
          have hcl := ht rfl rfl
          simp only [closedAll, Bool.and_true] at hcl
          obtain ⟨c', hc', hst⟩ := shut_strip (hs hcl)
          obtain ⟨t, ht'⟩ := hst.heap
          refine both_bind (Q := fun a b => a = b) (fun s' hs' => ?_) fun a b hab => both_pure (by rw [hab])
          simp only [defaultTag, hc', ht']
          exact ⟨trivial, hs', .ok rfl⟩
        · exact both_pure rfl
      · subst hab
        exact both_bind (both_upd _ fun x => ⟨rfl, rfl, id⟩) fun _ _ _ => both_pure ⟨rfl, rfl⟩
    · refine hkeep (both_bind both_filePath fun a b hab => ?_)
      rw [hab.1, hab.2]
      exact both_pure ⟨rfl, trivial⟩
  | aux =>
    cases hv with | cons h1 h2 => ?_
    cases h1 with | content hn hs => ?_
    cases h2
    refine both_pure ⟨rfl, rfl, fun hc => ?_⟩
    simp only [RetRel.closedCall, closedAll, Bool.true_and, Bool.and_true] at hc
    simp only [Content.shut, Content.all, Bool.and_eq_true]
    exact ⟨⟨rfl, rfl⟩, hs hc⟩
  | «section» =>
    cases hv with | cons h1 h2 => ?_
    cases h1 with | node h => ?_
    cases h2
    simp only [callBase]
    refine both_bind (both_attempt (both_inline W h i)) fun a b hab => ?_
    subst hab
    refine both_pure ⟨rfl, ?_⟩
    cases a with
    | none => rfl
    | some _ => trivial
  | includeSection =>
    cases hv with | cons h1 h2 => ?_
    cases h1 with | str hl => ?_
    cases h2
    rename_i n t
    simp only [callBase]
    refine both_bind both_filePath fun a b hab => ?_
    rw [hab.1, hab.2]
    have hI : I (joinPath (dirPath p) t) := by
      rcases hi rfl n (by simp) with h | ⟨x, hx, h⟩
      · exact h _
      · rw [hl x hx]; exact h
    refine both_bind (both_attempt (hinc i _ (joinPath_ne _ _) hI)) fun a b hab => ?_
    subst hab
    refine both_pure ⟨rfl, ?_⟩
    cases a with
    | none => rfl
    | some _ => trivial
  | singlePage =>
    cases hv
    simp only [callBase]
    exact both_bind (both_upd _ fun x => ⟨rfl, rfl, id⟩) fun _ _ _ => both_pure ⟨rfl, rfl⟩
  | splitSections =>
    cases hv
    simp only [callBase]
    refine both_bind (both_upd _ fun x => ⟨rfl, rfl, id⟩) fun _ _ _ => both_get fun s hs => ?_
    have hlt := hs.lt
    obtain ⟨b, hb⟩ := hs.sound.splitPrevented i (s.heap.length + 1) hs.lt (by omega)
    simp only [M.bind_run, M.bind, M.lift, hb, Res.ofFuel]
    cases b with
    | true => exact ⟨trivial, hs, .ok ⟨rfl, rfl⟩⟩
    | false => exact ⟨trivial, hs.upd _ fun x => ⟨rfl, rfl, id⟩, .ok ⟨rfl, rfl⟩⟩
  | omitChildren =>
    cases hv
    simp only [callBase]
    exact both_bind (both_upd _ fun x => ⟨rfl, rfl, id⟩) fun _ _ _ => both_pure ⟨rfl, rfl⟩
  | tableOfContents =>
    cases hv
    exact both_pure ⟨rfl, rfl, fun _ => rfl⟩
  | style s =>
    cases hv with | cons h1 h2 => ?_
    cases h1 with | content hn hs => ?_
    cases h2
    refine both_pure ⟨rfl, rfl, fun hc => ?_⟩
    simp only [RetRel.closedCall, closedAll, Bool.true_and, Bool.and_true] at hc
    have := hs hc
    simp only [Content.shut, Content.all, allP, Bool.and_eq_true]
    exact ⟨⟨⟨rfl, rfl⟩, this⟩, trivial⟩
  | link =>
    cases hv with | cons h1 h2 => ?_
    cases h1 with | content hn hs => ?_
    cases h2 with | cons h1 h2 => ?_
    cases h1
    cases h2
    refine both_pure ⟨rfl, rfl, fun hc => ?_⟩
    simp only [RetRel.closedCall, closedAll, Bool.true_and, Bool.and_true, Bool.and_eq_true] at hc
    have := hs hc.1
    simp only [Content.shut, Content.all, Bool.and_eq_true]
    exact ⟨⟨rfl, rfl⟩, this⟩
  | reference =>
    cases hv with | cons h1 h2 => ?_
    cases h1
    obtain ⟨rfl, hl, hn, hs⟩ := h2.contents
    simp only [callBase]
    refine both_get fun s hs' => ⟨rfl, hs', .ok ⟨rfl, rfl, fun hc => ?_⟩⟩
    simp only [RetRel.closedCall, closedAll, Bool.and_eq_true, decide_eq_true_eq, List.length_cons] at hc
    have hs2 := hs hc.2.2
    revert hl hs2
    cases contentArgs _ with
    | nil => intro hl; simp at hl; omega
    | cons c cs =>
      intro hl hs2
      have := hs2 c (by simp)
      simp only [Content.shut, Content.all, Bool.and_eq_true]
      exact ⟨⟨rfl, rfl⟩, this⟩
  | target =>
    cases hv with | cons h1 h2 => ?_
    cases h1
    obtain ⟨rfl, hl, hn, hs⟩ := h2.contents
    simp only [callBase]
    refine both_get fun s hs' => ⟨rfl, hs', .ok ⟨rfl, ?_, fun hc => ?_⟩⟩
    · split <;> rfl
    · simp only [RetRel.closedCall, closedAll, Bool.and_eq_true, beq_iff_eq, List.length_cons] at hc
      have hs2 := hs hc.2.2
      split
      · next ti c e =>
        rw [e] at hs2
        have h1 := hs2 ti (by simp)
        have h2 := hs2 c (by simp)
        simp only [Content.shut, Content.all, Bool.and_eq_true]
        exact ⟨⟨⟨rfl, rfl⟩, h1⟩, h2⟩
      · next ti e => rw [e] at hl; simp at hl; omega
      · next h1 h2 =>
        revert hl h1 h2
        cases contentArgs _ with
        | nil => intro hl; simp at hl; omega
        | cons c cs =>
          cases cs with
          | nil => intro hl; simp at hl; omega
          | cons d cs =>
            cases cs with
            | nil => intro hl h1; exact absurd rfl (h1 c d)
            | cons _ _ => intro hl; simp at hl; omega
  | list =>
    obtain ⟨rfl, hl, hn, hs⟩ := Vals.contents hv
    refine both_pure ⟨rfl, rfl, fun hc => shut_list (hs ?_)⟩
    simpa [RetRel.closedCall] using hc
  | orderedList =>
    obtain ⟨rfl, hl, hn, hs⟩ := Vals.contents hv
    refine both_pure ⟨rfl, rfl, fun hc => shut_list (hs ?_)⟩
    simpa [RetRel.closedCall] using hc
  | image =>
    cases hv with | cons h1 h2 => ?_
    cases h1
    obtain ⟨rfl, hl⟩ := h2.strings
    exact both_pure ⟨rfl, rfl, fun _ => rfl⟩
  | setPartial =>
    cases hv with | cons h1 h2 => ?_
    cases h1
    cases h2 with | cons h1 h2 => ?_
    cases h1
    cases h2
    simp only [callBase]
    exact both_bind (both_upd _ fun x => ⟨rfl, rfl, id⟩) fun _ _ _ => both_pure ⟨rfl, rfl⟩
  | table =>
    obtain ⟨rfl, hl, hn, hs⟩ := Vals.contents hv
    simp only [callBase]
    cases hr : tableRows (contentArgs vs) with
    | none => exact both_pure ⟨rfl, trivial⟩
    | some rows =>
      refine both_pure ⟨rfl, rfl, fun hc => ?_⟩
      have := tableRows_shut (hs (by simpa [RetRel.closedCall] using hc)) hr
      simp only [Content.shut, Content.all, Bool.and_eq_true, allR_iff]
      exact ⟨⟨rfl, rfl⟩, this⟩
  | tableRow =>
    obtain ⟨rfl, hl, hn, hs⟩ := Vals.contents hv
    refine both_pure ⟨rfl, rfl, fun hc => shut_list (hs ?_)⟩
    simpa [RetRel.closedCall] using hc
  | definitions =>
    obtain ⟨rfl, hl, hn, hs⟩ := Vals.contents hv
    simp only [callBase]
    cases hr : definitionItems (contentArgs vs) with
    | none => exact both_pure ⟨rfl, trivial⟩
    | some rows =>
      refine both_pure ⟨rfl, rfl, fun hc => ?_⟩
      have := definitionItems_shut (hs (by simpa [RetRel.closedCall] using hc)) hr
      simp only [Content.shut, Content.all, Bool.and_eq_true, allD_iff]
      exact ⟨⟨rfl, rfl⟩, this⟩
  | definition =>
    cases hv with | cons h1 h2 => ?_
    cases h1 with | content hn hs => ?_
    cases h2 with | cons h1 h2 => ?_
    cases h1 with | content hn' hs' => ?_
    cases h2
    refine both_pure ⟨rfl, rfl, fun hc => shut_list ?_⟩
    simp only [RetRel.closedCall, closedAll, Bool.true_and, Bool.and_true, Bool.and_eq_true] at hc
    simp only [List.mem_cons, forall_eq_or_imp, List.not_mem_nil, false_implies, implies_true, and_true]
    exact ⟨hs hc.1, hs' hc.2⟩


/-- Arguments with two evaluations. -/
inductive ArgsRel (A : Prop) (C : Str → Node → Prop) (p : Str) : List Node → List (Node × Ev) → List (Node × Ev) → Prop
  | nil : ArgsRel A C p [] [] []
  | cons {n : Node} {ns : List Node} {ev ev' : Ev} {as as' : List (Node × Ev)} :
      EvRel A C p n ev ev' → ArgsRel A C p ns as as' → ArgsRel A C p (n :: ns) ((n, ev) :: as) ((n, ev') :: as')

theorem ArgsRel.length {ns : List Node} {as as' : List (Node × Ev)} (h : ArgsRel A C p ns as as') :
    as.length = ns.length ∧ as'.length = ns.length := by
  induction h with
  | nil => exact ⟨rfl, rfl⟩
  | cons _ _ ih => simp [ih.1, ih.2]

/-- The text of literal content. -/
theorem Lit.text {c : Content} {t t' : Str} (h : Lit c t) {b : Bool} {hp : Heap} {k : Nat} (e : hp.text b k c = .ok t') : t' = t := by
  have hL : ∀ (ref sect) (ss : List Str), textL ref sect (ss.map .str) = .ok ss := by
    intro ref sect ss
    induction ss with
    | nil => rfl
    | cons s ss ih => simp [textL, Content.text, ih, Res.map, Res.bind]
  rcases h with ⟨rfl, rfl⟩ | rfl | ⟨ss, rfl, rfl⟩
  · cases k <;> rw [Heap.text, Content.text] at e <;> cases e
  · cases k <;> rw [Heap.text, Content.text] at e <;> cases e <;> rfl
  · cases k <;> rw [Heap.text, Content.text, hL] at e <;> cases e <;> rfl

theorem both_convert {k k' i : Nat} {n : Node} {ev ev' : Ev} (h : EvRel A C p n ev ev') (t : Ty) (hf : n.fits t = true) :
    Both A (Ok C p i) (convert W k i t (n, ev)) (convert W k' i t (n, ev')) fun v v' => VRel A C p n t v v' := by
  cases t with
  | string =>
    simp only [Node.fits, Bool.and_eq_true] at hf
    simp only [convert]
    refine both_bind (h.both i .nil) fun a b hab => both_get fun s hs => ?_
    obtain ⟨rfl, hr⟩ := hab
    have hn := hr.yields (.inl hf.1)
    have hsh := hr.shut hf.2 (by intro h; cases h) hn
    obtain ⟨t, ht⟩ := (shut_steady a hsh).heap
    simp only [M.bind_run, M.bind, M.lift, ht]
    refine ⟨trivial, hs, .ok (.str fun x hx => ?_)⟩
    have := hr.literal x hx [] (.inl ⟨rfl, rfl⟩)
    exact this.text (ht W.brokenOk s.heap k)
  | content =>
    simp only [Node.fits] at hf
    simp only [convert]
    refine both_bind (h.both i .nil) fun a b hab => ?_
    obtain ⟨rfl, hr⟩ := hab
    have hn := hr.yields (.inl hf)
    rw [hn]
    exact both_pure (.content hn fun hc => hr.shut hc (by intro h; cases h) hn)
  | node => exact both_pure (.node h)
  | other => exact both_err

theorem both_convertAll {k k' i : Nat} : ∀ (ts : List Ty) (v : Option Ty) {ns : List Node} {as as' : List (Node × Ev)},
    ArgsRel A C p ns as as' → argsFit ts v ns = true → arityOk (ts, v) ns.length = true →
    Both A (Ok C p i) (convertAll W k i ts v as) (convertAll W k' i ts v as') fun vs vs' => Vals A C p ts v ns vs vs'
  | [], v, _, _, _, .nil, _, _ => by
    rw [convertAll, convertAll]
    exact both_pure .nil
  | t :: ts, v, _, _, _, .nil, _, h => by cases v <;> simp [arityOk] at h
  | t :: ts, v, _, _, _, .cons (n := n) (ns := ns) he h, hf, ha => by
    simp only [argsFit, Bool.and_eq_true] at hf
    rw [convertAll, convertAll]
    refine both_bind (both_convert he t hf.1) fun x x' hx => both_bind (both_convertAll ts v h hf.2 ?_) fun xs xs' hxs => both_pure (.cons hx hxs)
    cases v <;> simpa [arityOk] using ha
  | [], some v, _, _, _, .cons (n := n) (ns := ns) he h, hf, ha => by
    simp only [argsFit, Bool.and_eq_true] at hf
    rw [convertAll, convertAll]
    exact both_bind (both_convert he v hf.1) fun x x' hx => both_bind (both_convertAll [] (some v) h hf.2 (by simp [arityOk])) fun xs xs' hxs => both_pure (.var hx hxs)
  | [], none, _, _, _, .cons (n := n) (ns := ns) he h, hf, ha => by simp [arityOk] at ha

theorem Vals.noZero {ts : List Ty} {v : Option Ty} {ns : List Node} {vs vs' : List ArgV} (h : Vals A C p ts v ns vs vs') :
    vs.any ArgV.isZero = false ∧ vs'.any ArgV.isZero = false := by
  induction h with
  | nil => exact ⟨rfl, rfl⟩
  | cons h _ ih => cases h <;> simp [ArgV.isZero, ih.1, ih.2]
  | var h _ ih => cases h <;> simp [ArgV.isZero, ih.1, ih.2]

theorem findMethod_noBase (hW : W.baseOnly) {name : Str} (h : baseMethods.lookup name = none) : ∀ ps, findMethod W name ps = none
  | [] => rfl
  | q :: ps => by
    rw [findMethod]
    have : methodOf W q name = none := by
      cases q with
      | zero => simp [methodOf, h]
      | succ q => simp only [methodOf]; rw [hW]; rfl
    rw [this]
    exact findMethod_noBase hW h ps

theorem findMethod_base (hW : W.baseOnly) {name : Str} {ps : List Nat} (h : ps.head? = some 0) :
    findMethod W name ps = (baseMethods.lookup name).map .base := by
  cases ps with
  | nil => cases h
  | cons q ps =>
    cases h
    cases hl : baseMethods.lookup name with
    | none => exact findMethod_noBase hW hl _
    | some b => rw [findMethod]; simp [methodOf, hl]

theorem both_finish {i : Nat} {fn : Str} {args : List Node} {loc : Location} {b : Base} {r : Content} {ret : Ret} {path : Str}
    (hb : baseOf fn = some b) (h : RetRel b args ret) :
    Both A (Ok C p i) (finish fn path loc r ret) (finish fn path loc r ret) fun a a' => a = a' ∧ ResOk (.invoke fn args loc) r a := by
  have hkeep : b.makes = false → ResOk (.invoke fn args loc) r r := fun hm =>
    ⟨fun h => by simpa [Node.yields, hb, hm] using h, fun _ h => h, fun x hx => by simp [Node.literal] at hx⟩
  have happ : ∀ c, c.isNil = false → (RetRel.closedCall b args = true → c.shut = true) →
      ResOk (.invoke fn args loc) r (append r [c]) := fun c hn hs =>
    ⟨fun _ => append_not_nil hn, fun hc hr _ => append_shut hr (hs (by
      rw [Node.closed, hb] at hc
      cases b <;> exact hc)), fun x hx => by simp [Node.literal] at hx⟩
  cases ret with
  | nothing => exact both_pure ⟨rfl, hkeep h⟩
  | error e =>
    cases e with
    | none => exact both_pure ⟨rfl, hkeep h⟩
    | some e => exact both_err
  | content c =>
    simp only [finish, h.1]
    exact both_pure ⟨rfl, happ c h.1 h.2⟩
  | both c e =>
    cases e with
    | none =>
      simp only [finish, (show c.isNil = false from h.1)]
      exact both_pure ⟨rfl, happ c h.1 h.2⟩
    | some e => exact both_err
  | other => exact h.elim

theorem both_invoke (hW : W.baseOnly) {I : Str → Prop} {k k' : Nat} (hinc : IncRel A C W p I k k') {i : Nat} {r : Content}
    {fn : Str} {args : List Node} {loc : Location} {as as' : List (Node × Ev)} (ha : ArgsRel A C p args as as')
    (ht : (Node.invoke fn args loc).tame = true) (hi : IncOk I p (.invoke fn args loc)) :
    Both A (Ok C p i) (invokeFn W k (incl W k) fn loc as i r) (invokeFn W k' (incl W k') fn loc as' i r)
      fun a a' => a = a' ∧ ResOk (.invoke fn args loc) r a := by
  simp only [invokeFn]
  refine both_bind (both_upd _ fun x => ⟨rfl, rfl, id⟩) fun _ _ _ => both_bind both_filePath fun q q' hq => both_get fun s hs => ?_
  obtain ⟨rfl, rfl⟩ := hq
  rw [findMethod_base hW (hs.sound i hs.lt).2]
  cases hb : baseMethods.lookup (methodName fn) with
  | none => exact both_err s hs
  | some b =>
    have hb' : baseOf fn = some b := hb
    simp only [Node.tame, hb', Bool.and_eq_true, Base.argsOk] at ht
    simp only [Option.map_some]
    have hk : ∀ {m m' : M Content} {Q : Content → Content → Prop}, Both A (Ok C q' i) m m' Q →
        (m s).2 = (m' s).2 ∧ Ok C q' i (m s).2 ∧ RRel A Q (m s).1 (m' s).1 := fun h => h s hs
    by_cases har : arityOk (Method.base b).sig args.length = true
    · have h1 : arityOk (Method.base b).sig as.length = true := by rw [ha.length.1]; exact har
      have h2 : arityOk (Method.base b).sig as'.length = true := by rw [ha.length.2]; exact har
      rw [if_pos h1, if_pos h2]
      refine hk (both_bind (both_convertAll b.sig.1 b.sig.2 ha ht.1.1 har) fun vs vs' hv => ?_)
      simp only [callMethod, hv.noZero.1, hv.noZero.2, Bool.false_eq_true, if_false]
      refine both_bind (both_callBase hinc b hv ?_ ?_) fun r1 r2 hr => ?_
      · rintro rfl hl
        have := ht.1.2
        simpa [hl] using this
      · rintro rfl a ha'
        exact hi a (by simp [Node.includes, hb', ha'])
      · obtain ⟨rfl, hr⟩ := hr
        exact both_finish hb' hr
    · have h1 : ¬ arityOk (Method.base b).sig as.length = true := by rw [ha.length.1]; exact har
      have h2 : ¬ arityOk (Method.base b).sig as'.length = true := by rw [ha.length.2]; exact har
      rw [if_neg h1, if_neg h2]
      exact both_err s hs

theorem IncOk.of_mem {I : Str → Prop} {n m : Node} (h : IncOk I p n) (hm : ∀ a ∈ m.includes, a ∈ n.includes) : IncOk I p m :=
  fun a ha => h a (hm a ha)

theorem solidPlugins (hW : W.baseOnly) : W.SolidPlugins := by
  intro q name f hf
  rw [hW] at hf
  cases hf

mutual
theorem both_node (hW : W.baseOnly) {I : Str → Prop} {k k' : Nat} (hinc : IncRel A C W p I k k') : ∀ (n : Node),
    n.tame = true → IncOk I p n → ∀ i r, Both A (Ok C p i) (evalNode W k (incl W k) n i r) (evalNode W k' (incl W k') n i r)
      fun a b => a = b ∧ ResOk n r a
  | .str s, _, _ => fun i r => by
    rw [evalNode, evalNode]
    refine both_pure ⟨rfl, fun _ => append_not_nil rfl, fun _ hr _ => append_shut hr rfl, fun x hx y hy => ?_⟩
    cases hx
    exact hy.append s
  | .seq ns, ht, hi => fun i r => by
    rw [evalNode, evalNode]
    exact both_seq hW hinc ns (by simpa [Node.tame] using ht) hi i r
  | .para ls, ht, hi => fun i r => by
    rw [evalNode, evalNode]
    refine both_bind (both_lines hW hinc ls (by simpa [Node.tame] using ht) hi i) fun xs xs' hx => ?_
    obtain ⟨rfl, hy, hs, hsol⟩ := hx
    have hlit : ∀ (a : Content) x, (Node.para ls).literal = some x → ∀ y, Lit r y → Lit a (y ++ x) := by
      intro a x hx; simp [Node.literal] at hx
    have hshut : (Node.para ls).closed = true → ∀ x ∈ xs, x.shut = true := fun hc => hs (by simpa [Node.closed] using hc)
    have hpara : (∀ x ∈ xs, x.shut = true) → (Content.para xs).shut = true := fun h => by
      simp only [Content.shut, Content.all, Bool.and_eq_true, allL_iff]
      exact ⟨⟨rfl, rfl⟩, h⟩
    cases xs with
    | nil =>
      refine both_pure ⟨rfl, fun h => ?_, fun _ h => h, hlit r⟩
      rcases h with h | h
      · exact absurd rfl (hy (by simpa [Node.yields] using h))
      · exact h
    | cons x xs =>
      cases xs with
      | nil =>
        have hso := solid_iff.1 (hsol x (by simp))
        have hfl := isFlow_some x hso.1 hso.2
        simp only [finishPara]
        cases hf : isFlow x with
        | none => rw [hf] at hfl; cases hfl
        | some b =>
          cases b with
          | false => exact both_pure ⟨rfl, fun _ => append_not_nil hso.1, fun hc hr _ => append_shut hr (hshut hc x (by simp)), hlit _⟩
          | true => exact both_pure ⟨rfl, fun _ => append_not_nil rfl, fun hc hr _ => append_shut hr (hpara (hshut hc)), hlit _⟩
      | cons x' xs =>
        exact both_pure ⟨rfl, fun _ => append_not_nil rfl, fun hc hr _ => append_shut hr (hpara (hshut hc)), hlit _⟩
  | .pre ls, ht, hi => fun i r => by
    rw [evalNode, evalNode]
    refine both_bind (both_lines hW hinc ls (by simpa [Node.tame] using ht) hi i) fun xs xs' hx => ?_
    obtain ⟨rfl, hy, hs, hsol⟩ := hx
    refine both_pure ⟨rfl, fun _ => append_not_nil rfl, fun hc hr _ => append_shut hr ?_, fun x hx => by simp [Node.literal] at hx⟩
    simp only [Content.shut, Content.all, Bool.and_eq_true, allL_iff]
    exact ⟨⟨rfl, rfl⟩, hs (by simpa [Node.closed] using hc)⟩
  | .invoke fn args loc, ht, hi => fun i r => by
    rw [evalNode, evalNode]
    cases hb : baseOf fn with
    | none =>
      simp only [invokeFn]
      refine both_bind (both_upd _ fun x => ⟨rfl, rfl, id⟩) fun _ _ _ => both_bind both_filePath fun q q' hq => both_get fun s hs => ?_
      obtain ⟨rfl, rfl⟩ := hq
      rw [findMethod_noBase hW hb]
      exact both_err s hs
    | some b =>
      refine both_invoke hW hinc (both_args hW hinc args ?_ ?_) ht hi
      · simp only [Node.tame, hb, Bool.and_eq_true] at ht
        exact ht.2
      · intro a ha
        exact hi a (by simp [Node.includes, ha])
theorem both_seq (hW : W.baseOnly) {I : Str → Prop} {k k' : Nat} (hinc : IncRel A C W p I k k') : ∀ (ns : List Node),
    tameAll ns = true → IncOk I p (.seq ns) → ∀ i r, Both A (Ok C p i) (evalSeq W k (incl W k) ns i r) (evalSeq W k' (incl W k') ns i r)
      fun a b => a = b ∧ ResOk (.seq ns) r a
  | [], _, _ => fun i r => by
    rw [evalSeq, evalSeq]
    refine both_pure ⟨rfl, fun h => by simpa [Node.yields, yieldsAny] using h, fun _ h => h, fun x hx y hy => ?_⟩
    simp [Node.literal, literalAll] at hx
    subst hx
    simpa using hy
  | n :: ns, ht, hi => fun i r => by
    rw [evalSeq, evalSeq]
    simp only [tameAll, Bool.and_eq_true] at ht
    refine both_bind (both_node hW hinc n ht.1 (hi.of_mem fun a ha => by simp [Node.includes, includesAll, ha]) i r) fun a b hab => ?_
    obtain ⟨rfl, h1⟩ := hab
    refine both_weaken (both_seq hW hinc ns ht.2 (hi.of_mem fun a ha => ?_) i a) fun c d hcd => ⟨hcd.1, ?_⟩
    · rw [Node.includes] at ha ⊢
      rw [includesAll]
      exact List.mem_append_right _ ha
    · have h2 := hcd.2
      refine ⟨fun h => h2.yields ?_, fun hc hr => ?_, fun x hx y hy => ?_⟩
      · simp only [Node.yields, yieldsAny, Bool.or_eq_true] at h ⊢
        rcases h with (h | h) | h
        · exact .inr (h1.yields (.inl h))
        · exact .inl h
        · exact .inr (h1.yields (.inr h))
      · simp only [Node.closed, closedAll, Bool.and_eq_true] at hc
        exact h2.shut (by simpa [Node.closed] using hc.2) (h1.shut hc.1 hr)
      · simp only [Node.literal, literalAll] at hx
        revert hx
        cases hl : n.literal with
        | none => intro hx; cases hx
        | some u =>
          cases hl' : literalAll ns with
          | none => intro hx; cases hx
          | some v =>
            intro hx
            cases hx
            have := h2.literal v (by simpa [Node.literal] using hl') _ (h1.literal u hl y hy)
            simpa using this
theorem both_lines (hW : W.baseOnly) {I : Str → Prop} {k k' : Nat} (hinc : IncRel A C W p I k k') : ∀ (ls : List (List Node)),
    tameLines ls = true → (∀ a ∈ includesLines ls, (∀ q, I q) ∨ ∃ t, a.literal = some t ∧ I (joinPath (dirPath p) t)) →
    ∀ i, Both A (Ok C p i) (evalLines W k (incl W k) ls i) (evalLines W k' (incl W k') ls i)
      fun xs ys => xs = ys ∧ (yieldsLines ls = true → xs ≠ []) ∧ (closedLines ls = true → ∀ x ∈ xs, x.shut = true) ∧
        ∀ x ∈ xs, x.solid = true
  | [], _, _ => fun i => by
    rw [evalLines, evalLines]
    exact both_pure ⟨rfl, fun h => by simp [yieldsLines] at h, fun _ => by simp, by simp⟩
  | l :: ls, ht, hi => fun i => by
    rw [evalLines, evalLines]
    simp only [tameLines, Bool.and_eq_true] at ht
    have hsol := (seq_ok (KeepsContent.inv (contentInv_solid (solidPlugins hW))) (keeps_incl (KeepsContent.inv (contentInv_solid (solidPlugins hW))) k)
      (k := k) l i .nil).2 (by intro h; cases h)
    refine both_bind (both_yields (both_seq hW hinc l ht.1 (fun a ha => hi a (List.mem_append_left _ ha)) i .nil) hsol) fun a b hab => ?_
    obtain ⟨⟨rfl, h1⟩, hs⟩ := hab
    refine both_bind (both_lines hW hinc ls ht.2 (fun a ha => hi a (List.mem_append_right _ ha)) i) fun xs ys hxy => ?_
    obtain ⟨rfl, h2, h3, h4⟩ := hxy
    by_cases hn : a.isNil = true
    · rw [if_pos hn]
      refine both_pure ⟨rfl, fun h => h2 ?_, fun h => h3 ?_, h4⟩
      · simp only [yieldsLines, Bool.or_eq_true] at h
        rcases h with h | h
        · rw [h1.yields (.inl (by simpa [Node.yields] using h))] at hn; cases hn
        · exact h
      · simp only [closedLines, Bool.and_eq_true] at h
        exact h.2
    · rw [if_neg hn]
      have hn' : a.isNil = false := by simpa using hn
      refine both_pure ⟨rfl, fun _ => by simp, fun h => ?_, ?_⟩
      · simp only [closedLines, Bool.and_eq_true] at h
        simp only [List.mem_cons, forall_eq_or_imp]
        exact ⟨h1.shut (by simpa [Node.closed] using h.1) (by intro h; cases h) hn', h3 h.2⟩
      · simp only [List.mem_cons, forall_eq_or_imp]
        exact ⟨hs hn', h4⟩
theorem both_args (hW : W.baseOnly) {I : Str → Prop} {k k' : Nat} (hinc : IncRel A C W p I k k') : ∀ (ns : List Node),
    tameAll ns = true → (∀ a ∈ includesAll ns, (∀ q, I q) ∨ ∃ t, a.literal = some t ∧ I (joinPath (dirPath p) t)) →
    ArgsRel A C p ns (evalArgs W k (incl W k) ns) (evalArgs W k' (incl W k') ns)
  | [], _, _ => by rw [evalArgs, evalArgs]; exact .nil
  | n :: ns, ht, hi => by
    rw [evalArgs, evalArgs]
    simp only [tameAll, Bool.and_eq_true] at ht
    exact .cons ⟨both_node hW hinc n ht.1 fun a ha => hi a (List.mem_append_left _ ha),
      node_ok (Frame.inv W) (keeps_incl (Frame.inv W) k) n⟩ (both_args hW hinc ns ht.2 fun a ha => hi a (List.mem_append_right _ ha))
end

end Booklit
