import Verif.Lemmas.MovedRender
import Verif.Lemmas.FuelL
import Verif.Lemmas.EvalInv
import Verif.Spec.Looks

/-!
Two runs of the evaluator side by side: one that starts with no sections, and one that starts behind other sections, with at
least as much fuel and another cache. They make the same sections.
-/

namespace Booklit

/-- What is found in the cache is what parsing gives. -/
def Fits (W : World) (cache : List (Str × Node × Nat)) : Prop :=
  ∀ path info node, W.fs path = some info → cached cache path info.mtime = some node → parseFile path info = .ok node

theorem Fits.nodeOf {W : World} {s : St} (h : Fits W s.cache) {path : Str} {info : FileInfo} (hf : W.fs path = some info) :
    nodeOf s path info = parseFile path info := by
  rw [Booklit.nodeOf]
  cases hc : cached s.cache path info.mtime with
  | none => rfl
  | some n => exact (h path info n hf hc).symm

theorem Fits.empty (W : World) : Fits W [] := by
  intro path info node _ e
  simp [cached] at e

theorem lookup_remember {α : Type} (l : List (Str × α)) (p q : Str) (a : α) :
    ((p, a) :: l.filter fun e => e.1 ≠ p).lookup q = if q = p then some a else l.lookup q := by
  rw [List.lookup_cons]
  by_cases h : q = p
  · subst h
    simp
  · have : (q == p) = false := by simpa using h
    simp only [this, if_neg h]
    induction l with
    | nil => rfl
    | cons e l ih =>
      obtain ⟨x, y⟩ := e
      by_cases hx : x = p
      · subst hx
        simp only [List.filter_cons, ne_eq, not_true, decide_false, Bool.false_eq_true, if_false, List.lookup_cons, this]
        exact ih
      · simp only [List.filter_cons, ne_eq, hx, not_false_eq_true, decide_true, if_true, List.lookup_cons, ih]

theorem Fits.remember {W : World} {s : St} (h : Fits W s.cache) {path : Str} {info : FileInfo} {node : Node}
    (hf : W.fs path = some info) (hp : parseFile path info = .ok node) : Fits W (remember path node info.mtime s).2.cache := by
  intro q info' n' hq e
  rw [cached, Booklit.remember] at e
  dsimp only at e
  rw [lookup_remember] at e
  by_cases hx : q = path
  · subst hx
    rw [hf] at hq
    cases hq
    simp only [if_true] at e
    simp only [Nat.le_refl, if_true, Option.some.injEq] at e
    subst e
    exact hp
  · rw [if_neg hx] at e
    exact h q info' n' hq e

/-- The states of the two runs. -/
structure Alike (W : World) (old : Heap) (s s' : St) : Prop where
  heap : s'.heap = old.behind s.heap
  fits : Fits W s.cache
  fits' : Fits W s'.cache

/-- Results of the two runs, unless the first ran out of fuel. -/
def Res.Like {α β : Type} (R : α → β → Prop) : Res α → Res β → Prop
  | .ok a, .ok b => R a b
  | .err e, .err e' => e = e'
  | .panic, .panic => True
  | _, _ => False

/-- The two computations do the same, unless the first runs out of fuel. -/
def Sim (W : World) (old : Heap) {α β : Type} (R : α → β → Prop) (m : M α) (m' : M β) : Prop :=
  ∀ s s', Alike W old s s' → (m s).1 = .more ∨ ((m s).1.Like R (m' s').1 ∧ Alike W old (m s).2 (m' s').2)

section
variable {W : World} {old : Heap} {α β γ δ : Type}

theorem Sim.pure {R : α → β → Prop} {a : α} {b : β} (h : R a b) : Sim W old R (Pure.pure a : M α) (Pure.pure b : M β) :=
  fun _ _ hs => .inr ⟨h, hs⟩

theorem Sim.lift {R : α → β → Prop} {r : Res α} {r' : Res β} (h : r = .more ∨ r.Like R r') : Sim W old R (M.lift r) (M.lift r') :=
  fun _ _ hs => h.imp id fun h => ⟨h, hs⟩

theorem Sim.bind {R : α → β → Prop} {Q : γ → δ → Prop} {m : M α} {m' : M β} {f : α → M γ} {f' : β → M δ}
    (hm : Sim W old R m m') (hf : ∀ a b, R a b → Sim W old Q (f a) (f' b)) : Sim W old Q (m >>= f) (m' >>= f') := by
  intro s s' hs
  have := hm s s' hs
  rw [M.bind_run, M.bind_run, M.bind, M.bind]
  revert this
  cases m s with
  | mk r t => cases m' s' with
    | mk r' t' =>
      rintro (h | ⟨h, ht⟩)
      · dsimp only at h
        subst h
        exact .inl rfl
      · dsimp only at h ht
        cases r <;> cases r' <;> first | exact h.elim | exact .inl rfl | skip
        · exact hf _ _ h t t' ht
        · exact .inr ⟨h, ht⟩
        · exact .inr ⟨h, ht⟩

theorem Sim.get {Q : γ → δ → Prop} {f : St → M γ} {f' : St → M δ} (hf : ∀ s s', Alike W old s s' → Sim W old Q (f s) (f' s')) :
    Sim W old Q (M.get >>= f) (M.get >>= f') := fun s s' hs => hf s s' hs s s' hs

theorem Sim.attempt {R : α → β → Prop} {m : M α} {m' : M β} (hm : Sim W old R m m') :
    Sim W old (fun a b => b = a) (M.attempt m) (M.attempt m') := by
  intro s s' hs
  have := hm s s' hs
  rw [M.attempt, M.attempt]
  revert this
  cases m s with
  | mk r t => cases m' s' with
    | mk r' t' =>
      rintro (h | ⟨h, ht⟩)
      · dsimp only at h
        subst h
        exact .inl rfl
      · dsimp only at h ht
        cases r <;> cases r' <;> first | exact h.elim | exact .inl rfl | skip
        · exact .inr ⟨rfl, ht⟩
        · cases h
          exact .inr ⟨rfl, ht⟩
        · exact .inr ⟨trivial, ht⟩

theorem behind_upd (old h : Heap) (i : Nat) {f f' : Sec → Sec} (hf : ∀ x, f' (x.moved old.length) = (f x).moved old.length) :
    (old.behind h).upd (i + old.length) f' = old.behind (h.upd i f) := by
  rw [Heap.upd, Heap.upd, Heap.behind, Heap.behind]
  apply List.ext_getElem?
  intro j
  rw [List.getElem?_modify]
  by_cases hj : j < old.length
  · rw [List.getElem?_append_left (by simpa using hj), List.getElem?_append_left (by simpa using hj)]
    have : i + old.length ≠ j := by omega
    simp [this]
  · rw [List.getElem?_append_right (by omega), List.getElem?_append_right (by omega)]
    rw [List.getElem?_map, List.getElem?_map, List.getElem?_modify]
    by_cases e : i + old.length = j
    · subst e
      simp only [Nat.add_sub_cancel, if_true]
      cases h[i]? <;> simp [hf]
    · have : i ≠ j - old.length := by omega
      simp only [e, this, if_false]
      cases h[j - old.length]? <;> rfl

theorem Sim.upd (i : Nat) {f f' : Sec → Sec} (hf : ∀ x, f' (x.moved old.length) = (f x).moved old.length) :
    Sim W old (fun _ _ => True) (M.upd i f) (M.upd (i + old.length) f') := by
  intro s s' hs
  refine .inr ⟨trivial, ?_, hs.fits, hs.fits'⟩
  simp only [M.upd, hs.heap]
  exact behind_upd old s.heap i hf

theorem Sim.alloc (x : Sec) : Sim W old (fun a b => b = a + old.length) (M.alloc x) (M.alloc (x.moved old.length)) := by
  intro s s' hs
  refine .inr ⟨?_, ?_, hs.fits, hs.fits'⟩
  · simp only [M.alloc, Res.Like, hs.heap, Heap.behind, List.length_append, List.length_map]
    omega
  · simp only [M.alloc, hs.heap, Heap.behind, List.map_append, List.append_assoc]
    rfl

theorem Alike.moved {s s' : St} (h : Alike W old s s') : MovedTo old.length s.heap s'.heap := by
  rw [h.heap]
  exact behind_moved old s.heap

theorem Alike.length {s s' : St} (h : Alike W old s s') : s.heap.length ≤ s'.heap.length := by
  rw [h.heap, Heap.behind]
  simp

end


theorem filePath_mono {h : Heap} : ∀ {n m : Nat}, n ≤ m → ∀ {i p}, h.filePath n i = some p → h.filePath m i = some p := by
  intro n
  induction n with
  | zero => intro m _ i p e; cases e
  | succ n ih =>
    intro m hm i p e
    obtain ⟨m, rfl⟩ : ∃ k, m = k + 1 := ⟨m - 1, by omega⟩
    rw [Heap.filePath] at e ⊢
    split
    · next hp => rw [if_pos hp] at e; exact e
    · next hp =>
      rw [if_neg hp] at e
      cases hq : (h.get i).parent with
      | none => rw [hq] at e; exact e
      | some q => rw [hq] at e; exact ih (by omega) e

theorem splitPrevented_mono {h : Heap} : ∀ {n m : Nat}, n ≤ m → ∀ {i p}, h.splitPrevented n i = some p →
    h.splitPrevented m i = some p := by
  intro n
  induction n with
  | zero => intro m _ i p e; cases e
  | succ n ih =>
    intro m hm i p e
    obtain ⟨m, rfl⟩ : ∃ k, m = k + 1 := ⟨m - 1, by omega⟩
    rw [Heap.splitPrevented] at e ⊢
    split
    · next hp => rw [if_pos hp] at e; exact e
    · next hp =>
      rw [if_neg hp] at e
      cases hq : (h.get i).parent with
      | none => rw [hq] at e; exact e
      | some q => rw [hq] at e; exact ih (by omega) e

/-- Evaluation in moved sections. -/
def SimEv (W : World) (old : Heap) (ev ev' : Ev) : Prop :=
  ∀ i c, Sim W old (fun a b => b = a.moved old.length) (ev i c) (ev' (i + old.length) (c.moved old.length))

/-- Arguments in the two runs. -/
inductive ArgV.Like (W : World) (old : Heap) : ArgV → ArgV → Prop
  | str (s) : ArgV.Like W old (.str s) (.str s)
  | content (c) : ArgV.Like W old (.content c) (.content (c.moved old.length))
  | node (n) {ev ev'} (h : SimEv W old ev ev') : ArgV.Like W old (.node n ev) (.node n ev')
  | zero : ArgV.Like W old .zero .zero

section
variable {W : World} {old : Heap}

theorem Res.Like.of_le {α : Type} {x y : Res α} (h : x.Le y) : x = .more ∨ x.Like (fun a b => b = a) y := by
  rcases h with h | rfl
  · exact .inl h
  · cases x with
    | ok a => exact .inr rfl
    | err e => exact .inr rfl
    | panic => exact .inr trivial
    | more => exact .inl rfl

theorem Sim.text {b : Bool} {k k' : Nat} (hk : k ≤ k') {s s' : St} (hs : Alike W old s s') (c : Content) :
    Sim W old (fun a b => b = a) (M.lift (s.heap.text b k c)) (M.lift (s'.heap.text b k' (c.moved old.length))) := by
  refine Sim.lift (Res.Like.of_le ?_)
  rw [heapText_moved hs.moved]
  exact heapText_le hk c

theorem Sim.filePath (i : Nat) : Sim W old (fun a b => b = a) (filePathM i) (filePathM (i + old.length)) := by
  intro s s' hs
  have := Res.Like.of_le (Res.Le.ofFuel fun a e => filePath_mono (Nat.succ_le_succ hs.length) e :
    (Res.ofFuel (s.heap.filePath (s.heap.length + 1) i)).Le (Res.ofFuel (s.heap.filePath (s'.heap.length + 1) i)))
  simp only [filePathM, filePath_moved hs.moved]
  exact this.imp id fun h => ⟨h, hs⟩

theorem Sim.defaultTag {k k' : Nat} (hk : k ≤ k') (t : Content) :
    Sim W old (fun a b => b = a) (defaultTag W k t) (defaultTag W k' (t.moved old.length)) := by
  intro s s' hs
  simp only [Booklit.defaultTag, stripAux_moved]
  cases stripAux t with
  | none => exact .inr ⟨trivial, hs⟩
  | some c =>
    simp only [Option.map_some]
    have : ((s.heap.text W.brokenOk k c).map slug).Le ((s'.heap.text W.brokenOk k' (c.moved old.length)).map slug) := by
      rw [heapText_moved hs.moved]
      exact (heapText_le hk c).map
    exact (Res.Like.of_le this).imp id fun h => ⟨h, hs⟩

theorem Sim.titleNames {k k' : Nat} (hk : k ≤ k') (t : Content) (tags : List Str) :
    Sim W old (fun a b => b = a) (titleNames W k t tags) (titleNames W k' (t.moved old.length) tags) := by
  unfold Booklit.titleNames
  split
  · exact (Sim.defaultTag hk t).bind fun a b e => by subst e; exact .pure rfl
  · exact .pure rfl

theorem Sim.setTitle (i : Nat) (t : Content) (l : Location) (names : List Str) :
    Sim W old (fun _ _ => True) (setTitle i t l names) (setTitle (i + old.length) (t.moved old.length) l names) := by
  refine Sim.upd i fun x => ?_
  simp only [Sec.moved, List.map_map]
  have : (names.map fun n => (⟨n, t.moved old.length, some (i + old.length), [], .nil, l⟩ : Tag)) =
      (names.map fun n => (⟨n, t, some i, [], .nil, l⟩ : Tag)).map (Tag.moved old.length) := by
    simp [List.map_map, Tag.moved, Function.comp_def, Content.moved]
  rw [this]
  cases names with
  | nil => simp [Tag.moved, Tag.zero, Content.moved]
  | cons n ns => simp [Function.comp_def]

theorem strArgs_like {as bs : List ArgV} (h : All2 (ArgV.Like W old) as bs) : strArgs bs = strArgs as := by
  induction h with
  | nil => rfl
  | cons h _ ih => cases h <;> simp [strArgs, ih]

theorem contentArgs_like {as bs : List ArgV} (h : All2 (ArgV.Like W old) as bs) :
    contentArgs bs = (contentArgs as).map (Content.moved old.length) := by
  induction h with
  | nil => rfl
  | cons h _ ih => cases h <;> simp [contentArgs, ih]

theorem tableRows_moved {d : Nat} (cs : List Content) :
    tableRows (cs.map (Content.moved d)) = (tableRows cs).map (List.map fun r => r.map (Content.moved d)) := by
  induction cs with
  | nil => rfl
  | cons c cs ih =>
    cases c <;> first | rfl | skip
    simp only [List.map_cons, Content.moved, tableRows, ih, movedL_eq]
    cases tableRows cs <;> rfl

theorem definitionItems_moved {d : Nat} (cs : List Content) :
    definitionItems (cs.map (Content.moved d)) = (definitionItems cs).map (List.map fun p => (p.1.moved d, p.2.moved d)) := by
  induction cs with
  | nil => rfl
  | cons c cs ih =>
    cases c <;> first | rfl | skip
    rename_i items o
    match items with
    | [] => rfl
    | [_] => rfl
    | [a, b] =>
      simp only [List.map_cons, Content.moved, definitionItems, ih, movedL_eq, List.map_nil]
      cases definitionItems cs <;> rfl
    | _ :: _ :: _ :: _ => rfl

theorem Sim.body {ev ev' : Ev} (h : SimEv W old ev ev') (i : Nat) :
    Sim W old (fun _ _ => True) (evalBody ev i) (evalBody ev' (i + old.length)) := by
  refine (h i .nil).bind fun a b e => ?_
  subst e
  rw [moved_isNil]
  split
  · exact .pure trivial
  · exact Sim.upd i fun x => rfl

theorem Sim.inline {ev ev' : Ev} (h : SimEv W old ev ev') (i : Nat) :
    Sim W old (fun _ _ => True) (evalInline i ev) (evalInline (i + old.length) ev') := by
  refine Sim.get fun s s' hs => ?_
  have hp : (s'.heap.get (i + old.length)).plugins = (s.heap.get i).plugins := by rw [hs.moved i]; rfl
  rw [hp]
  refine (Sim.alloc _).bind fun c c' e => ?_
  subst e
  refine (Sim.body h c).bind fun _ _ _ => Sim.get fun s s' hs => ?_
  refine (Sim.upd c fun x => ?_).bind fun _ _ _ => Sim.upd i fun x => ?_
  · rw [hs.moved i]
    rfl
  · simp [Sec.moved]

/-- Inclusion in moved sections. -/
def SimInc (W : World) (old : Heap) (inc inc' : Inc) : Prop :=
  ∀ i p, Sim W old (fun _ _ => True) (inc i p) (inc' (i + old.length) p)

theorem Sim.panic {α β : Type} {R : α → β → Prop} : Sim W old R (M.lift .panic) (M.lift .panic) := Sim.lift (.inr trivial)

theorem Sim.callBase {k k' : Nat} (hk : k ≤ k') {inc inc' : Inc} (hi : SimInc W old inc inc') (i : Nat) (b : Base)
    {as bs : List ArgV} (ha : All2 (ArgV.Like W old) as bs) :
    Sim W old (fun a b => b = a.moved old.length) (callBase W k inc i b as) (callBase W k' inc' (i + old.length) b bs) := by
  have hstr := strArgs_like ha
  have hcon := contentArgs_like ha
  cases b with
  | usePlugin =>
    rcases ha with _ | ⟨_ | _ | _ | _, _ | _⟩ <;> first | exact Sim.panic | skip
    simp only [Booklit.callBase]
    cases W.registry _ with
    | none => exact .pure rfl
    | some p => exact (Sim.upd i (by intro x; rfl)).bind fun _ _ _ => .pure rfl
  | styled =>
    rcases ha with _ | ⟨_ | _ | _ | _, _ | _⟩ <;> first | exact Sim.panic | skip
    exact (Sim.upd i (by intro x; rfl)).bind fun _ _ _ => .pure rfl
  | title =>
    rcases ha with _ | ⟨_ | _ | _ | _, ht⟩ <;> first | exact Sim.panic | skip
    refine Sim.get fun s s' hs => ?_
    simp only [strArgs] at hstr
    rw [hs.moved i, hstr]
    simp only [Sec.moved, moved_isEmpty]
    split
    · refine (Sim.titleNames hk _ _).bind fun a b e => ?_
      subst e
      exact (Sim.setTitle i _ _ _).bind fun _ _ _ => .pure rfl
    · refine (Sim.filePath i).bind fun a b e => ?_
      subst e
      exact .pure rfl
  | aux =>
    rcases ha with _ | ⟨_ | _ | _ | _, _ | _⟩ <;> first | exact Sim.panic | skip
    exact .pure rfl
  | «section» =>
    rcases ha with _ | ⟨_ | _ | ⟨_, h⟩ | _, _ | _⟩ <;> first | exact Sim.panic | skip
    refine (Sim.attempt (Sim.inline h i)).bind fun a b e => ?_
    subst e
    exact .pure rfl
  | includeSection =>
    rcases ha with _ | ⟨_ | _ | _ | _, _ | _⟩ <;> first | exact Sim.panic | skip
    refine (Sim.filePath i).bind fun a b e => ?_
    subst e
    refine (Sim.attempt (hi i _)).bind fun a b e => ?_
    subst e
    exact .pure rfl
  | singlePage =>
    rcases ha with _ | ⟨_, _⟩ <;> first | exact Sim.panic | skip
    exact (Sim.upd i (by intro x; rfl)).bind fun _ _ _ => .pure rfl
  | splitSections =>
    rcases ha with _ | ⟨_, _⟩ <;> first | exact Sim.panic | skip
    refine (Sim.upd i (by intro x; rfl)).bind fun _ _ _ => Sim.get fun s s' hs => ?_
    have h1 := Res.Like.of_le (Res.Le.ofFuel fun a e => splitPrevented_mono (Nat.succ_le_succ hs.length) e :
      (Res.ofFuel (s.heap.splitPrevented (s.heap.length + 1) i)).Le (Res.ofFuel (s.heap.splitPrevented (s'.heap.length + 1) i)))
    rw [splitPrevented_moved hs.moved]
    refine (Sim.lift h1).bind fun a b e => ?_
    subst e
    split
    · exact .pure rfl
    · exact (Sim.upd i (by intro x; rfl)).bind fun _ _ _ => .pure rfl
  | omitChildren =>
    rcases ha with _ | ⟨_, _⟩ <;> first | exact Sim.panic | skip
    exact (Sim.upd i (by intro x; rfl)).bind fun _ _ _ => .pure rfl
  | tableOfContents =>
    rcases ha with _ | ⟨_, _⟩ <;> first | exact Sim.panic | skip
    exact .pure rfl
  | style s =>
    rcases ha with _ | ⟨_ | _ | _ | _, _ | _⟩ <;> first | exact Sim.panic | skip
    exact .pure rfl
  | link =>
    rcases ha with _ | ⟨_ | _ | _ | _, _ | ⟨_ | _ | _ | _, _ | _⟩⟩ <;> first | exact Sim.panic | skip
    exact .pure rfl
  | reference =>
    rcases ha with _ | ⟨_ | _ | _ | _, ht⟩ <;> first | exact Sim.panic | skip
    refine Sim.get fun s s' hs => ?_
    simp only [contentArgs] at hcon
    rw [hs.moved i, hcon]
    refine .pure ?_
    cases contentArgs _ <;> rfl
  | target =>
    rcases ha with _ | ⟨_ | _ | _ | _, ht⟩ <;> first | exact Sim.panic | skip
    refine Sim.get fun s s' hs => ?_
    simp only [contentArgs] at hcon
    rw [hs.moved i, hcon]
    refine .pure ?_
    rename_i as bs _
    rcases contentArgs as with _ | ⟨a, _ | ⟨b, _ | ⟨c, _⟩⟩⟩ <;> rfl
  | list =>
    refine .pure ?_
    rw [hcon]
    simp [Ret.moved, Content.moved]
  | orderedList =>
    refine .pure ?_
    rw [hcon]
    simp [Ret.moved, Content.moved]
  | image =>
    rcases ha with _ | ⟨_ | _ | _ | _, ht⟩ <;> first | exact Sim.panic | skip
    simp only [strArgs, List.cons.injEq, true_and] at hstr
    refine .pure ?_
    rw [hstr]
    rfl
  | setPartial =>
    rcases ha with _ | ⟨_ | _ | _ | _, _ | ⟨_ | _ | _ | _, _ | _⟩⟩ <;> first | exact Sim.panic | skip
    refine (Sim.upd i fun x => ?_).bind fun _ _ _ => .pure rfl
    simp only [Sec.setPartial, Sec.moved, List.map_cons, List.filter_map]
    rfl
  | table =>
    simp only [Booklit.callBase, hcon, tableRows_moved]
    cases tableRows (contentArgs as) with
    | none => exact .pure rfl
    | some rows =>
      refine .pure ?_
      simp [Ret.moved, Content.moved]
  | tableRow =>
    refine .pure ?_
    rw [hcon]
    simp [Ret.moved, Content.moved]
  | definitions =>
    simp only [Booklit.callBase, hcon, definitionItems_moved]
    cases definitionItems (contentArgs as) with
    | none => exact .pure rfl
    | some rows =>
      refine .pure ?_
      simp [Ret.moved, Content.moved]
  | definition =>
    rcases ha with _ | ⟨_ | _ | _ | _, _ | ⟨_ | _ | _ | _, _ | _⟩⟩ <;> first | exact Sim.panic | skip
    refine .pure ?_
    simp [Ret.moved, Content.moved]

/-- Arguments that are still to be evaluated. -/
def SimArg (W : World) (old : Heap) (a b : Node × Ev) : Prop := b.1 = a.1 ∧ SimEv W old a.2 b.2

theorem Sim.convert {k k' : Nat} (hk : k ≤ k') (i : Nat) (t : Ty) {a b : Node × Ev} (h : SimArg W old a b) :
    Sim W old (ArgV.Like W old) (convert W k i t a) (convert W k' (i + old.length) t b) := by
  obtain ⟨n, ev⟩ := a
  obtain ⟨n', ev'⟩ := b
  obtain ⟨rfl, h⟩ := h
  cases t with
  | string =>
    refine (h i .nil).bind fun a b e => ?_
    subst e
    refine Sim.get fun s s' hs => (Sim.text hk hs a).bind fun x y e => ?_
    subst e
    exact .pure (.str _)
  | content =>
    refine (h i .nil).bind fun a b e => ?_
    subst e
    rw [moved_isNil]
    refine .pure ?_
    split
    · exact .zero
    · exact .content a
  | node => exact .pure (.node n' h)
  | other => exact .lift (.inr rfl)

theorem Sim.convertAll {k k' : Nat} (hk : k ≤ k') (i : Nat) {as bs : List (Node × Ev)} (h : All2 (SimArg W old) as bs) :
    ∀ (ts : List Ty) (v : Option Ty),
      Sim W old (All2 (ArgV.Like W old)) (convertAll W k i ts v as) (convertAll W k' (i + old.length) ts v bs) := by
  induction h with
  | nil => intro ts v; cases ts <;> cases v <;> exact .pure .nil
  | cons h _ ih =>
    intro ts v
    match ts, v with
    | t :: ts, v =>
      exact (Sim.convert hk i t h).bind fun x y hx => (ih ts v).bind fun xs ys hxs => .pure (.cons hx hxs)
    | [], some v =>
      exact (Sim.convert hk i v h).bind fun x y hx => (ih [] (some v)).bind fun xs ys hxs => .pure (.cons hx hxs)
    | [], none => exact .pure .nil

theorem raw_like {a b : ArgV} (h : ArgV.Like W old a b) : b.raw = a.raw.moved old.length := by cases h <;> rfl

theorem isZero_like {a b : ArgV} (h : ArgV.Like W old a b) : b.isZero = a.isZero := by cases h <;> rfl

theorem Sim.callMethod (hl : W.LocalAt old) {k k' : Nat} (hk : k ≤ k') {inc inc' : Inc} (hi : SimInc W old inc inc') (i : Nat) {m : Method}
    (hm : ∀ f, m = .foreign f → ∃ p name, W.foreign p name = some f)
    {as bs : List ArgV} (ha : All2 (ArgV.Like W old) as bs) :
    Sim W old (fun a b => b = a.moved old.length) (callMethod W k inc i m as) (callMethod W k' inc' (i + old.length) m bs) := by
  have hz : bs.any ArgV.isZero = as.any ArgV.isZero := by
    clear hm
    induction ha with
    | nil => rfl
    | cons h _ ih => simp [isZero_like h, ih]
  have hr : bs.map ArgV.raw = (as.map ArgV.raw).map (Raw.moved old.length) := by
    clear hm hz
    induction ha with
    | nil => rfl
    | cons h _ ih => simp [raw_like h, ih]
  unfold Booklit.callMethod
  rw [hz]
  split
  · exact Sim.panic
  · cases m with
    | base b => exact Sim.callBase hk hi i b ha
    | foreign f =>
      obtain ⟨p, name, hf⟩ := hm f rfl
      intro s s' hs
      refine .inr ⟨?_, hs⟩
      dsimp only [Res.Like]
      rw [hr, hs.heap]
      exact hl p name f hf s.heap i _

theorem Sim.finish (fn path : Str) (loc : Location) (r : Content) (ret : Ret) :
    Sim W old (fun a b => b = a.moved old.length) (finish fn path loc r ret)
      (finish fn path loc (r.moved old.length) (ret.moved old.length)) := by
  cases ret with
  | nothing => exact .pure rfl
  | other => exact .lift (.inr rfl)
  | content c =>
    simp only [Booklit.finish, Ret.moved, moved_isNil]
    split
    · exact Sim.panic
    · exact .pure (append_moved1 r c)
  | error e =>
    cases e with
    | none => exact .pure rfl
    | some e => exact .lift (.inr rfl)
  | both c e =>
    cases e with
    | some e => exact .lift (.inr rfl)
    | none =>
      simp only [Booklit.finish, Ret.moved, moved_isNil]
      split
      · exact Sim.panic
      · exact .pure (append_moved1 r c)

theorem Sim.invokeFn (hl : W.LocalAt old) {k k' : Nat} (hk : k ≤ k') {inc inc' : Inc} (hi : SimInc W old inc inc') (fn : Str) (loc : Location)
    {as bs : List (Node × Ev)} (ha : All2 (SimArg W old) as bs) :
    SimEv W old (invokeFn W k inc fn loc as) (invokeFn W k' inc' fn loc bs) := by
  have hlen : bs.length = as.length := by
    clear hl hi hk
    induction ha with
    | nil => rfl
    | cons _ _ ih => simp [ih]
  intro i r
  unfold Booklit.invokeFn
  refine (Sim.upd i (by intro x; rfl)).bind fun _ _ _ => (Sim.filePath i).bind fun a b e => Sim.get fun s s' hs => ?_
  subst e
  have hp : (s'.heap.get (i + old.length)).plugins = (s.heap.get i).plugins := by rw [hs.moved i]; rfl
  rw [hp]
  cases hf : findMethod W (methodName fn) (s.heap.get i).plugins with
  | none => exact .lift (.inr rfl)
  | some m =>
    dsimp only
    rw [hlen]
    split
    · refine (Sim.convertAll hk i ha m.sig.1 m.sig.2).bind fun vs ws hv => ?_
      refine (Sim.callMethod hl hk hi i (fun f e => (findMethod_foreign (e ▸ hf)).imp fun _ h => ⟨_, h⟩) hv).bind fun x y e => ?_
      subst e
      exact Sim.finish fn _ loc r x
    · exact .lift (.inr rfl)

theorem Sim.finishPara (r : Content) (xs : List Content) :
    Sim W old (fun a b => b = a.moved old.length) (finishPara r xs)
      (finishPara (r.moved old.length) (xs.map (Content.moved old.length))) := by
  match xs with
  | [] => exact .pure rfl
  | [x] =>
    simp only [Booklit.finishPara, List.map_cons, List.map_nil, isFlow_moved]
    cases isFlow x with
    | none => exact Sim.panic
    | some b =>
      cases b with
      | false => exact .pure (append_moved1 r x)
      | true => exact .pure (append_moved1 r (.para [x]))
  | x :: y :: xs =>
    refine .pure ?_
    have := append_moved1 (d := old.length) r (.para (x :: y :: xs))
    rw [← this]
    simp [Content.moved]

section
variable (hl : W.LocalAt old) {k k' : Nat} (hk : k ≤ k') {inc inc' : Inc} (hi : SimInc W old inc inc')
include hl hk hi

mutual
theorem Sim.evalNode : ∀ n : Node, SimEv W old (evalNode W k inc n) (evalNode W k' inc' n)
  | .str s => fun i r => .pure (append_moved1 r (.str s))
  | .seq ns => Sim.evalSeq ns
  | .para ls => fun i r => by
    refine (Sim.evalLines ls i).bind fun a b e => ?_
    subst e
    exact Sim.finishPara r a
  | .pre ls => fun i r => by
    refine (Sim.evalLines ls i).bind fun a b e => ?_
    subst e
    refine .pure ?_
    have := append_moved1 (d := old.length) r (.pre a)
    rw [← this]
    simp [Content.moved]
  | .invoke fn args loc => Sim.invokeFn hl hk hi fn loc (Sim.evalArgs args)
theorem Sim.evalSeq : ∀ ns : List Node, SimEv W old (evalSeq W k inc ns) (evalSeq W k' inc' ns)
  | [] => fun i r => .pure rfl
  | n :: ns => fun i r => by
    refine (Sim.evalNode n i r).bind fun a b e => ?_
    subst e
    exact Sim.evalSeq ns i a
theorem Sim.evalLines : ∀ (ls : List (List Node)) i, Sim W old (fun a b => b = a.map (Content.moved old.length))
    (evalLines W k inc ls i) (evalLines W k' inc' ls (i + old.length))
  | [], i => .pure rfl
  | l :: ls, i => by
    refine (Sim.evalSeq l i .nil).bind fun a b e => ?_
    subst e
    refine (Sim.evalLines ls i).bind fun x y e => ?_
    subst e
    rw [moved_isNil]
    refine .pure ?_
    split <;> rfl
theorem Sim.evalArgs : ∀ ns : List Node, All2 (SimArg W old) (evalArgs W k inc ns) (evalArgs W k' inc' ns)
  | [] => .nil
  | n :: ns => .cons ⟨rfl, Sim.evalNode n⟩ (Sim.evalArgs ns)
end

end

theorem Sim.remember {path : Str} {info : FileInfo} {node : Node} (hf : W.fs path = some info)
    (hp : parseFile path info = .ok node) :
    Sim W old (fun _ _ => True) (remember path node info.mtime) (remember path node info.mtime) :=
  fun _ _ hs => .inr ⟨trivial, hs.heap, hs.fits.remember hf hp, hs.fits'.remember hf hp⟩

theorem Sim.evalFile (hl : W.LocalAt old) : ∀ {n n' : Nat}, n ≤ n' → ∀ (parent : Option Nat) (path : Str) (plugins : List Nat),
    Sim W old (fun a b => b = a + old.length) (evalFile W n parent path plugins)
      (evalFile W n' (parent.map (· + old.length)) path plugins) := by
  intro n
  induction n with
  | zero => intro n' _ parent path plugins s s' _; exact .inl rfl
  | succ n ih =>
    intro n' hn parent path plugins
    obtain ⟨n', rfl⟩ : ∃ k, n' = k + 1 := ⟨n' - 1, by omega⟩
    unfold Booklit.evalFile
    refine Sim.get fun s s' hs => ?_
    cases hf : W.fs path with
    | none => exact .lift (.inr rfl)
    | some info =>
      dsimp only
      have e2 : Sim W old (fun a b => b = a ∧ parseFile path info = .ok a) (M.lift (parseFile path info)) (M.lift (parseFile path info)) := by
        refine Sim.lift ?_
        cases parseFile path info with
        | ok a => exact .inr ⟨rfl, rfl⟩
        | err e => exact .inr rfl
        | panic => exact .inr trivial
        | more => exact .inl rfl
      have rest : ∀ node node', node' = node ∧ parseFile path info = .ok node → Sim W old (fun a b => b = a + old.length)
          (do
            let i ← M.alloc { Sec.fresh parent path with plugins := plugins }
            evalBody (Booklit.evalNode W n (fun p q => do
              let c ← Booklit.evalFile W n (some p) q [0]
              M.upd p fun x => { x with children := x.children ++ [c] }) node) i
            Booklit.remember path node info.mtime
            Pure.pure i)
          (do
            let i ← M.alloc { Sec.fresh (parent.map (· + old.length)) path with plugins := plugins }
            evalBody (Booklit.evalNode W n' (fun p q => do
              let c ← Booklit.evalFile W n' (some p) q [0]
              M.upd p fun x => { x with children := x.children ++ [c] }) node') i
            Booklit.remember path node' info.mtime
            Pure.pure i) := by
        intro node node' e
        obtain ⟨rfl, hp⟩ := e
        refine (Sim.alloc _).bind fun c c' e => ?_
        subst e
        refine (Sim.body ?_ c).bind fun _ _ _ => (Sim.remember hf hp).bind fun _ _ _ => .pure rfl
        refine Sim.evalNode hl (by omega) (fun i q => ?_) node'
        refine (ih (by omega) (some i) q [0]).bind fun a b e => ?_
        subst e
        exact Sim.upd i fun x => by simp [Sec.moved]
      have p1 : ∀ node, cached s.cache path info.mtime = some node → (Pure.pure node : M Node) = M.lift (parseFile path info) := by
        intro node h
        rw [hs.fits _ _ _ hf h]
        rfl
      have p2 : ∀ node, cached s'.cache path info.mtime = some node → (Pure.pure node : M Node) = M.lift (parseFile path info) := by
        intro node h
        rw [hs.fits' _ _ _ hf h]
        rfl
      cases hc : cached s.cache path info.mtime with
      | none =>
        cases hc' : cached s'.cache path info.mtime with
        | none => exact e2.bind fun a b e => rest a b e
        | some node' => exact Sim.bind (by rw [p2 _ hc']; exact e2) rest
      | some node =>
        cases hc' : cached s'.cache path info.mtime with
        | none => exact Sim.bind (by rw [p1 _ hc]; exact e2) rest
        | some node' => exact Sim.bind (by rw [p1 _ hc, p2 _ hc']; exact e2) rest

end

end Booklit
