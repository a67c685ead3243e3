import Verif.Lemmas.ErasedTmpl
import Verif.Lemmas.MovedEval

/-!
Two runs of the evaluator side by side: one on the syntax trees of the files, and one on the trees without places. They make the
same sections, up to places.
-/

namespace Booklit

/-- The world without its files. -/
def World.dry (W : World) : World := ⟨fun _ => none, W.registry, W.foreign, W.brokenOk⟩

/-- The states of the two runs. -/
structure Faded (W : World) (s s' : St) : Prop where
  heap : s'.heap = s.heap.erased
  fits : Fits W s.cache

/-- Results of the two runs. -/
def Res.Fade {α β : Type} (R : α → β → Prop) : Res α → Res β → Prop
  | .ok a, .ok b => R a b
  | .err e, .err e' => e' = e.erased
  | .panic, .panic => True
  | .more, .more => True
  | _, _ => False

/-- The two computations do the same, up to places. -/
def Fade (W : World) {α β : Type} (R : α → β → Prop) (m : M α) (m' : M β) : Prop :=
  ∀ s s', Faded W s s' → (m s).1.Fade R (m' s').1 ∧ Faded W (m s).2 (m' s').2

theorem Res.Fade.of_eq {α β : Type} {f : α → β} {x : Res α} {y : Res β} (h : y = x.erased f) : x.Fade (fun a b => b = f a) y := by
  subst h
  cases x <;> first | exact rfl | trivial

theorem Res.Fade.of_eq' {α : Type} {x y : Res α} (h : y = x.erased id) : x.Fade (fun a b => b = a) y := Res.Fade.of_eq h

theorem Res.Fade.eq {α β : Type} {f : α → β} {x : Res α} {y : Res β} (h : x.Fade (fun a b => b = f a) y) : y = x.erased f := by
  cases x <;> cases y <;> first | exact h.elim | rfl | (cases h; rfl)

section
variable {W : World} {α β γ δ : Type}

theorem Fade.pure {R : α → β → Prop} {a : α} {b : β} (h : R a b) : Fade W R (Pure.pure a : M α) (Pure.pure b : M β) :=
  fun _ _ hs => ⟨h, hs⟩

theorem Fade.lift {R : α → β → Prop} {r : Res α} {r' : Res β} (h : r.Fade R r') : Fade W R (M.lift r) (M.lift r') :=
  fun _ _ hs => ⟨h, hs⟩

theorem Fade.bind {R : α → β → Prop} {Q : γ → δ → Prop} {m : M α} {m' : M β} {f : α → M γ} {f' : β → M δ}
    (hm : Fade W R m m') (hf : ∀ a b, R a b → Fade W Q (f a) (f' b)) : Fade W Q (m >>= f) (m' >>= f') := by
  intro s s' hs
  have := hm s s' hs
  rw [M.bind_run, M.bind_run, M.bind, M.bind]
  revert this
  cases m s with
  | mk r t => cases m' s' with
    | mk r' t' =>
      rintro ⟨h, ht⟩
      dsimp only at h ht
      cases r <;> cases r' <;> first | exact h.elim | skip
      · exact hf _ _ h t t' ht
      · exact ⟨h, ht⟩
      · exact ⟨h, ht⟩
      · exact ⟨h, ht⟩

theorem Fade.get {Q : γ → δ → Prop} {f : St → M γ} {f' : St → M δ} (hf : ∀ s s', Faded W s s' → Fade W Q (f s) (f' s')) :
    Fade W Q (M.get >>= f) (M.get >>= f') := fun s s' hs => hf s s' hs s s' hs

theorem Fade.attempt {R : α → β → Prop} {m : M α} {m' : M β} (hm : Fade W R m m') :
    Fade W (fun a b => b = a.map Err.erased) (M.attempt m) (M.attempt m') := by
  intro s s' hs
  have := hm s s' hs
  rw [M.attempt, M.attempt]
  revert this
  cases m s with
  | mk r t => cases m' s' with
    | mk r' t' =>
      rintro ⟨h, ht⟩
      dsimp only at h ht
      cases r <;> cases r' <;> first | exact h.elim | skip
      · exact ⟨rfl, ht⟩
      · cases h
        exact ⟨rfl, ht⟩
      · exact ⟨trivial, ht⟩
      · exact ⟨trivial, ht⟩

theorem erased_upd (h : Heap) (i : Nat) {f f' : Sec → Sec} (hf : ∀ x, f' x.erased = (f x).erased) :
    h.erased.upd i f' = Heap.erased (h.upd i f) := by
  rw [Heap.upd, Heap.upd, Heap.erased, Heap.erased]
  apply List.ext_getElem?
  intro j
  rw [List.getElem?_modify, List.getElem?_map, List.getElem?_map, List.getElem?_modify]
  by_cases e : i = j
  · subst e
    simp only [if_true]
    cases h[i]? <;> simp [hf]
  · simp only [e, if_false]
    cases h[j]? <;> rfl

theorem Fade.upd (i : Nat) {f f' : Sec → Sec} (hf : ∀ x, f' x.erased = (f x).erased) :
    Fade W (fun _ _ => True) (M.upd i f) (M.upd i f') := by
  intro s s' hs
  refine ⟨trivial, ?_, hs.fits⟩
  simp only [M.upd, hs.heap]
  exact erased_upd s.heap i hf

theorem Fade.alloc (x : Sec) : Fade W (fun a b => b = a) (M.alloc x) (M.alloc x.erased) := by
  intro s s' hs
  refine ⟨?_, ?_, hs.fits⟩
  · simp only [M.alloc, Res.Fade, hs.heap, Heap.erased, List.length_map]
  · simp only [M.alloc, hs.heap, Heap.erased, List.map_append]
    rfl

theorem Faded.of {s s' : St} (h : Faded W s s') : ErasedTo s.heap s'.heap := by
  rw [h.heap]
  exact heap_erased s.heap

theorem Faded.length {s s' : St} (h : Faded W s s') : s'.heap.length = s.heap.length := by
  rw [h.heap, Heap.erased, List.length_map]

end

/-- Evaluation. -/
def FadeEv (W : World) (ev ev' : Ev) : Prop :=
  ∀ i c, Fade W (fun a b => b = a.erased) (ev i c) (ev' i c.erased)

/-- Arguments in the two runs. -/
inductive ArgV.Fade (W : World) : ArgV → ArgV → Prop
  | str (s) : ArgV.Fade W (.str s) (.str s)
  | content (c) : ArgV.Fade W (.content c) (.content c.erased)
  | node (n : Node) {ev ev'} (h : FadeEv W ev ev') : ArgV.Fade W (.node n ev) (.node n.erase ev')
  | zero : ArgV.Fade W .zero .zero

section
variable {W : World}

theorem Fade.text {b : Bool} {k : Nat} {s s' : St} (hs : Faded W s s') (c : Content) :
    Fade W (fun a b => b = a) (M.lift (s.heap.text b k c)) (M.lift (s'.heap.text b k c.erased)) :=
  Fade.lift (Res.Fade.of_eq' (heapText_erased hs.of b k c))

theorem Fade.filePath (i : Nat) : Fade W (fun a b => b = a) (filePathM i) (filePathM i) := by
  intro s s' hs
  simp only [filePathM, filePath_erased hs.of, hs.length]
  refine ⟨Res.Fade.of_eq' ?_, hs⟩
  simp [Res.erased_ofFuel]

theorem Fade.defaultTag {k : Nat} (t : Content) :
    Fade W (fun a b => b = a) (defaultTag W k t) (defaultTag W.dry k t.erased) := by
  intro s s' hs
  simp only [Booklit.defaultTag, stripAux_erased, World.dry]
  cases stripAux t with
  | none => exact ⟨trivial, hs⟩
  | some c =>
    simp only [Option.map_some]
    refine ⟨Res.Fade.of_eq' ?_, hs⟩
    simp only [heapText_erased hs.of, Res.map_erased, Res.erased_map]
    rfl

theorem Fade.titleNames {k : Nat} (t : Content) (tags : List Str) :
    Fade W (fun a b => b = a) (titleNames W k t tags) (titleNames W.dry k t.erased tags) := by
  unfold Booklit.titleNames
  split
  · exact (Fade.defaultTag t).bind fun a b e => by subst e; exact .pure rfl
  · exact .pure rfl

theorem Fade.setTitle (i : Nat) (t : Content) (l : Location) (names : List Str) :
    Fade W (fun _ _ => True) (setTitle i t l names) (setTitle i t.erased Location.zero names) := by
  refine Fade.upd i fun x => ?_
  simp only [Sec.erased, List.map_map]
  have : (names.map fun n => (⟨n, t.erased, some i, [], .nil, Location.zero⟩ : Tag)) =
      (names.map fun n => (⟨n, t, some i, [], .nil, l⟩ : Tag)).map Tag.erased := by
    simp [List.map_map, Tag.erased, Function.comp_def, Content.erased]
  rw [this]
  cases names with
  | nil => simp [Tag.erased, Tag.zero, Content.erased]
  | cons n ns => simp [Function.comp_def]

theorem strArgs_fade {as bs : List ArgV} (h : All2 (ArgV.Fade W) as bs) : strArgs bs = strArgs as := by
  induction h with
  | nil => rfl
  | cons h _ ih => cases h <;> simp [strArgs, ih]

theorem contentArgs_fade {as bs : List ArgV} (h : All2 (ArgV.Fade W) as bs) :
    contentArgs bs = (contentArgs as).map Content.erased := by
  induction h with
  | nil => rfl
  | cons h _ ih => cases h <;> simp [contentArgs, ih]

theorem tableRows_erased (cs : List Content) :
    tableRows (cs.map Content.erased) = (tableRows cs).map (List.map fun r => r.map Content.erased) := by
  induction cs with
  | nil => rfl
  | cons c cs ih =>
    cases c <;> first | rfl | skip
    simp only [List.map_cons, Content.erased, tableRows, ih, erasedL_eq]
    cases tableRows cs <;> rfl

theorem definitionItems_erased (cs : List Content) :
    definitionItems (cs.map Content.erased) = (definitionItems cs).map (List.map fun p => (p.1.erased, p.2.erased)) := by
  induction cs with
  | nil => rfl
  | cons c cs ih =>
    cases c <;> first | rfl | skip
    rename_i items o
    match items with
    | [] => rfl
    | [_] => rfl
    | [a, b] =>
      simp only [List.map_cons, Content.erased, definitionItems, ih, erasedL_eq, List.map_nil]
      cases definitionItems cs <;> rfl
    | _ :: _ :: _ :: _ => rfl

theorem Fade.body {ev ev' : Ev} (h : FadeEv W ev ev') (i : Nat) :
    Fade W (fun _ _ => True) (evalBody ev i) (evalBody ev' i) := by
  refine (h i .nil).bind fun a b e => ?_
  subst e
  rw [erased_isNil]
  split
  · exact .pure trivial
  · exact Fade.upd i fun x => rfl

theorem Fade.inline {ev ev' : Ev} (h : FadeEv W ev ev') (i : Nat) :
    Fade W (fun _ _ => True) (evalInline i ev) (evalInline i ev') := by
  refine Fade.get fun s s' hs => ?_
  have hp : (s'.heap.get i).plugins = (s.heap.get i).plugins := by rw [hs.of i]; rfl
  rw [hp]
  refine (Fade.alloc _).bind fun c c' e => ?_
  obtain rfl : c = c' := e.symm
  refine (Fade.body h c).bind fun _ _ _ => Fade.get fun s s' hs => ?_
  refine (Fade.upd c fun x => ?_).bind fun _ _ _ => Fade.upd i fun x => ?_
  · rw [hs.of i]
    rfl
  · simp [Sec.erased]

/-- Inclusion. -/
def FadeInc (W : World) (inc inc' : Inc) : Prop :=
  ∀ i p, Fade W (fun _ _ => True) (inc i p) (inc' i p)

theorem Fade.panic {α β : Type} {R : α → β → Prop} : Fade W R (M.lift .panic) (M.lift .panic) := Fade.lift trivial

theorem Fade.callBase {k : Nat} {inc inc' : Inc} (hi : FadeInc W inc inc') (i : Nat) (b : Base)
    {as bs : List ArgV} (ha : All2 (ArgV.Fade W) as bs) :
    Fade W (fun a b => b = a.erased) (callBase W k inc i b as) (callBase W.dry k inc' i b bs) := by
  have hstr := strArgs_fade ha
  have hcon := contentArgs_fade ha
  cases b with
  | usePlugin =>
    rcases ha with _ | ⟨_ | _ | _ | _, _ | _⟩ <;> first | exact Fade.panic | skip
    simp only [Booklit.callBase, World.dry]
    cases W.registry _ with
    | none => exact .pure rfl
    | some p => exact (Fade.upd i (by intro x; rfl)).bind fun _ _ _ => .pure rfl
  | styled =>
    rcases ha with _ | ⟨_ | _ | _ | _, _ | _⟩ <;> first | exact Fade.panic | skip
    exact (Fade.upd i (by intro x; rfl)).bind fun _ _ _ => .pure rfl
  | title =>
    rcases ha with _ | ⟨_ | _ | _ | _, ht⟩ <;> first | exact Fade.panic | skip
    refine Fade.get fun s s' hs => ?_
    simp only [strArgs] at hstr
    rw [hs.of i, hstr]
    simp only [Sec.erased, erased_isEmpty]
    split
    · refine (Fade.titleNames _ _).bind fun a b e => ?_
      subst e
      exact (Fade.setTitle i _ _ _).bind fun _ _ _ => .pure rfl
    · refine (Fade.filePath i).bind fun a b e => ?_
      subst e
      exact .pure rfl
  | aux =>
    rcases ha with _ | ⟨_ | _ | _ | _, _ | _⟩ <;> first | exact Fade.panic | skip
    exact .pure rfl
  | «section» =>
    rcases ha with _ | ⟨_ | _ | ⟨_, h⟩ | _, _ | _⟩ <;> first | exact Fade.panic | skip
    refine (Fade.attempt (Fade.inline h i)).bind fun a b e => ?_
    subst e
    exact .pure rfl
  | includeSection =>
    rcases ha with _ | ⟨_ | _ | _ | _, _ | _⟩ <;> first | exact Fade.panic | skip
    refine (Fade.filePath i).bind fun a b e => ?_
    subst e
    refine (Fade.attempt (hi i _)).bind fun a b e => ?_
    subst e
    exact .pure rfl
  | singlePage =>
    rcases ha with _ | ⟨_, _⟩ <;> first | exact Fade.panic | skip
    exact (Fade.upd i (by intro x; rfl)).bind fun _ _ _ => .pure rfl
  | splitSections =>
    rcases ha with _ | ⟨_, _⟩ <;> first | exact Fade.panic | skip
    refine (Fade.upd i (by intro x; rfl)).bind fun _ _ _ => Fade.get fun s s' hs => ?_
    have h1 : (Res.ofFuel (s.heap.splitPrevented (s.heap.length + 1) i)).Fade (fun a b => b = a)
        (Res.ofFuel (s'.heap.splitPrevented (s'.heap.length + 1) i)) := by
      refine Res.Fade.of_eq' ?_
      simp [Res.erased_ofFuel, splitPrevented_erased hs.of, hs.length]
    refine (Fade.lift h1).bind fun a b e => ?_
    subst e
    split
    · exact .pure rfl
    · exact (Fade.upd i (by intro x; rfl)).bind fun _ _ _ => .pure rfl
  | omitChildren =>
    rcases ha with _ | ⟨_, _⟩ <;> first | exact Fade.panic | skip
    exact (Fade.upd i (by intro x; rfl)).bind fun _ _ _ => .pure rfl
  | tableOfContents =>
    rcases ha with _ | ⟨_, _⟩ <;> first | exact Fade.panic | skip
    exact .pure rfl
  | style s =>
    rcases ha with _ | ⟨_ | _ | _ | _, _ | _⟩ <;> first | exact Fade.panic | skip
    exact .pure rfl
  | link =>
    rcases ha with _ | ⟨_ | _ | _ | _, _ | ⟨_ | _ | _ | _, _ | _⟩⟩ <;> first | exact Fade.panic | skip
    exact .pure rfl
  | reference =>
    rcases ha with _ | ⟨_ | _ | _ | _, ht⟩ <;> first | exact Fade.panic | skip
    refine Fade.get fun s s' hs => ?_
    simp only [contentArgs] at hcon
    rw [hs.of i, hcon]
    refine .pure ?_
    cases contentArgs _ <;> rfl
  | target =>
    rcases ha with _ | ⟨_ | _ | _ | _, ht⟩ <;> first | exact Fade.panic | skip
    refine Fade.get fun s s' hs => ?_
    simp only [contentArgs] at hcon
    rw [hs.of i, hcon]
    refine .pure ?_
    rename_i as bs _
    rcases contentArgs as with _ | ⟨a, _ | ⟨b, _ | ⟨c, _⟩⟩⟩ <;> rfl
  | list =>
    refine .pure ?_
    rw [hcon]
    simp [Ret.erased, Content.erased]
  | orderedList =>
    refine .pure ?_
    rw [hcon]
    simp [Ret.erased, Content.erased]
  | image =>
    rcases ha with _ | ⟨_ | _ | _ | _, ht⟩ <;> first | exact Fade.panic | skip
    simp only [strArgs, List.cons.injEq, true_and] at hstr
    refine .pure ?_
    rw [hstr]
    rfl
  | setPartial =>
    rcases ha with _ | ⟨_ | _ | _ | _, _ | ⟨_ | _ | _ | _, _ | _⟩⟩ <;> first | exact Fade.panic | skip
    refine (Fade.upd i fun x => ?_).bind fun _ _ _ => .pure rfl
    simp only [Sec.setPartial, Sec.erased, List.map_cons, List.filter_map]
    rfl
  | table =>
    simp only [Booklit.callBase, hcon, tableRows_erased]
    cases tableRows (contentArgs as) with
    | none => exact .pure rfl
    | some rows =>
      refine .pure ?_
      simp [Ret.erased, Content.erased]
  | tableRow =>
    refine .pure ?_
    rw [hcon]
    simp [Ret.erased, Content.erased]
  | definitions =>
    simp only [Booklit.callBase, hcon, definitionItems_erased]
    cases definitionItems (contentArgs as) with
    | none => exact .pure rfl
    | some rows =>
      refine .pure ?_
      simp [Ret.erased, Content.erased]
  | definition =>
    rcases ha with _ | ⟨_ | _ | _ | _, _ | ⟨_ | _ | _ | _, _ | _⟩⟩ <;> first | exact Fade.panic | skip
    refine .pure ?_
    simp [Ret.erased, Content.erased]

/-- Arguments that are still to be evaluated. -/
def FadeArg (W : World) (a b : Node × Ev) : Prop := b.1 = a.1.erase ∧ FadeEv W a.2 b.2

theorem Fade.convert {k : Nat} (i : Nat) (t : Ty) {a b : Node × Ev} (h : FadeArg W a b) :
    Fade W (ArgV.Fade W) (convert W k i t a) (convert W.dry k i t b) := by
  obtain ⟨n, ev⟩ := a
  obtain ⟨n', ev'⟩ := b
  obtain ⟨rfl, h⟩ := h
  cases t with
  | string =>
    refine (h i .nil).bind fun a b e => ?_
    subst e
    refine Fade.get fun s s' hs => (Fade.text hs a).bind fun x y e => ?_
    subst e
    exact .pure (.str _)
  | content =>
    refine (h i .nil).bind fun a b e => ?_
    subst e
    rw [erased_isNil]
    refine .pure ?_
    split
    · exact .zero
    · exact .content a
  | node => exact .pure (.node n h)
  | other => exact .lift rfl

theorem Fade.convertAll {k : Nat} (i : Nat) {as bs : List (Node × Ev)} (h : All2 (FadeArg W) as bs) :
    ∀ (ts : List Ty) (v : Option Ty),
      Fade W (All2 (ArgV.Fade W)) (convertAll W k i ts v as) (convertAll W.dry k i ts v bs) := by
  induction h with
  | nil => intro ts v; cases ts <;> cases v <;> exact .pure .nil
  | cons h _ ih =>
    intro ts v
    match ts, v with
    | t :: ts, v =>
      exact (Fade.convert i t h).bind fun x y hx => (ih ts v).bind fun xs ys hxs => .pure (.cons hx hxs)
    | [], some v =>
      exact (Fade.convert i v h).bind fun x y hx => (ih [] (some v)).bind fun xs ys hxs => .pure (.cons hx hxs)
    | [], none => exact .pure .nil

theorem raw_fade {a b : ArgV} (h : ArgV.Fade W a b) : b.raw = a.raw.erased := by cases h <;> rfl

theorem isZero_fade {a b : ArgV} (h : ArgV.Fade W a b) : b.isZero = a.isZero := by cases h <;> rfl

theorem Fade.callMethod (hl : Blind W.foreign) {k : Nat} {inc inc' : Inc} (hi : FadeInc W inc inc') (i : Nat) {m : Method}
    (hm : ∀ f, m = .foreign f → ∃ p name, W.foreign p name = some f)
    {as bs : List ArgV} (ha : All2 (ArgV.Fade W) as bs) :
    Fade W (fun a b => b = a.erased) (callMethod W k inc i m as) (callMethod W.dry k inc' i m bs) := by
  have hz : bs.any ArgV.isZero = as.any ArgV.isZero := by
    clear hm
    induction ha with
    | nil => rfl
    | cons h _ ih => simp [isZero_fade h, ih]
  have hr : bs.map ArgV.raw = (as.map ArgV.raw).map Raw.erased := by
    clear hm hz
    induction ha with
    | nil => rfl
    | cons h _ ih => simp [raw_fade h, ih]
  unfold Booklit.callMethod
  rw [hz]
  split
  · exact Fade.panic
  · cases m with
    | base b => exact Fade.callBase hi i b ha
    | foreign f =>
      obtain ⟨p, name, hf⟩ := hm f rfl
      intro s s' hs
      refine ⟨?_, hs⟩
      dsimp only [Res.Fade]
      rw [hr, hs.heap]
      exact hl p name f hf s.heap i _

theorem Fade.finish (fn path : Str) (loc : Location) (r : Content) (ret : Ret) :
    Fade W (fun a b => b = a.erased) (finish fn path loc r ret)
      (finish fn path Location.zero r.erased ret.erased) := by
  have he : ∀ e : Err, returnedError fn path Location.zero e.erased = (returnedError fn path loc e).erased := fun e => by
    cases e <;> rfl
  cases ret with
  | nothing => exact .pure rfl
  | other => exact .lift rfl
  | content c =>
    simp only [Booklit.finish, Ret.erased, erased_isNil]
    split
    · exact Fade.panic
    · exact .pure (append_erased1 r c)
  | error e =>
    cases e with
    | none => exact .pure rfl
    | some e => exact .lift (he e)
  | both c e =>
    cases e with
    | some e => exact .lift (he e)
    | none =>
      simp only [Booklit.finish, Ret.erased, Option.map_none, erased_isNil]
      split
      · exact Fade.panic
      · exact .pure (append_erased1 r c)

theorem Fade.invokeFn (hl : Blind W.foreign) {k : Nat} {inc inc' : Inc} (hi : FadeInc W inc inc') (fn : Str) (loc : Location)
    {as bs : List (Node × Ev)} (ha : All2 (FadeArg W) as bs) :
    FadeEv W (invokeFn W k inc fn loc as) (invokeFn W.dry k inc' fn Location.zero bs) := by
  have hlen : bs.length = as.length := by
    clear hl hi
    induction ha with
    | nil => rfl
    | cons _ _ ih => simp [ih]
  intro i r
  unfold Booklit.invokeFn
  refine (Fade.upd i (by intro x; rfl)).bind fun _ _ _ => (Fade.filePath i).bind fun a b e => Fade.get fun s s' hs => ?_
  subst e
  have hp : (s'.heap.get i).plugins = (s.heap.get i).plugins := by rw [hs.of i]; rfl
  rw [hp]
  have hd : ∀ ps, findMethod W.dry (methodName fn) ps = findMethod W (methodName fn) ps := by
    intro ps
    induction ps with
    | nil => rfl
    | cons p ps ih => simp only [findMethod, ih]; rfl
  rw [hd]
  cases hf : findMethod W (methodName fn) (s.heap.get i).plugins with
  | none => exact .lift (rfl : Err.undefined _ _ _ = _)
  | some m =>
    dsimp only
    rw [hlen]
    split
    · refine (Fade.convertAll i ha m.sig.1 m.sig.2).bind fun vs ws hv => ?_
      refine (Fade.callMethod hl hi i (fun f e => (findMethod_foreign (e ▸ hf)).imp fun _ h => ⟨_, h⟩) hv).bind fun x y e => ?_
      subst e
      exact Fade.finish fn _ loc r x
    · exact .lift (rfl : Err.plain _ = _)

theorem Fade.finishPara (r : Content) (xs : List Content) :
    Fade W (fun a b => b = a.erased) (finishPara r xs)
      (finishPara r.erased (xs.map Content.erased)) := by
  match xs with
  | [] => exact .pure rfl
  | [x] =>
    simp only [Booklit.finishPara, List.map_cons, List.map_nil, isFlow_erased]
    cases isFlow x with
    | none => exact Fade.panic
    | some b =>
      cases b with
      | false => exact .pure (append_erased1 r x)
      | true => exact .pure (append_erased1 r (.para [x]))
  | x :: y :: xs =>
    refine .pure ?_
    have := append_erased1 r (.para (x :: y :: xs))
    rw [← this]
    simp [Content.erased]

section
variable (hl : Blind W.foreign) {k : Nat} {inc inc' : Inc} (hi : FadeInc W inc inc')
include hl hi

mutual
theorem Fade.evalNode : ∀ n : Node, FadeEv W (evalNode W k inc n) (evalNode W.dry k inc' n.erase)
  | .str s => fun i r => .pure (append_erased1 r (.str s))
  | .seq ns => Fade.evalSeq ns
  | .para ls => fun i r => by
    refine (Fade.evalLines ls i).bind fun a b e => ?_
    subst e
    exact Fade.finishPara r a
  | .pre ls => fun i r => by
    refine (Fade.evalLines ls i).bind fun a b e => ?_
    subst e
    refine .pure ?_
    have := append_erased1 r (.pre a)
    rw [← this]
    simp [Content.erased]
  | .invoke fn args loc => Fade.invokeFn hl hi fn loc (Fade.evalArgs args)
theorem Fade.evalSeq : ∀ ns : List Node, FadeEv W (evalSeq W k inc ns) (evalSeq W.dry k inc' (eraseL ns))
  | [] => fun i r => .pure rfl
  | n :: ns => fun i r => by
    refine (Fade.evalNode n i r).bind fun a b e => ?_
    subst e
    exact Fade.evalSeq ns i a
theorem Fade.evalLines : ∀ (ls : List (List Node)) i, Fade W (fun a b => b = a.map Content.erased)
    (evalLines W k inc ls i) (evalLines W.dry k inc' (eraseLL ls) i)
  | [], i => .pure rfl
  | l :: ls, i => by
    refine (Fade.evalSeq l i .nil).bind fun a b e => ?_
    subst e
    refine (Fade.evalLines ls i).bind fun x y e => ?_
    subst e
    rw [erased_isNil]
    refine .pure ?_
    split <;> rfl
theorem Fade.evalArgs : ∀ ns : List Node, All2 (FadeArg W) (evalArgs W k inc ns) (evalArgs W.dry k inc' (eraseL ns))
  | [] => .nil
  | n :: ns => .cons ⟨rfl, Fade.evalNode n⟩ (Fade.evalArgs ns)
end

end

end

/-- `evalFile` on syntax trees, without a cache. -/
def evalTrees (W : World) (P : Str → Option (Res Node)) : Nat → Option Nat → Str → List Nat → M Nat
  | 0, _, _, _ => M.lift .more
  | n + 1, parent, path, plugins =>
    match P path with
    | none => M.lift (.err (.plain q%"stat error"))
    | some r => do
      let node ← M.lift r
      let i ← M.alloc { Sec.fresh parent path with plugins := plugins }
      evalBody (evalNode W n (fun p q => do
        let c ← evalTrees W P n (some p) q [0]
        M.upd p fun x => { x with children := x.children ++ [c] }) node) i
      pure i

theorem treesOf_alike {fs fs' : Str → Option FileInfo} (h : FilesAlike fs fs') : treesOf fs = treesOf fs' := by
  funext path
  have := h path
  simp only [treesOf]
  revert this
  cases fs path <;> cases fs' path <;> intro this <;> first | exact this.elim | rfl | exact congrArg some this

section
variable {W : World}

theorem Fade.evalFile (hl : Blind W.foreign) : ∀ (n : Nat) (parent : Option Nat) (path : Str) (plugins : List Nat),
    Fade W (fun a b => b = a) (evalFile W n parent path plugins) (evalTrees W.dry (treesOf W.fs) n parent path plugins) := by
  intro n
  induction n with
  | zero => intro parent path plugins s s' hs; exact ⟨trivial, hs⟩
  | succ n ih =>
    intro parent path plugins s s' hs
    simp only [Booklit.evalFile, evalTrees, treesOf]
    cases hf : W.fs path with
    | none => exact ⟨rfl, hs⟩
    | some info =>
      simp only [Option.map_some]
      have e2 : Fade W (fun a b => b = a.erase ∧ parseFile path info = .ok a) (M.lift (parseFile path info))
          (M.lift ((parseFile path info).erased Node.erase)) := by
        refine Fade.lift ?_
        cases parseFile path info with
        | ok a => exact ⟨rfl, rfl⟩
        | err e => exact rfl
        | panic => exact trivial
        | more => exact trivial
      have rest : ∀ node node', node' = node.erase ∧ parseFile path info = .ok node → Fade W (fun a b => b = a)
          (do
            let i ← M.alloc { Sec.fresh parent path with plugins := plugins }
            evalBody (Booklit.evalNode W n (fun p q => do
              let c ← Booklit.evalFile W n (some p) q [0]
              M.upd p fun x => { x with children := x.children ++ [c] }) node) i
            Booklit.remember path node info.mtime
            Pure.pure i)
          (do
            let i ← M.alloc { Sec.fresh parent path with plugins := plugins }
            evalBody (Booklit.evalNode W.dry n (fun p q => do
              let c ← evalTrees W.dry (treesOf W.fs) n (some p) q [0]
              M.upd p fun x => { x with children := x.children ++ [c] }) node') i
            Pure.pure i) := by
        intro node node' h
        obtain ⟨rfl, hp⟩ := h
        refine (Fade.alloc _).bind fun c c' e => ?_
        obtain rfl : c = c' := e.symm
        refine (Fade.body ?_ _).bind fun _ _ _ => ?_
        · refine Fade.evalNode hl (fun i q => ?_) node
          refine (ih (some i) q [0]).bind fun a b e => ?_
          obtain rfl : a = b := e.symm
          exact Fade.upd i fun x => rfl
        · intro t t' ht
          exact ⟨rfl, ht.heap, ht.fits.remember hf hp⟩
      cases hc : cached s.cache path info.mtime with
      | none =>
        have := (e2.bind rest) s s' hs
        rw [M.bind_run, M.bind, M.get]
        dsimp only
        rw [hc]
        exact this
      | some node =>
        have := (e2.bind rest) s s' hs
        rw [M.bind_run, M.bind, M.get]
        dsimp only
        rw [hc]
        have e3 : M.lift (parseFile path info) = (Pure.pure node : M Node) := by rw [hs.fits _ _ _ hf hc]; rfl
        rw [e3] at this
        exact this

end

end Booklit
