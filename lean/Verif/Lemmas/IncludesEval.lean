import Verif.Lemmas.IncludesL
import Verif.Lemmas.ErasedEval
import Verif.Lemmas.PathL

/-!
Evaluation of two books that differ only in which sections have files of their own: a simulation of the runs that end well.
-/

namespace Booklit

/-! ### States -/

/-- The states of the two runs. -/
structure Parted (s s' : St) : Prop where
  length : s'.heap.length = s.heap.length
  twin : Twin s.heap s'.heap
  parents : ∀ i p, (s.heap.get i).parent = some p → p < s.heap.length
  base : ∀ i, i < s.heap.length → 0 ∈ (s.heap.get i).plugins ∧ 0 ∈ (s'.heap.get i).plugins
  quiet : s.heap.Quiet

/-- A section is from a file of the directory of its side. -/
def At2 (D : Str × Str) (i : Nat) (s s' : St) : Prop :=
  i < s.heap.length ∧ (∃ x, s.heap.filePath (s.heap.length + 1) i = some x ∧ dirPath x = D.1) ∧
  ∃ x, s'.heap.filePath (s'.heap.length + 1) i = some x ∧ dirPath x = D.2

/-- Sections stay in their directories. -/
def Grown (s s' t t' : St) : Prop := ∀ D i, At2 D i s s' → At2 D i t t'

theorem Grown.refl {s s' : St} : Grown s s' s s' := fun _ _ h => h

theorem Grown.trans {s s' t t' u u' : St} (a : Grown s s' t t') (b : Grown t t' u u') : Grown s s' u u' :=
  fun D i h => b D i (a D i h)

/-- If the first run ends well then so does the second. -/
def Pair {α β : Type} (s s' : St) (R : α → β → Prop) (m : M α) (m' : M β) : Prop :=
  ∀ a t, m s = (.ok a, t) → ∃ b t', m' s' = (.ok b, t') ∧ Parted t t' ∧ Grown s s' t t' ∧ R a b

theorem M.bind_ok {α β : Type} {m : M α} {f : α → M β} {s t : St} {b : β} (e : (m >>= f) s = (.ok b, t)) :
    ∃ a u, m s = (.ok a, u) ∧ f a u = (.ok b, t) := by
  rw [M.bind_run, M.bind] at e
  generalize hm : m s = x at e
  obtain ⟨r, u⟩ := x
  cases r with
  | ok a => exact ⟨a, u, rfl, e⟩
  | err => cases e
  | panic => cases e
  | more => cases e

theorem M.bind_of {α β : Type} {m : M α} {f : α → M β} {s u : St} {a : α} (e : m s = (.ok a, u)) : (m >>= f) s = f a u := by
  rw [M.bind_run, M.bind, e]

theorem Pair.bind {α β γ δ : Type} {s s' : St} {R : α → β → Prop} {Q : γ → δ → Prop} {m : M α} {m' : M β} {f : α → M γ} {f' : β → M δ}
    (h : Pair s s' R m m') (hf : ∀ a b t t', Parted t t' → Grown s s' t t' → R a b → Pair t t' Q (f a) (f' b)) :
    Pair s s' Q (m >>= f) (m' >>= f') := by
  intro c t e
  obtain ⟨a, u, e1, e2⟩ := M.bind_ok e
  obtain ⟨b, u', h1, hp, hg, hr⟩ := h a u e1
  obtain ⟨d, t', h2, hp2, hg2, hr2⟩ := hf a b u u' hp hg hr c t e2
  exact ⟨d, t', by rw [M.bind_of h1]; exact h2, hp2, hg.trans hg2, hr2⟩

theorem Pair.pure {α β : Type} {s s' : St} {R : α → β → Prop} {a : α} {b : β} (hp : Parted s s') (h : R a b) :
    Pair s s' R (Pure.pure a) (Pure.pure b) := by
  intro c t e
  cases e
  exact ⟨b, s', rfl, hp, .refl, h⟩

theorem Pair.imp {α β : Type} {s s' : St} {R Q : α → β → Prop} {m : M α} {m' : M β} (h : Pair s s' R m m') (hr : ∀ a b, R a b → Q a b) :
    Pair s s' Q m m' := by
  intro a t e
  obtain ⟨b, t', h1, h2, h3, h4⟩ := h a t e
  exact ⟨b, t', h1, h2, h3, hr _ _ h4⟩

theorem Pair.err {α β : Type} {s s' : St} {R : α → β → Prop} {e : Err} {m' : M β} : Pair s s' R (M.lift (.err e) : M α) m' := by
  intro a t e; cases e

theorem Pair.panic {α β : Type} {s s' : St} {R : α → β → Prop} {m' : M β} : Pair s s' R (M.lift .panic : M α) m' := by
  intro a t e; cases e

theorem Pair.more {α β : Type} {s s' : St} {R : α → β → Prop} {m' : M β} : Pair s s' R (M.lift .more : M α) m' := by
  intro a t e; cases e

theorem Pair.ofRes {α : Type} {s s' : St} {r r' : Res α} (hp : Parted s s') {R : α → α → Prop} (hr : ∀ a, r = .ok a → r' = .ok a ∧ R a a) :
    Pair s s' R (M.lift r) (M.lift r') := by
  intro a t e
  simp only [M.lift, Prod.mk.injEq] at e
  obtain ⟨e, rfl⟩ := e
  exact ⟨a, s', by rw [M.lift, (hr a e).1], hp, .refl, (hr a e).2⟩

/-! ### Writing to a section -/

theorem Heap.get_upd (h : Heap) (i j : Nat) (f : Sec → Sec) : (h.upd i f).get j = if j = i ∧ i < h.length then f (h.get i) else h.get j := by
  split
  · next e => obtain ⟨rfl, hi⟩ := e; exact h.get_upd_eq f hi
  · next e =>
    by_cases hj : j = i
    · subst hj
      have hn : ¬ j < h.length := fun hi => e ⟨rfl, hi⟩
      simp [Heap.get, Heap.upd, List.getD_eq_getElem?_getD, List.getElem?_eq_none (Nat.le_of_not_lt hn)]
    · exact h.get_upd_ne f hj

theorem filePath_same {h h' : Heap} (hs : ∀ j, (h'.get j).path = (h.get j).path ∧ (h'.get j).parent = (h.get j).parent) :
    ∀ n i, h'.filePath n i = h.filePath n i := by
  intro n
  induction n with
  | zero => intro i; rfl
  | succ n ih => intro i; simp only [Heap.filePath, (hs i).1, (hs i).2, ih]

/-- Changes that leave the place of a section alone. -/
structure Stays (f : Sec → Sec) : Prop where
  parent : ∀ x, (f x).parent = x.parent
  path : ∀ x, (f x).path = x.path
  base : ∀ x : Sec, 0 ∈ x.plugins → 0 ∈ (f x).plugins

theorem Stays.id : Stays fun x => x := ⟨fun _ => rfl, fun _ => rfl, fun _ h => h⟩

theorem Stays.filePath {f : Sec → Sec} (hf : Stays f) (h : Heap) (i n j : Nat) : (h.upd i f).filePath n j = h.filePath n j := by
  refine filePath_same (fun j => ?_) n j
  rw [Heap.get_upd]
  split
  · next e => obtain ⟨rfl, _⟩ := e; exact ⟨hf.path _, hf.parent _⟩
  · exact ⟨rfl, rfl⟩

/-- The state after a write. -/
def St.set (s : St) (i : Nat) (f : Sec → Sec) : St := { s with heap := s.heap.upd i f }

theorem Parted.upd {s s' : St} (hp : Parted s s') {i : Nat} {f f' : Sec → Sec} (hf : Stays f) (hf' : Stays f')
    (ha : (f' (s'.heap.get i)).anon = (f (s.heap.get i)).anon) (hq : (f (s.heap.get i)).Quiet) :
    Parted (s.set i f) (s'.set i f') ∧ Grown s s' (s.set i f) (s'.set i f') := by
  refine ⟨⟨?_, ?_, ?_, ?_, ?_⟩, ?_⟩
  · simp only [St.set, Heap.length_upd]; exact hp.length
  · intro j
    simp only [St.set, Heap.get_upd, hp.length]
    split
    · exact ha
    · exact hp.twin j
  · intro j p e
    simp only [St.set, Heap.get_upd, Heap.length_upd] at e ⊢
    split at e
    · rw [hf.parent] at e; exact hp.parents _ _ e
    · exact hp.parents _ _ e
  · intro j hj
    simp only [St.set, Heap.get_upd, Heap.length_upd, hp.length] at hj ⊢
    split
    · next e => obtain ⟨rfl, _⟩ := e; exact ⟨hf.base _ (hp.base _ hj).1, hf'.base _ (hp.base _ hj).2⟩
    · exact hp.base _ hj
  · intro j
    simp only [St.set, Heap.get_upd]
    split
    · exact hq
    · exact hp.quiet j
  · intro D j h
    obtain ⟨h1, h2, h3⟩ := h
    refine ⟨?_, ?_, ?_⟩ <;> simp only [St.set, Heap.length_upd, hf.filePath, hf'.filePath] <;> assumption

theorem Pair.upd {s s' : St} (hp : Parted s s') {i : Nat} {f f' : Sec → Sec} (hf : Stays f) (hf' : Stays f')
    (ha : ∀ x x' : Sec, x'.anon = x.anon → (f' x').anon = (f x).anon) (hq : ∀ x : Sec, x.Quiet → (f x).Quiet) :
    Pair s s' (fun _ _ => True) (M.upd i f) (M.upd i f') := by
  intro a t e
  cases e
  have := hp.upd (i := i) hf hf' (ha _ _ (hp.twin i)) (hq _ (hp.quiet i))
  exact ⟨(), _, rfl, this.1, this.2, trivial⟩

/-! ### New sections -/

theorem filePath_snoc {h : Heap} (hp : ∀ i p, (h.get i).parent = some p → p < h.length) (x : Sec) :
    ∀ n i, i < h.length → Heap.filePath (h ++ [x]) n i = h.filePath n i := by
  intro n
  induction n with
  | zero => intro i _; rfl
  | succ n ih =>
    intro i hi
    simp only [Heap.filePath, h.get_append_lt x hi]
    split
    · rfl
    · cases e : (h.get i).parent with
      | none => rfl
      | some p => exact ih p (hp i p e)

theorem Parted.parents' {s s' : St} (hp : Parted s s') (i p : Nat) (e : (s'.heap.get i).parent = some p) : p < s'.heap.length := by
  rw [hp.twin.parent] at e
  rw [hp.length]
  exact hp.parents i p e

/-- The state with a new section. -/
def St.add (s : St) (x : Sec) : St := { s with heap := s.heap ++ [x] }

theorem Heap.get_snoc (h : Heap) (x : Sec) (j : Nat) : Heap.get (h ++ [x]) j = if j = h.length then x else h.get j := by
  split
  · next e => rw [e]; exact h.get_append_eq x
  · next e =>
    by_cases hj : j < h.length
    · exact h.get_append_lt x hj
    · have : (h ++ [x]).length ≤ j := by simp; omega
      simp [Heap.get, List.getD_eq_getElem?_getD, List.getElem?_eq_none this, List.getElem?_eq_none (Nat.le_of_not_lt hj)]

theorem Parted.add {s s' : St} (hp : Parted s s') {x x' : Sec} (ha : x'.anon = x.anon) (hq : x.Quiet)
    (hb : 0 ∈ x.plugins ∧ 0 ∈ x'.plugins) (hpar : ∀ p, x.parent = some p → p < s.heap.length) :
    Parted (s.add x) (s'.add x') ∧ Grown s s' (s.add x) (s'.add x') := by
  have hl := hp.length
  refine ⟨⟨?_, ?_, ?_, ?_, ?_⟩, ?_⟩
  · simp [St.add, hl]
  · intro j
    simp only [St.add, Heap.get_snoc, hl]
    split
    · exact ha
    · exact hp.twin j
  · intro j p e
    simp only [St.add, Heap.get_snoc, List.length_append, List.length_singleton] at e ⊢
    split at e
    · have := hpar p e; omega
    · have := hp.parents j p e; omega
  · intro j hj
    simp only [St.add, Heap.get_snoc, List.length_append, List.length_singleton, hl] at hj ⊢
    split
    · exact hb
    · exact hp.base j (by omega)
  · intro j
    simp only [St.add, Heap.get_snoc]
    split
    · exact hq
    · exact hp.quiet j
  · rintro D j ⟨h1, ⟨y, h2, h3⟩, ⟨z, h4, h5⟩⟩
    refine ⟨by simp [St.add]; omega, ⟨y, ?_, h3⟩, ⟨z, ?_, h5⟩⟩
    · simp only [St.add]
      rw [filePath_snoc hp.parents x _ j h1]
      exact filePath_up (by simp) h2
    · simp only [St.add]
      rw [filePath_snoc hp.parents' x' _ j (hl ▸ h1)]
      exact filePath_up (by simp) h4

/-- The path of a new section. -/
theorem filePath_new {h : Heap} (hp : ∀ i p, (h.get i).parent = some p → p < h.length) (x : Sec) (n : Nat) :
    Heap.filePath (h ++ [x]) (n + 1) h.length =
      if x.path ≠ [] then some x.path else match x.parent with
        | some p => if p < h.length then h.filePath n p else Heap.filePath (h ++ [x]) n p
        | none => some [] := by
  rw [Heap.filePath, Heap.get_append_eq]
  split
  · rfl
  · cases e : x.parent with
    | none => rfl
    | some p =>
      dsimp only
      split
      · next hl => exact filePath_snoc hp x n p hl
      · rfl

/-! ### Looking at sections -/

theorem Pair.look {β γ : Type} {s s' : St} {Q : β → γ → Prop} {f : St → M β} {f' : St → M γ} (h : Pair s s' Q (f s) (f' s')) :
    Pair s s' Q (M.get >>= f) (M.get >>= f') := by
  intro a t e
  exact h a t e

theorem Pair.filePath {s s' : St} (hp : Parted s s') {D : Str × Str} {i : Nat} (h : At2 D i s s') :
    Pair s s' (fun a b => dirPath a = D.1 ∧ dirPath b = D.2) (filePathM i) (filePathM i) := by
  obtain ⟨_, ⟨x, h1, h2⟩, ⟨y, h3, h4⟩⟩ := h
  intro a t e
  simp only [filePathM, h1, Res.ofFuel, Prod.mk.injEq, Res.ok.injEq] at e
  obtain ⟨rfl, rfl⟩ := e
  exact ⟨y, s', by simp only [filePathM, h3, Res.ofFuel], hp, .refl, h2, h4⟩

theorem findMethod_builtin {W : World} (hW : ∀ p n, W.foreign p n = none) (name : Str) {ps : List Nat} (h : 0 ∈ ps) :
    findMethod W name ps = (baseMethods.lookup name).map .base := by
  induction ps with
  | nil => cases h
  | cons p ps ih =>
    rw [findMethod]
    cases p with
    | zero =>
      cases e : baseMethods.lookup name with
      | some b => simp [methodOf, e]
      | none =>
        simp only [methodOf, e, Option.map_none]
        clear ih h
        induction ps with
        | nil => rfl
        | cons q qs ih =>
          rw [findMethod]
          cases q with
          | zero => simp only [methodOf, e, Option.map_none]; exact ih
          | succ q => simp only [methodOf, hW, Option.map_none]; exact ih
    | succ p =>
      simp only [methodOf, hW, Option.map_none]
      exact ih (by simpa using h)

/-! ### Arguments -/

/-- Evaluation on both sides, each in its directory. -/
def PairEv (D : Str × Str) (ev ev' : Ev) : Prop :=
  ∀ i r s s', Parted s s' → At2 D i s s' → r.quiet = true → Pair s s' (fun c c' => c' = c ∧ c.quiet = true) (ev i r) (ev' i r)

/-- Converted arguments. -/
inductive PairArg (D : Str × Str) : ArgV → ArgV → Prop
  | str (s : Str) : PairArg D (.str s) (.str s)
  | content {c : Content} : c.quiet = true → PairArg D (.content c) (.content c)
  | node {n n' : Node} {ev ev' : Ev} : PairEv D ev ev' → PairArg D (.node n ev) (.node n' ev')
  | zero : PairArg D .zero .zero

theorem Pair.text {s s' : St} (hp : Parted s s') {b : Bool} {k k' : Nat} (hk : k ≤ k') {c : Content} (hc : c.quiet = true) :
    Pair s s' (fun a b => b = a) (M.lift (s.heap.text b k c)) (M.lift (s'.heap.text b k' c)) := by
  refine .ofRes hp fun a e => ⟨?_, rfl⟩
  rw [heapText_twin hp.twin hp.quiet b k' c hc]
  rcases heapText_le (h := s.heap) (b := b) hk c with h | h
  · rw [h] at e; cases e
  · rw [← h]; exact e

section
variable {W : World} {k k' : Nat} (hk : k ≤ k') {D : Str × Str}
include hk

theorem Pair.convert {s s' : St} (hp : Parted s s') {i : Nat} (hi : At2 D i s s') (t : Ty) {n n' : Node} {ev ev' : Ev} (he : PairEv D ev ev') :
    Pair s s' (PairArg D) (convert W k i t (n, ev)) (convert W k' i t (n', ev')) := by
  cases t with
  | string =>
    refine (he i .nil s s' hp hi rfl).bind fun c c' u u' hu _ h => ?_
    obtain ⟨rfl, hc⟩ := h
    refine .look ?_
    refine (Pair.text hu hk hc).bind fun a b v v' hv _ h => ?_
    subst h
    exact .pure hv (.str _)
  | content =>
    refine (he i .nil s s' hp hi rfl).bind fun c c' u u' hu _ h => ?_
    obtain ⟨rfl, hc⟩ := h
    refine .pure hu ?_
    split
    · exact .zero
    · exact .content hc
  | node => exact .pure hp (.node he)
  | other => exact .err

theorem Pair.convertAll {i : Nat} {as as' : List (Node × Ev)} (ha : All2 (fun a b => PairEv D a.2 b.2) as as') :
    ∀ (ts : List Ty) (v : Option Ty) (s s' : St), Parted s s' → At2 D i s s' →
      Pair s s' (All2 (PairArg D)) (convertAll W k i ts v as) (convertAll W k' i ts v as') := by
  induction ha with
  | nil =>
    intro ts v s s' hp _
    cases ts <;> cases v <;> exact .pure hp .nil
  | cons a as ih =>
    intro ts v s s' hp hi
    cases ts with
    | cons t ts =>
      refine (Pair.convert hk hp hi t a).bind fun x y u u' hu hg h => ?_
      refine (ih ts v u u' hu (hg _ _ hi)).bind fun xs ys w w' hw _ h2 => ?_
      exact .pure hw (.cons h h2)
    | nil =>
      cases v with
      | none => exact .pure hp .nil
      | some t =>
        refine (Pair.convert hk hp hi t a).bind fun x y u u' hu hg h => ?_
        refine (ih [] (some t) u u' hu (hg _ _ hi)).bind fun xs ys w w' hw _ h2 => ?_
        exact .pure hw (.cons h h2)

end

theorem PairArg.strArgs {D : Str × Str} {vs ws : List ArgV} (h : All2 (PairArg D) vs ws) : strArgs ws = strArgs vs := by
  induction h with
  | nil => rfl
  | cons a _ ih => cases a <;> simp only [Booklit.strArgs, ih]

theorem PairArg.contentArgs {D : Str × Str} {vs ws : List ArgV} (h : All2 (PairArg D) vs ws) :
    contentArgs ws = contentArgs vs ∧ ∀ c ∈ contentArgs vs, c.quiet = true := by
  induction h with
  | nil => exact ⟨rfl, by simp [Booklit.contentArgs]⟩
  | cons a _ ih =>
    cases a with
    | content hc =>
      simp only [Booklit.contentArgs, ih.1, List.mem_cons, forall_eq_or_imp, true_and]
      exact ⟨hc, ih.2⟩
    | _ => simp only [Booklit.contentArgs, ih.1, true_and]; exact ih.2

theorem PairArg.isZero {D : Str × Str} {vs ws : List ArgV} (h : All2 (PairArg D) vs ws) : ws.any ArgV.isZero = vs.any ArgV.isZero := by
  induction h with
  | nil => rfl
  | cons a _ ih => cases a <;> simp only [List.any_cons, ih] <;> rfl

/-! ### The functions -/

theorem Pair.body {D : Str × Str} {ev ev' : Ev} (he : PairEv D ev ev') {i : Nat} {s s' : St} (hp : Parted s s') (hi : At2 D i s s') :
    Pair s s' (fun _ _ => True) (evalBody ev i) (evalBody ev' i) := by
  refine (he i .nil s s' hp hi rfl).bind fun c c' u u' hu _ h => ?_
  obtain ⟨rfl, hc⟩ := h
  split
  · exact .pure hu trivial
  · refine .upd hu ⟨fun _ => rfl, fun _ => rfl, fun _ h => h⟩ ⟨fun _ => rfl, fun _ => rfl, fun _ h => h⟩ ?_ ?_
    · intro x x' h
      have := congrArg (fun y : Sec => { y with body := c' }) h
      exact this
    · intro x q
      exact ⟨q.title, hc, q.tags, q.partials, q.primary⟩

theorem Quiet.fresh (parent : Option Nat) (path : Str) (ps : List Nat) : Sec.Quiet { Sec.fresh parent path with plugins := ps } :=
  ⟨rfl, rfl, by simp [Sec.fresh], by simp [Sec.fresh], rfl, rfl⟩

/-- The place where a section begins is noted for inline sections only. -/
def noteLoc (b : Bool) (c i : Nat) : M Unit :=
  if b then do
    let st ← M.get
    M.upd c fun x => { x with loc := (st.heap.get i).invokeLoc }
  else pure ()

/-- A section to be evaluated on its own, and how the parent gets to know it: what inline sections and included files have in common. -/
def subsection (i : Nat) (path : Str) (plugins : St → List Nat) (ev : Ev) (setLoc : Bool) : M Unit := do
  let st ← M.get
  let c ← M.alloc { Sec.fresh (some i) path with plugins := plugins st }
  evalBody ev c
  noteLoc setLoc c i
  M.upd i fun x => { x with children := x.children ++ [c] }

theorem Pair.subsection {D : Str × Str} {ev ev' : Ev} (he : PairEv D ev ev') {i : Nat} {s s' : St} (hp : Parted s s') {D0 : Str × Str} (hi : At2 D0 i s s')
    {path path' : Str} (h1 : path = [] ∧ D.1 = D0.1 ∨ path ≠ [] ∧ dirPath path = D.1)
    (h2 : path' = [] ∧ D.2 = D0.2 ∨ path' ≠ [] ∧ dirPath path' = D.2)
    {ps ps' : St → List Nat} (h3 : 0 ∈ ps s) (h4 : 0 ∈ ps' s') (b b' : Bool) :
    Pair s s' (fun _ _ => True) (subsection i path ps ev b) (subsection i path' ps' ev' b') := by
  refine .look ?_
  have hal : Pair s s' (fun c c' => c' = c ∧ c = s.heap.length)
      (M.alloc { Sec.fresh (some i) path with plugins := ps s }) (M.alloc { Sec.fresh (some i) path' with plugins := ps' s' }) := by
    intro a t e
    cases e
    have := hp.add (x := { Sec.fresh (some i) path with plugins := ps s }) (x' := { Sec.fresh (some i) path' with plugins := ps' s' })
      rfl (Quiet.fresh _ _ _) ⟨h3, h4⟩ (fun p e => by cases e; exact hi.1)
    exact ⟨_, _, rfl, this.1, this.2, hp.length, rfl⟩
  intro a t e
  obtain ⟨c, u, e1, e2⟩ := M.bind_ok e
  obtain ⟨c', u', e1', hu, hg, rfl, hc⟩ := hal c u e1
  have hc2 : At2 D c' u u' := by
    subst hc
    cases e1
    obtain rfl : s'.add { Sec.fresh (some i) path' with plugins := ps' s' } = u' := (congrArg Prod.snd e1')
    obtain ⟨hl, ⟨x, p1, p2⟩, ⟨y, p3, p4⟩⟩ := hi
    refine ⟨by simp, ?_, ?_⟩
    · simp only
      rw [filePath_new hp.parents]
      rcases h1 with ⟨rfl, q0⟩ | ⟨q1, q2⟩
      · refine ⟨x, ?_, p2.trans q0.symm⟩
        simp only [Sec.fresh, ne_eq, not_true_eq_false, if_false, if_pos hl]
        exact filePath_up (by simp) p1
      · exact ⟨path, by simp [Sec.fresh, q1], q2⟩
    · simp only [St.add]
      have hl' : i < s'.heap.length := hp.length ▸ hl
      have hlen := hp.length
      rw [show s.heap.length = s'.heap.length from hp.length.symm, filePath_new hp.parents']
      rcases h2 with ⟨rfl, q0⟩ | ⟨q1, q2⟩
      · refine ⟨y, ?_, p4.trans q0.symm⟩
        simp only [Sec.fresh, ne_eq, not_true_eq_false, if_false, if_pos hl']
        exact filePath_up (by simp) p3
      · exact ⟨path', by simp [Sec.fresh, q1], q2⟩
  have rest : Pair u u' (fun _ _ => True)
      (do
        evalBody ev c'
        noteLoc b c' i
        M.upd i fun x => { x with children := x.children ++ [c'] })
      (do
        evalBody ev' c'
        noteLoc b' c' i
        M.upd i fun x => { x with children := x.children ++ [c'] }) := by
    refine (Pair.body he hu hc2).bind fun _ _ v v' hv hgv _ => ?_
    have hloc : Pair v v' (fun _ _ => True) (noteLoc b c' i) (noteLoc b' c' i) := by
      have st : ∀ l : Location, Stays fun x => { x with loc := l } := fun l => ⟨fun _ => rfl, fun _ => rfl, fun _ h => h⟩
      have qu : ∀ (l : Location) (x : Sec), x.Quiet → Sec.Quiet { x with loc := l } :=
        fun l x q => ⟨q.title, q.body, q.tags, q.partials, q.primary⟩
      have same : ∀ w : St, w.set c' (fun x => x) = w := fun w => by rw [St.set, Heap.upd_id]
      intro a t e
      cases b with
      | true =>
        cases e
        cases b' with
        | true =>
          have := hv.upd (i := c') (st (v.heap.get i).invokeLoc) (st (v'.heap.get i).invokeLoc) (hv.twin c') (qu _ _ (hv.quiet c'))
          exact ⟨(), _, rfl, this.1, this.2, trivial⟩
        | false =>
          have := hv.upd (i := c') (st (v.heap.get i).invokeLoc) Stays.id (hv.twin c') (qu _ _ (hv.quiet c'))
          rw [same] at this
          exact ⟨(), _, rfl, this.1, this.2, trivial⟩
      | false =>
        cases e
        cases b' with
        | true =>
          have := hv.upd (i := c') Stays.id (st (v'.heap.get i).invokeLoc) (hv.twin c') (hv.quiet c')
          rw [same] at this
          exact ⟨(), _, rfl, this.1, this.2, trivial⟩
        | false => exact ⟨(), _, rfl, hv, .refl, trivial⟩
    refine hloc.bind fun _ _ w w' hw _ _ => ?_
    refine .upd hw ⟨fun _ => rfl, fun _ => rfl, fun _ h => h⟩ ⟨fun _ => rfl, fun _ => rfl, fun _ h => h⟩ ?_ ?_
    · intro x x' h
      have := congrArg (fun y : Sec => { y with children := y.children ++ [c'] }) h
      exact this
    · intro x q
      exact ⟨q.title, q.body, q.tags, q.partials, q.primary⟩
  obtain ⟨d, t', r1, r2, r3, _⟩ := rest a t e2
  exact ⟨d, t', by rw [M.bind_of e1']; exact r1, r2, hg.trans r3, trivial⟩

theorem evalInline_sub (i : Nat) (ev : Ev) : evalInline i ev = subsection i [] (fun st => (st.heap.get i).plugins) ev true := rfl

/-- What a call returned holds no sections. -/
def Ret.Quiet : Ret → Prop
  | .content c => c.quiet = true
  | .both c _ => c.quiet = true
  | _ => True

/-- What the calls returned: an error on the left, or the same on both sides. -/
def PairRet (x y : Ret) : Prop := (∃ e, x = .error (some e)) ∨ y = x ∧ x.Quiet

theorem Pair.finish {s s' : St} (hp : Parted s s') (fn path path' : Str) (loc : Location) {r : Content} (hr : r.quiet = true) {x y : Ret}
    (h : PairRet x y) : Pair s s' (fun c c' => c' = c ∧ c.quiet = true) (finish fn path loc r x) (finish fn path' loc r y) := by
  have happ : ∀ c : Content, c.quiet = true → (append r [c]).quiet = true := fun c hc => quiet_append hr (by simpa using hc)
  rcases h with ⟨e, rfl⟩ | ⟨rfl, hq⟩
  · exact .err
  · cases y with
    | nothing => exact .pure hp ⟨rfl, hr⟩
    | other => exact .err
    | content c =>
      simp only [Booklit.finish]
      split
      · exact .panic
      · exact .pure hp ⟨rfl, happ c hq⟩
    | error e =>
      cases e with
      | none => exact .pure hp ⟨rfl, hr⟩
      | some e => exact .err
    | both c e =>
      cases e with
      | some e => exact .err
      | none =>
        simp only [Booklit.finish]
        split
        · exact .panic
        · exact .pure hp ⟨rfl, happ c hq⟩

theorem tableRows_quiet {cs : List Content} (h : ∀ c ∈ cs, c.quiet = true) {rows : List (List Content)} (e : tableRows cs = some rows) :
    ∀ r ∈ rows, ∀ c ∈ r, c.quiet = true := by
  induction cs generalizing rows with
  | nil => cases e; simp
  | cons c cs ih =>
    cases c with
    | list items o =>
      simp only [tableRows, Option.map_eq_some_iff] at e
      obtain ⟨rs, e, rfl⟩ := e
      intro r hr
      rcases List.mem_cons.1 hr with rfl | hr
      · exact quiet_iff_list.1 (h (.list r o) (by simp))
      · exact ih (fun x hx => h x (by simp [hx])) e r hr
    | _ => simp [tableRows] at e

theorem definitionItems_quiet {cs : List Content} (h : ∀ c ∈ cs, c.quiet = true) {ds : List (Content × Content)}
    (e : definitionItems cs = some ds) : ∀ d ∈ ds, d.1.quiet = true ∧ d.2.quiet = true := by
  induction cs generalizing ds with
  | nil => cases e; simp
  | cons c cs ih =>
    match c, e with
    | .list [a, b] o, e =>
      simp only [definitionItems, Option.map_eq_some_iff] at e
      obtain ⟨rs, e', rfl⟩ := e
      intro r hr
      have := quiet_iff_list.1 (h (.list [a, b] o) (by simp))
      rcases List.mem_cons.1 hr with rfl | hr
      · exact ⟨this a (by simp), this b (by simp)⟩
      · exact ih (fun x hx => h x (by simp [hx])) e' r hr

theorem Pair.titleNames {W : World} {k k' : Nat} (hk : k ≤ k') {s s' : St} (hp : Parted s s') {t : Content} (ht : t.quiet = true) (tags : List Str) :
    Pair s s' (fun a b => b = a) (titleNames W k t tags) (titleNames W k' t tags) := by
  unfold Booklit.titleNames
  split
  · have : Pair s s' (fun a b => b = a) (defaultTag W k t) (defaultTag W k' t) := by
      intro a u e
      simp only [defaultTag] at e ⊢
      cases hs : stripAux t with
      | none => rw [hs] at e; cases e
      | some c =>
        rw [hs] at e
        simp only [Prod.mk.injEq] at e
        obtain ⟨e, rfl⟩ := e
        obtain ⟨x, e', rfl⟩ := Res.ok_of_map e
        obtain ⟨y, u', h1, h2, h3, h4⟩ := Pair.text (b := W.brokenOk) hp hk (quiet_strip ht hs) x s (by rw [M.lift, e'])
        subst h4
        simp only [M.lift, Prod.mk.injEq] at h1
        obtain ⟨h1, rfl⟩ := h1
        refine ⟨slug y, s', ?_, hp, .refl, rfl⟩
        simp only [h1, Res.map]
    exact this.bind fun a b u u' hu _ h => by subst h; exact .pure hu rfl
  · exact .pure hp rfl

/-- Including a file, on both sides. -/
def PairInc (B : Str → Prop) (inc inc' : Inc) : Prop :=
  ∀ D i s s' path, Parted s s' → At2 D i s s' → path ≠ [] → B path → Pair s s' (fun _ _ => True) (inc i path) (inc' i path)

theorem Pair.updThen {α β : Type} {R : α → β → Prop} {s s' : St} (hp : Parted s s') {i : Nat} {f : Sec → Sec} {m : Unit → M α} {m' : Unit → M β} (hf : Stays f)
    (ha : ∀ x x' : Sec, x'.anon = x.anon → (f x').anon = (f x).anon) (hq : ∀ x : Sec, x.Quiet → (f x).Quiet)
    (h : ∀ u u', Parted u u' → Grown s s' u u' → Pair u u' R (m ()) (m' ())) :
    Pair s s' R (M.upd i f >>= m) (M.upd i f >>= m') :=
  (Pair.upd hp hf hf ha hq).bind fun _ _ u u' hu hg _ => h u u' hu hg

section
variable {W : World} {k k' : Nat} (hk : k ≤ k') {D : Str × Str} {i : Nat}
include hk

set_option linter.unusedSectionVars false in
/-- The functions other than those that make sections. -/
theorem Pair.callBase {inc inc' : Inc} {s s' : St} (hp : Parted s s') (hi : At2 D i s s') (b : Base) (h1 : b ≠ .section)
    (h2 : b ≠ .includeSection) {as bs : List ArgV} (ha : All2 (PairArg D) as bs) :
    Pair s s' PairRet (callBase W k inc i b as) (callBase W k' inc' i b bs) := by
  have hcon := PairArg.contentArgs ha
  have hstr := PairArg.strArgs ha
  have ok : ∀ {u u' : St} (r : Ret), Parted u u' → r.Quiet → Pair u u' PairRet (Pure.pure r) (Pure.pure r) :=
    fun r hu hr => .pure hu (.inr ⟨rfl, hr⟩)
  cases b with
  | «section» => exact (h1 rfl).elim
  | includeSection => exact (h2 rfl).elim
  | usePlugin =>
    rcases ha with _ | ⟨_ | _ | _ | _, _ | _⟩ <;> first | exact Pair.panic | skip
    simp only [Booklit.callBase]
    split
    · exact ok _ hp trivial
    · refine Pair.updThen hp ?_ ?_ ?_ fun u u' hu _ => ok _ hu ?_
      · exact ⟨fun _ => rfl, fun _ => rfl, fun x h => List.mem_append_left _ h⟩
      · exact fun x x' h => h
      · exact fun x q => ⟨q.title, q.body, q.tags, q.partials, q.primary⟩
      · exact trivial
  | styled =>
    rcases ha with _ | ⟨_ | _ | _ | _, _ | _⟩ <;> first | exact Pair.panic | skip
    rename_i name
    refine Pair.updThen hp ?_ ?_ ?_ fun u u' hu _ => ok _ hu trivial
    · exact ⟨fun _ => rfl, fun _ => rfl, fun x h => h⟩
    · intro x x' h
      have := congrArg (fun y : Sec => { y with style := name }) h
      exact this
    · exact fun x q => ⟨q.title, q.body, q.tags, q.partials, q.primary⟩
  | title =>
    rcases ha with _ | ⟨_ | hc | _ | _, ht⟩ <;> first | exact Pair.panic | skip
    rename_i vs ws c
    refine .look ?_
    simp only [hp.twin.title, hp.twin.invokeLoc, hp.twin.titleLoc]
    split
    · simp only [strArgs] at hstr
      rw [hstr]
      refine (Pair.titleNames hk hp hc _).bind fun a b u u' hu _ h => ?_
      subst h
      have hq : ∀ g ∈ b.map (fun n => (⟨n, c, some i, [], .nil, (s.heap.get i).invokeLoc⟩ : Tag)),
          g.title.quiet = true ∧ g.content.quiet = true := by
        intro g hg
        obtain ⟨n, _, rfl⟩ := List.mem_map.1 hg
        exact ⟨hc, rfl⟩
      refine Pair.bind (R := fun _ _ => True) ?_ fun _ _ v v' hv _ _ => ok _ hv trivial
      refine Pair.upd hu ⟨fun _ => rfl, fun _ => rfl, fun x h => h⟩ ⟨fun _ => rfl, fun _ => rfl, fun x h => h⟩ ?_ ?_
      · intro x x' h
        have := congrArg (fun y : Sec => { y with
          title := c, titleLoc := (s.heap.get i).invokeLoc,
          tags := b.map fun n => (⟨n, c, some i, [], .nil, (s.heap.get i).invokeLoc⟩ : Tag),
          primaryTag := (b.map fun n => (⟨n, c, some i, [], .nil, (s.heap.get i).invokeLoc⟩ : Tag)).headD Tag.zero }) h
        exact this
      · intro x q
        refine ⟨hc, q.body, hq, q.partials, ?_⟩
        cases b with
        | nil => exact ⟨rfl, rfl⟩
        | cons => exact ⟨hc, rfl⟩
    · refine (Pair.filePath hp hi).bind fun a b u u' hu _ _ => .pure hu (.inl ⟨_, rfl⟩)
  | aux =>
    rcases ha with _ | ⟨_ | hc | _ | _, _ | _⟩ <;> first | exact Pair.panic | skip
    exact ok _ hp (by simpa [Ret.Quiet, Content.quiet, Content.all, Content.isSect] using hc)
  | singlePage =>
    rcases ha with _ | ⟨_, _⟩ <;> first | exact Pair.panic | skip
    refine Pair.updThen hp ?_ ?_ ?_ fun u u' hu _ => ok _ hu trivial
    · exact ⟨fun _ => rfl, fun _ => rfl, fun x h => h⟩
    · intro x x' h
      have := congrArg (fun y : Sec => { y with preventSplit := true }) h
      exact this
    · exact fun x q => ⟨q.title, q.body, q.tags, q.partials, q.primary⟩
  | splitSections =>
    rcases ha with _ | ⟨_, _⟩ <;> first | exact Pair.panic | skip
    refine Pair.updThen hp ?_ ?_ ?_ fun u u' hu _ => .look ?_
    · exact ⟨fun _ => rfl, fun _ => rfl, fun x h => h⟩
    · intro x x' h
      have := congrArg (fun y : Sec => { y with resetDepth := true }) h
      exact this
    · exact fun x q => ⟨q.title, q.body, q.tags, q.partials, q.primary⟩
    · rw [splitPrevented_twin hu.twin, hu.length]
      refine Pair.bind (R := fun a b => b = a) (.ofRes hu fun a e => ⟨e, rfl⟩) fun a b v v' hv _ h => ?_
      subst h
      split
      · exact ok _ hv trivial
      · refine Pair.updThen hv ?_ ?_ ?_ fun u u' hu _ => ok _ hu trivial
        · exact ⟨fun _ => rfl, fun _ => rfl, fun x h => h⟩
        · intro x x' h
          have := congrArg (fun y : Sec => { y with split := true }) h
          exact this
        · exact fun x q => ⟨q.title, q.body, q.tags, q.partials, q.primary⟩
  | omitChildren =>
    rcases ha with _ | ⟨_, _⟩ <;> first | exact Pair.panic | skip
    refine Pair.updThen hp ?_ ?_ ?_ fun u u' hu _ => ok _ hu trivial
    · exact ⟨fun _ => rfl, fun _ => rfl, fun x h => h⟩
    · intro x x' h
      have := congrArg (fun y : Sec => { y with omitToc := true }) h
      exact this
    · exact fun x q => ⟨q.title, q.body, q.tags, q.partials, q.primary⟩
  | tableOfContents =>
    rcases ha with _ | ⟨_, _⟩ <;> first | exact Pair.panic | skip
    exact ok _ hp rfl
  | style st =>
    rcases ha with _ | ⟨_ | hc | _ | _, _ | _⟩ <;> first | exact Pair.panic | skip
    exact ok _ hp (by simpa [Ret.Quiet, Content.quiet, Content.all, Content.isSect, allP] using hc)
  | link =>
    rcases ha with _ | ⟨_ | hc | _ | _, _ | ⟨_ | _ | _ | _, _ | _⟩⟩ <;> first | exact Pair.panic | skip
    exact ok _ hp (by simpa [Ret.Quiet, Content.quiet, Content.all, Content.isSect] using hc)
  | reference =>
    rcases ha with _ | ⟨_ | _ | _ | _, ht⟩ <;> first | exact Pair.panic | skip
    refine .look ?_
    simp only [contentArgs] at hcon
    rw [hp.twin.invokeLoc, hcon.1]
    refine ok _ hp ?_
    revert hcon
    rename_i vs ws name
    cases contentArgs vs with
    | nil => intro _; rfl
    | cons c cs =>
      intro hcon
      have := hcon.2 c (by simp)
      simpa [Ret.Quiet, Content.quiet, Content.all, Content.isSect] using this
  | target =>
    rcases ha with _ | ⟨_ | _ | _ | _, ht⟩ <;> first | exact Pair.panic | skip
    refine .look ?_
    simp only [contentArgs] at hcon
    rw [hp.twin.invokeLoc, hcon.1]
    refine ok _ hp ?_
    revert hcon
    rename_i vs ws name
    rcases contentArgs vs with _ | ⟨a, _ | ⟨b, _ | ⟨c, _⟩⟩⟩
    · intro _; rfl
    · intro h
      have := h.2 a (by simp)
      simpa [Ret.Quiet, Content.quiet, Content.all, Content.isSect] using this
    · intro h
      have h1 := h.2 a (by simp)
      have h2 := h.2 b (by simp)
      simp only [Content.quiet] at h1 h2
      simp [Ret.Quiet, Content.quiet, Content.all, Content.isSect] at h1 h2 ⊢
      exact ⟨h1, h2⟩
    · intro _; rfl
  | list =>
    simp only [Booklit.callBase, hcon.1]
    exact ok _ hp (quiet_iff_list.2 hcon.2)
  | orderedList =>
    simp only [Booklit.callBase, hcon.1]
    exact ok _ hp (quiet_iff_list.2 hcon.2)
  | image =>
    rcases ha with _ | ⟨_ | _ | _ | _, ht⟩ <;> first | exact Pair.panic | skip
    simp only [strArgs, List.cons.injEq, true_and] at hstr
    simp only [Booklit.callBase]
    rw [hstr]
    exact ok _ hp rfl
  | setPartial =>
    rcases ha with _ | ⟨_ | _ | _ | _, _ | ⟨_ | hc | _ | _, _ | _⟩⟩ <;> first | exact Pair.panic | skip
    rename_i name c
    refine Pair.updThen hp ?_ ?_ ?_ fun u u' hu _ => ok _ hu trivial
    · exact ⟨fun _ => rfl, fun _ => rfl, fun x h => h⟩
    · intro x x' h
      have := congrArg (fun y : Sec => y.setPartial name c) h
      exact this
    · intro x q
      refine ⟨q.title, q.body, q.tags, ?_, q.primary⟩
      intro p hp
      rcases List.mem_cons.1 hp with rfl | hp
      · exact hc
      · exact q.partials p (List.mem_filter.1 hp).1
  | table =>
    simp only [Booklit.callBase, hcon.1]
    cases e : tableRows (contentArgs as) with
    | none => exact ok _ hp rfl
    | some rows => exact ok _ hp (quiet_iff_table.2 (tableRows_quiet hcon.2 e))
  | tableRow =>
    simp only [Booklit.callBase, hcon.1]
    exact ok _ hp (quiet_iff_list.2 hcon.2)
  | definitions =>
    simp only [Booklit.callBase, hcon.1]
    cases e : definitionItems (contentArgs as) with
    | none => exact ok _ hp rfl
    | some rows => exact ok _ hp (quiet_iff_defs.2 (definitionItems_quiet hcon.2 e))
  | definition =>
    rcases ha with _ | ⟨_ | hc | _ | _, _ | ⟨_ | hd | _ | _, _ | _⟩⟩ <;> first | exact Pair.panic | skip
    refine ok _ hp (quiet_iff_list.2 ?_)
    intro c h
    simp only [List.mem_cons, List.not_mem_nil, or_false] at h
    rcases h with rfl | rfl
    · exact hc
    · exact hd

end

theorem pair_attempt {s s' : St} {R : Unit → Unit → Prop} {m m' : M Unit} (h : Pair s s' R m m') (fn fn' path path' : Str) (loc : Location) {r : Content}
    (hr : r.quiet = true) : Pair s s' (fun c c' => c' = c ∧ c.quiet = true)
      ((do let e ← M.attempt m; pure (Ret.error e)) >>= finish fn path loc r)
      ((do let e ← M.attempt m'; pure (Ret.error e)) >>= finish fn' path' loc r) := by
  intro c t e
  obtain ⟨ret, u, e1, e2⟩ := M.bind_ok e
  obtain ⟨x, v, e3, e4⟩ := M.bind_ok e1
  cases e4
  simp only [M.attempt] at e3
  generalize hm : m s = y at e3
  obtain ⟨z, w⟩ := y
  cases z with
  | ok a =>
    cases e3
    cases e2
    obtain ⟨b, t', h1, h2, h3, _⟩ := h a _ hm
    refine ⟨r, t', ?_, h2, h3, rfl, hr⟩
    rw [M.bind_run, M.bind, M.bind_run, M.bind, M.attempt, h1]
    rfl
  | err => cases e3; cases e2
  | panic => cases e3
  | more => cases e3

theorem M.assoc {α β γ : Type} (m : M α) (f : α → M β) (g : β → M γ) : (m >>= f) >>= g = m >>= fun a => f a >>= g := by
  funext s
  simp only [M.bind_run, M.bind]
  generalize m s = x
  obtain ⟨r, u⟩ := x
  cases r <;> rfl

theorem cleanPath_ne (s : Str) : cleanPath s ≠ [] := by
  unfold cleanPath
  dsimp only
  split
  · simp
  · split
    · simp
    · assumption

theorem joinPath_some {a b : Str} (h : a ≠ []) : joinPath a b ≠ [] := by
  rw [joinPath, if_pos h]
  exact cleanPath_ne _

/-- A call of a function of the base plugin, once it has been found. -/
def called (W : World) (k : Nat) (inc : Inc) (fn : Str) (loc : Location) (args : List (Node × Ev)) (i : Nat) (r : Content) (b : Base) (path : Str) :
    M Content :=
  if arityOk b.sig args.length then do
    let vals ← convertAll W k i b.sig.1 b.sig.2 args
    let ret ← callMethod W k inc i (.base b) vals
    finish fn path loc r ret
  else M.lift (.err (.plain q%"argument count mismatch"))

section
variable {W : World} (hW : ∀ p n, W.foreign p n = none) {k k' : Nat} (hk : k ≤ k') {D : Str × Str} {inc inc' : Inc}
include hW

theorem Pair.invokeWith {fn fn' : Str} {loc : Location} {as as' : List (Node × Ev)} {i : Nat} {r : Content} {s s' : St} (hp : Parted s s')
    (hi : At2 D i s s')
    (h : ∀ b, baseMethods.lookup (methodName fn) = some b → ∃ b', baseMethods.lookup (methodName fn') = some b' ∧
      ∀ u u' x x', Parted u u' → At2 D i u u' → dirPath x = D.1 → dirPath x' = D.2 →
        Pair u u' (fun c c' => c' = c ∧ c.quiet = true) (called W k inc fn loc as i r b x) (called W k' inc' fn' loc as' i r b' x')) :
    Pair s s' (fun c c' => c' = c ∧ c.quiet = true) (invokeFn W k inc fn loc as i r) (invokeFn W k' inc' fn' loc as' i r) := by
  unfold Booklit.invokeFn
  refine Pair.updThen hp ?_ ?_ ?_ fun u u' hu hg => ?_
  · exact ⟨fun _ => rfl, fun _ => rfl, fun x h => h⟩
  · intro x x' h
    have := congrArg (fun y : Sec => { y with invokeLoc := loc }) h
    exact this
  · exact fun x q => ⟨q.title, q.body, q.tags, q.partials, q.primary⟩
  have hi2 := hg _ _ hi
  refine (Pair.filePath hu hi2).bind fun x x' v v' hv hg2 hx => .look ?_
  have hi3 := hg2 _ _ hi2
  have hb := hv.base i hi3.1
  rw [findMethod_builtin hW _ hb.1, findMethod_builtin hW _ hb.2]
  cases e : baseMethods.lookup (methodName fn) with
  | none => exact .err
  | some b =>
    obtain ⟨b', e', h⟩ := h b e
    rw [e']
    exact h v v' x x' hv hi3 hx.1 hx.2

omit hW in
include hk in
theorem Pair.called {B : Str → Prop} (hinc : PairInc B inc inc') (fn : Str) (loc : Location) {as as' : List (Node × Ev)} (ha : All2 (fun a b => PairEv D a.2 b.2) as as')
    {i : Nat} {r : Content} (hr : r.quiet = true) (b : Base) {u u' : St} {x x' : Str} (hu : Parted u u') (hi : At2 D i u u') (hx : dirPath x = D.1)
    (hD : D.1 ≠ []) (hB : b = .includeSection → D.1 = D.2 ∧ ∀ path, B path) : Pair u u' (fun c c' => c' = c ∧ c.quiet = true) (called W k inc fn loc as i r b x) (called W k' inc' fn loc as' i r b x') := by
  have hlen : as'.length = as.length := by
    clear hinc
    induction ha with
    | nil => rfl
    | cons _ _ ih => simp [ih]
  unfold Booklit.called
  rw [hlen]
  split
  · refine (Pair.convertAll hk ha _ _ u u' hu hi).bind fun vs ws v v' hv hg h => ?_
    have hi2 := hg _ _ hi
    unfold callMethod
    rw [PairArg.isZero h]
    split
    · intro a t e; cases e
    · by_cases h1 : b = .section
      · subst h1
        rcases h with _ | ⟨_ | _ | he | _, _ | _⟩ <;> first | (intro a t e; cases e; done) | skip
        rename_i n n' ev ev'
        refine pair_attempt (R := fun _ _ => True) ?_ fn fn x x' loc hr
        rw [evalInline_sub, evalInline_sub]
        exact Pair.subsection he hv hi2 (.inl ⟨rfl, rfl⟩) (.inl ⟨rfl, rfl⟩) (hv.base i hi2.1).1 (hv.base i hi2.1).2 true true
      · by_cases h2 : b = .includeSection
        · subst h2
          rcases h with _ | ⟨_ | _ | he | _, _ | _⟩ <;> first | (intro a t e; cases e; done) | skip
          rename_i g
          simp only [Booklit.callBase, M.assoc]
          refine (Pair.filePath hv hi2).bind fun y y' w w' hw hg3 hy => ?_
          have hi3 := hg3 _ _ hi2
          rw [hy.1, hy.2, ← (hB rfl).1, ← M.assoc, ← M.assoc]
          refine pair_attempt (R := fun _ _ => True) ?_ fn fn x x' loc hr
          exact hinc D i w w' _ hw hi3 (joinPath_some hD) ((hB rfl).2 _)
        · exact (Pair.callBase hk hv hi2 b h1 h2 h).bind fun a b w w' hw _ hr2 => .finish hw fn x x' loc hr hr2
  · exact .err

end

/-! ### Files -/

/-- Including a file, on syntax trees. -/
def incT (W : World) (P : Trees) (n : Nat) : Inc := fun p q => do
  let c ← evalTrees W P n (some p) q [0]
  M.upd p fun x => { x with children := x.children ++ [c] }

theorem incT_sub {W : World} {P : Trees} {q : Str} {b : Node} (h : P q = some (.ok b)) (n i : Nat) :
    incT W P (n + 1) i q = subsection i q (fun _ => [0]) (evalNode W n (incT W P n) b) false := by
  unfold incT subsection
  rw [evalTrees, h]
  simp only [M.assoc]
  funext s
  simp only [M.bind_run, M.bind, M.lift, M.alloc, M.get]
  generalize evalBody _ _ _ = x
  obtain ⟨r, u⟩ := x
  cases r <;> rfl

theorem incT_ok {W : World} {P : Trees} {q : Str} {n i : Nat} {s t : St} {a : Unit} (e : incT W P n i q s = (.ok a, t)) :
    ∃ m b, n = m + 1 ∧ P q = some (.ok b) := by
  obtain ⟨c, u, e, _⟩ := M.bind_ok e
  cases n with
  | zero => cases e
  | succ n =>
    rw [evalTrees] at e
    cases h : P q with
    | none => rw [h] at e; cases e
    | some r =>
      rw [h] at e
      obtain ⟨b, _, e, _⟩ := M.bind_ok e
      cases r with
      | ok b => exact ⟨n, b, rfl, rfl⟩
      | err => cases e
      | panic => cases e
      | more => cases e

theorem At2.dir_ne {D : Str × Str} {i : Nat} {s s' : St} (h : At2 D i s s') : D.1 ≠ [] ∧ D.2 ≠ [] := by
  obtain ⟨_, ⟨x, _, h1⟩, ⟨x', _, h2⟩⟩ := h
  rw [← h1, ← h2]
  exact ⟨cleanPath_ne _, cleanPath_ne _⟩

/-- The argument of `\\include-section`. -/
theorem convert_name {W : World} {k : Nat} {inc : Inc} {a : Node} {g : Str} (h : NamesFile a g) (i : Nat) (s : St) :
    convertAll W k i [.string] none (evalArgs W k inc [a]) s = (.ok [.str g], s) := by
  rcases h with rfl | rfl <;> cases k <;> rfl

theorem called_section (W : World) (k : Nat) (inc : Inc) (fn : Str) (loc : Location) (b : Node) (i : Nat) (r : Content) (x : Str) :
    called W k inc fn loc (evalArgs W k inc [b]) i r .section x =
      ((do let e ← M.attempt (evalInline i (evalNode W k inc b)); pure (Ret.error e)) >>= finish fn x loc r) := rfl

theorem called_include {W : World} {k : Nat} {inc : Inc} (fn : Str) (loc : Location) {a : Node} {g : Str} (h : NamesFile a g) (i : Nat) (r : Content)
    (x : Str) (s : St) {y : Str} (hy : s.heap.filePath (s.heap.length + 1) i = some y) :
    called W k inc fn loc (evalArgs W k inc [a]) i r .includeSection x s =
      ((do let e ← M.attempt (inc i (joinPath (dirPath y) g)); pure (Ret.error e)) >>= finish fn x loc r) s := by
  have h1 : called W k inc fn loc (evalArgs W k inc [a]) i r .includeSection x =
      (convertAll W k i [.string] none (evalArgs W k inc [a]) >>= fun vals =>
        callMethod W k inc i (.base .includeSection) vals >>= finish fn x loc r) := rfl
  rw [h1, M.bind_of (convert_name h i s)]
  have h2 : callMethod W k inc i (.base .includeSection) [.str g] =
      (filePathM i >>= fun file => M.attempt (inc i (joinPath (dirPath file) g)) >>= fun e => pure (Ret.error e)) := rfl
  rw [h2, M.assoc, M.bind_of (a := y) (u := s) (by rw [filePathM, hy]; rfl)]

theorem includes_of {fn : Str} (h : baseMethods.lookup (methodName fn) = some .includeSection) : Includes fn := by
  unfold Includes
  generalize methodName fn = x at h
  have := lookup_mem h
  simpa [baseMethods] using this

section
variable {W : World} (hW : ∀ p n, W.foreign p n = none) {E : Nat} {B : Str → Prop} {P P' : Trees}
include hW

mutual
theorem Splits.pair {D : Str × Str} {e : Nat} {n n' : Node} : Splits B P P' D e n n' → ∀ m K : Nat, (E + 1) * m + e ≤ K →
    (∀ m', m' ≤ m → ∀ K, (E + 1) * m' ≤ K → PairInc B (incT W P m') (incT W P' K)) →
    PairEv D (evalNode W m (incT W P m) n) (evalNode W K (incT W P' K) n')
  | .str => fun _ _ _ _ i r s s' hp _ hr => .pure hp ⟨rfl, quiet_append hr (by simp [Content.quiet, Content.all, Content.isSect])⟩
  | .seq h => fun m K hK hT => SplitsL.pair h m K hK hT
  | .para h => fun m K hK hT i r s s' hp hi hr => by
    refine (SplitsR.pair h m K hK hT i s s' hp hi).bind fun a b u u' hu _ h => ?_
    obtain ⟨rfl, h⟩ := h
    match b, h with
    | [], h => exact .pure hu ⟨rfl, hr⟩
    | [x], h =>
      simp only [finishPara]
      cases isFlow x with
      | none => exact .panic
      | some o =>
        cases o with
        | false => exact .pure hu ⟨rfl, quiet_append hr h⟩
        | true => exact .pure hu ⟨rfl, quiet_append hr (by simpa using quiet_iff_para.2 h)⟩
    | x :: y :: xs, h => exact .pure hu ⟨rfl, quiet_append hr (by simpa using quiet_iff_para.2 h)⟩
  | .pre h => fun m K hK hT i r s s' hp hi hr => by
    refine (SplitsR.pair h m K hK hT i s s' hp hi).bind fun a b u u' hu _ h => ?_
    obtain ⟨rfl, h⟩ := h
    exact .pure hu ⟨rfl, quiet_append hr (by simpa using quiet_iff_pre.2 h)⟩
  | .invoke (fn := fn) (l := l) hB h => fun m K hK hT i r s s' hp hi hr => by
    have hm : m ≤ K := Nat.le_trans (Nat.le_mul_of_pos_left m (Nat.succ_pos E)) (Nat.le_trans (Nat.le_add_right _ _) hK)
    refine Pair.invokeWith hW hp hi fun b e => ⟨b, e, fun u u' x x' hu hi2 hx _ => ?_⟩
    exact Pair.called hm (hT m (Nat.le_refl _) K (Nat.le_trans (Nat.le_add_right _ _) hK)) fn l (SplitsL.args h m K hK hT) hr b hu hi2 hx hi2.dir_ne.1
      fun h => hB (includes_of (h ▸ e))
  | .shared (D := D) (l := l) ha ha' hj hB => fun m K hK hT i r s s' hp hi hr => by
    refine Pair.invokeWith hW hp hi fun c e => ⟨c, e, fun u u' x x' hu hi2 hx _ => ?_⟩
    obtain rfl : c = .includeSection := by
      have : baseMethods.lookup (methodName q%"include-section") = some .includeSection := by decide
      rw [this] at e
      exact (Option.some.inj e).symm
    intro c t e
    have hi3 := hi2
    obtain ⟨_, ⟨y, h1, h2⟩, ⟨y', h3, h4⟩⟩ := hi3
    rw [called_include _ _ ha i r x u h1, h2] at e
    rw [called_include _ _ ha' i r x' u' h3, h4, hj]
    exact pair_attempt (R := fun _ _ => True)
      (hT m (Nat.le_refl _) K (Nat.le_trans (Nat.le_add_right _ _) hK) D i u u' _ hu hi2 (joinPath_some hi2.dir_ne.1) hB) _ _ x x' l hr c t e
  | .moved (a := a) (b := b) (b' := b') (g := g) (l := l) ha hf h => fun m K hK hT i r s s' hp hi hr => by
    obtain ⟨K, rfl⟩ : ∃ k, K = k + 1 := ⟨K - 1, by omega⟩
    have ih := Splits.pair h m K (by omega) hT
    refine Pair.invokeWith hW hp hi fun c e => ⟨.includeSection, by decide, fun u u' x x' hu hi2 hx _ => ?_⟩
    obtain rfl : c = .section := by
      have : baseMethods.lookup (methodName q%"section") = some .section := by decide
      rw [this] at e
      exact (Option.some.inj e).symm
    intro c t e
    have hi3 := hi2
    obtain ⟨_, _, ⟨y, h1, h2⟩⟩ := hi3
    rw [called_include _ _ ha i r x' u' h1, h2, incT_sub hf]
    rw [called_section] at e
    refine pair_attempt (R := fun _ _ => True) ?_ _ _ x x' l hr c t e
    rw [evalInline_sub]
    exact Pair.subsection ih hu hi2 (.inl ⟨rfl, rfl⟩) (.inr ⟨joinPath_some hi2.dir_ne.2, rfl⟩) (hu.base i hi2.1).1 (by simp) true false
  | .joined (a := a) (b := b) (b' := b') (g := g) (l := l) ha hf h => fun m K hK hT i r s s' hp hi hr => by
    refine Pair.invokeWith hW hp hi fun c e => ⟨.section, by decide, fun u u' x x' hu hi2 hx _ => ?_⟩
    obtain rfl : c = .includeSection := by
      have : baseMethods.lookup (methodName q%"include-section") = some .includeSection := by decide
      rw [this] at e
      exact (Option.some.inj e).symm
    cases m with
    | zero =>
      intro c t e
      have hi3 := hi2
      obtain ⟨_, ⟨y, h1, h2⟩, _⟩ := hi3
      rw [called_include _ _ ha i r x u h1] at e
      cases e
    | succ m =>
      have ih := Splits.pair h m K (by rw [Nat.mul_succ] at hK; omega) (fun m' h => hT m' (by omega))
      intro c t e
      have hi3 := hi2
      obtain ⟨_, ⟨y, h1, h2⟩, _⟩ := hi3
      rw [called_include _ _ ha i r x u h1, h2, incT_sub hf] at e
      rw [called_section]
      refine pair_attempt (R := fun _ _ => True) ?_ _ _ x x' l hr c t e
      rw [evalInline_sub]
      exact Pair.subsection ih hu hi2 (.inr ⟨joinPath_some hi2.dir_ne.1, rfl⟩) (.inl ⟨rfl, rfl⟩) (by simp) (hu.base i hi2.1).2 false true
theorem SplitsL.pair {D : Str × Str} {e : Nat} {ns ns' : List Node} : SplitsL B P P' D e ns ns' → ∀ m K : Nat, (E + 1) * m + e ≤ K →
    (∀ m', m' ≤ m → ∀ K, (E + 1) * m' ≤ K → PairInc B (incT W P m') (incT W P' K)) →
    PairEv D (evalSeq W m (incT W P m) ns) (evalSeq W K (incT W P' K) ns')
  | .nil => fun _ _ _ _ i r s s' hp _ hr => .pure hp ⟨rfl, hr⟩
  | .cons h hs => fun m K hK hT i r s s' hp hi hr => by
    refine (Splits.pair h m K hK hT i r s s' hp hi hr).bind fun a b u u' hu hg h => ?_
    obtain ⟨rfl, h⟩ := h
    exact SplitsL.pair hs m K hK hT i b u u' hu (hg _ _ hi) h
theorem SplitsL.args {D : Str × Str} {e : Nat} {ns ns' : List Node} : SplitsL B P P' D e ns ns' → ∀ m K : Nat, (E + 1) * m + e ≤ K →
    (∀ m', m' ≤ m → ∀ K, (E + 1) * m' ≤ K → PairInc B (incT W P m') (incT W P' K)) →
    All2 (fun a b => PairEv D a.2 b.2) (evalArgs W m (incT W P m) ns) (evalArgs W K (incT W P' K) ns')
  | .nil => fun _ _ _ _ => .nil
  | .cons h hs => fun m K hK hT => .cons (Splits.pair h m K hK hT) (SplitsL.args hs m K hK hT)
theorem SplitsR.pair {D : Str × Str} {e : Nat} {ls ls' : List (List Node)} : SplitsR B P P' D e ls ls' → ∀ m K : Nat, (E + 1) * m + e ≤ K →
    (∀ m', m' ≤ m → ∀ K, (E + 1) * m' ≤ K → PairInc B (incT W P m') (incT W P' K)) →
    ∀ i s s', Parted s s' → At2 D i s s' → Pair s s' (fun a b => b = a ∧ ∀ c ∈ a, c.quiet = true)
      (evalLines W m (incT W P m) ls i) (evalLines W K (incT W P' K) ls' i)
  | .nil => fun _ _ _ _ i s s' hp _ => .pure hp ⟨rfl, by simp⟩
  | .cons h hs => fun m K hK hT i s s' hp hi => by
    refine (SplitsL.pair h m K hK hT i .nil s s' hp hi rfl).bind fun a b u u' hu hg h => ?_
    obtain ⟨rfl, h⟩ := h
    refine (SplitsR.pair hs m K hK hT i u u' hu (hg _ _ hi)).bind fun x y v v' hv _ h2 => ?_
    obtain ⟨rfl, h2⟩ := h2
    refine .pure hv ⟨rfl, ?_⟩
    split
    · exact h2
    · intro c hc
      rcases List.mem_cons.1 hc with rfl | hc
      · exact h
      · exact h2 c hc
end

theorem FilesSplit.inc (hF : FilesSplit E B P P') : ∀ m m', m' ≤ m → ∀ K, (E + 1) * m' ≤ K → PairInc B (incT W P m') (incT W P' K) := by
  intro m
  induction m with
  | zero =>
    intro m' hm K hK D i s s' path hp hi hne hB a t e
    obtain ⟨k, b, hk, hb⟩ := incT_ok e
    omega
  | succ m ih =>
    intro m' hm K hK D i s s' path hp hi hne hB a t e
    obtain ⟨k, b, rfl, hb⟩ := incT_ok e
    obtain ⟨b', hb', hs⟩ := hF path b hB hb
    rw [Nat.mul_succ] at hK
    obtain ⟨K, rfl⟩ : ∃ k, K = k + 1 := ⟨K - 1, by omega⟩
    rw [incT_sub hb] at e
    rw [incT_sub hb']
    have he := hs.pair hW (E := E) k K (by omega) (fun m' h => ih m' (by omega))
    exact Pair.subsection he hp hi (.inr ⟨hne, rfl⟩) (.inr ⟨hne, rfl⟩) (by simp) (by simp) false false a t e

/-- Evaluation of a file on its own. -/
theorem FilesSplit.eval (hF : FilesSplit E B P P') {path : Str} (hne : path ≠ []) (hB : B path) {ps : List Nat} (h0 : 0 ∈ ps) {m K : Nat} (hK : (E + 1) * m ≤ K)
    {s s' : St} (hp : Parted s s')
    {o : Option Nat} (ho : ∀ p, o = some p → p < s.heap.length) :
    Pair s s' (fun i j => j = i ∧ i = s.heap.length) (evalTrees W P m o path ps) (evalTrees W P' K o path ps) := by
  intro a t e
  cases m with
  | zero => cases e
  | succ m =>
    rw [Nat.mul_succ] at hK
    obtain ⟨K, rfl⟩ : ∃ k, K = k + 1 := ⟨K - 1, by omega⟩
    rw [evalTrees] at e ⊢
    cases hb : P path with
    | none => rw [hb] at e; cases e
    | some r =>
      cases r with
      | err => rw [hb] at e; cases e
      | panic => rw [hb] at e; cases e
      | more => rw [hb] at e; cases e
      | ok b =>
        obtain ⟨b', hb', hs⟩ := hF path b hB hb
        have he := hs.pair hW (E := E) m K (by omega) (fun m' h => hF.inc hW m m' h)
        have hal := hp.add (x := { Sec.fresh o path with plugins := ps }) (x' := { Sec.fresh o path with plugins := ps })
          rfl (Quiet.fresh _ _ _) ⟨h0, h0⟩ ho
        have hat : At2 (dirPath path, dirPath path) s.heap.length (s.add { Sec.fresh o path with plugins := ps })
            (s'.add { Sec.fresh o path with plugins := ps }) := by
          refine ⟨by simp [St.add], ⟨path, ?_, rfl⟩, ⟨path, ?_, rfl⟩⟩
          · simp only [St.add]
            rw [filePath_new hp.parents]
            simp [Sec.fresh, hne]
          · simp only [St.add]
            rw [← hp.length, filePath_new hp.parents']
            simp [Sec.fresh, hne]
        have hl := hp.length
        have rest : Pair (s.add { Sec.fresh o path with plugins := ps }) (s'.add { Sec.fresh o path with plugins := ps })
            (fun i j => j = i ∧ i = s.heap.length)
            (evalBody (evalNode W m (incT W P m) b) s.heap.length >>= fun _ => pure s.heap.length)
            (evalBody (evalNode W K (incT W P' K) b') s.heap.length >>= fun _ => pure s.heap.length) :=
          (Pair.body he hal.1 hat).bind fun _ _ u u' hu _ _ => .pure hu ⟨rfl, rfl⟩
        rw [hb] at e
        obtain ⟨c, t', r1, r2, r3, r4⟩ := rest a t e
        refine ⟨c, t', ?_, r2, hal.2.trans r3, r4⟩
        rw [hb', ← r1, ← hl]
        rfl

end

end Booklit
