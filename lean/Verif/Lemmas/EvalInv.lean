import Verif.Model.Collect

/-!
A proof rule for evaluation: a relation between the states before and after that is kept by every single
write, by inline sections and by included files is kept by evaluation.
-/

namespace Booklit

/-- Conditions on content met by everything evaluation makes. -/
structure ContentInv (W : World) (P : Content → Prop) : Prop where
  str : ∀ s, P (.str s)
  append : ∀ {r c}, (r.isNil = false → P r) → P c → P (append r [c])
  para : ∀ {xs}, xs ≠ [] → (∀ x ∈ xs, P x) → (∀ x, xs = [x] → isFlow x = some true) → P (.para xs)
  pre : ∀ {xs}, (∀ x ∈ xs, P x) → P (.pre xs)
  aux : ∀ {c}, P c → P (.aux c)
  toc : ∀ i, P (.toc i)
  styled : ∀ {c} s, P c → P (.styled s false c [])
  link : ∀ {c} u, P c → P (.link c u)
  ref : ∀ {c} i t l, (c.isNil = false → P c) → P (.ref i t c false l)
  target : ∀ {ti c} t l, P ti → (c.isNil = false → P c) → P (.target t l ti c)
  list : ∀ {xs} o, (∀ x ∈ xs, P x) → P (.list xs o)
  items : ∀ {xs o}, P (.list xs o) → ∀ x ∈ xs, P x
  image : ∀ a b, P (.image a b)
  table : ∀ {rows}, (∀ r ∈ rows, ∀ x ∈ r, P x) → P (.table rows)
  defs : ∀ {ds}, (∀ d ∈ ds, P d.1 ∧ P d.2) → P (.defs ds)
  foreign : ∀ {p name f} h i args, W.foreign p name = some f → (∀ c, Raw.content c ∈ args → P c) →
    (∀ c, f.run h i args = .content c → c.isNil = false → P c) ∧
    (∀ c, f.run h i args = .both c none → c.isNil = false → P c)

/-- The writes of baselit methods and of calls to the section `i` they run in. -/
inductive Upd (W : World) (P : Content → Prop) (h : Heap) (i : Nat) : (Sec → Sec) → Prop
  | invokeLoc (l : Location) : Upd W P h i fun x => { x with invokeLoc := l }
  | plugin {name : Str} {p : Nat} (hp : W.registry name = some p) : Upd W P h i fun x => x.usePlugin p
  | style (s : Str) : Upd W P h i fun x => { x with style := s }
  | title {names : List Str} (ht : (h.get i).title = .str []) (hn : names ≠ []) (t : Content) (hc : P t)
      (l : Location) (hl : l = (h.get i).invokeLoc) : Upd W P h i fun x =>
        { x with title := t, titleLoc := l,
                 tags := names.map fun n => ⟨n, t, some i, [], .nil, l⟩,
                 primaryTag := (names.map fun n => (⟨n, t, some i, [], .nil, l⟩ : Tag)).headD Tag.zero }
  | prevent : Upd W P h i fun x => { x with preventSplit := true }
  | reset : Upd W P h i fun x => { x with resetDepth := true }
  | split (hp : h.splitPrevented (h.length + 1) i = some false) : Upd W P h i fun x => { x with split := true }
  | omit_ : Upd W P h i fun x => { x with omitToc := true }
  | partial_ (n : Str) (c : Content) (hc : P c) : Upd W P h i fun x => x.setPartial n c

/-- The body set at the end. -/
def setBody (r : Content) (s : St) (c : Nat) : St :=
  if r.isNil then s else { s with heap := s.heap.upd c fun x => { x with body := r } }

/-- The state in which an inline section of `i` starts. -/
def St.inline (s : St) (i : Nat) : St :=
  { s with heap := s.heap ++ [{ Sec.fresh (some i) [] with plugins := (s.heap.get i).plugins }] }

/-- The end of `\section`: location and list of children. -/
def St.linkInline (s : St) (i c : Nat) : St :=
  { s with heap := (s.heap.upd c fun x => { x with loc := (s.heap.get i).invokeLoc }).upd i (fun x => { x with children := x.children ++ [c] }) }

/-- The state in which a file starts. -/
def St.file (s : St) (parent : Option Nat) (path : Str) (plugins : List Nat) : St :=
  { s with heap := s.heap ++ [{ Sec.fresh parent path with plugins := plugins }] }

/-- The list of children after an included file. -/
def St.link (s : St) (i c : Nat) : St :=
  { s with heap := s.heap.upd i fun x => { x with children := x.children ++ [c] } }

/-- The node a file evaluates: from the cache or parsed. -/
def nodeOf (s : St) (path : Str) (info : FileInfo) : Res Node :=
  match cached s.cache path info.mtime with
  | some n => .ok n
  | none => parseFile path info

/-- Relations that evaluation keeps. -/
structure EvalInv (W : World) (P : Content → Prop) (R : Nat → St → St → Prop) : Prop where
  refl : ∀ i s, R i s s
  trans : ∀ {i s s' s''}, R i s s' → R i s' s'' → R i s s''
  len : ∀ {i s s'}, R i s s' → s.heap.length ≤ s'.heap.length
  upd : ∀ {i s f}, i < s.heap.length → Upd W P s.heap i f → R i s { s with heap := s.heap.upd i f }
  content : ContentInv W P
  body : ∀ {i s} c, i < s.heap.length → P c → R i s { s with heap := s.heap.upd i fun x => { x with body := c } }
  failed : ∀ {i s s'}, i < s.heap.length → R s.heap.length (s.inline i) s' → R i s s'
  inline : ∀ {i s s'}, i < s.heap.length → R s.heap.length (s.inline i) s' → R i s (s'.linkInline i s.heap.length)
  failedFile : ∀ {i s s' path}, i < s.heap.length → R s.heap.length (s.file (some i) path [0]) s' → R i s s'
  file : ∀ {i s s' path}, i < s.heap.length → path ≠ [] → R s.heap.length (s.file (some i) path [0]) s' →
    R i s (s'.link i s.heap.length)
  remember : ∀ {i s s'} path info n, W.fs path = some info → nodeOf s path info = .ok n → R i s s' →
    R i s (remember path n info.mtime s').2

/-- `m`, run in section `i`, keeps the relation. -/
def Keeps (R : Nat → St → St → Prop) (i : Nat) {α : Type} (m : M α) : Prop :=
  ∀ s, i < s.heap.length → R i s (m s).2

variable {W : World} {P : Content → Prop} {R : Nat → St → St → Prop}

theorem M.bind_run {α β : Type} (m : M α) (f : α → M β) (s : St) : (m >>= f) s = M.bind m f s := rfl

theorem M.pure_run {α : Type} (a : α) (s : St) : (Pure.pure a : M α) s = (.ok a, s) := rfl

theorem keeps_const (I : EvalInv W P R) {i : Nat} {α : Type} {m : M α} (h : ∀ s, (m s).2 = s) : Keeps R i m :=
  fun s _ => by rw [h]; exact I.refl i s

theorem keeps_pure (I : EvalInv W P R) {i : Nat} {α : Type} (a : α) : Keeps R i (Pure.pure a : M α) :=
  keeps_const I fun _ => rfl

theorem keeps_lift (I : EvalInv W P R) {i : Nat} {α : Type} (r : Res α) : Keeps R i (M.lift r) :=
  keeps_const I fun _ => rfl

theorem keeps_bind (I : EvalInv W P R) {i : Nat} {α β : Type} {m : M α} {f : α → M β} (hm : Keeps R i m)
    (hf : ∀ a, Keeps R i (f a)) : Keeps R i (m >>= f) := by
  intro s hs
  have h1 := hm s hs
  rw [M.bind_run, M.bind]
  have hl := I.len h1
  revert h1 hl
  cases hx : m s with
  | mk r s' =>
    cases r with
    | ok a => intro h1 hl; exact I.trans h1 (hf a s' (Nat.lt_of_lt_of_le hs hl))
    | err e => intro h1 _; exact h1
    | panic => intro h1 _; exact h1
    | more => intro h1 _; exact h1

theorem keeps_get {i : Nat} {α : Type} {f : St → M α} (h : ∀ s, i < s.heap.length → R i s (f s s).2) :
    Keeps R i (M.get >>= f) := fun s hs => h s hs

theorem keeps_upd (I : EvalInv W P R) {i : Nat} {f : Sec → Sec} (h : ∀ hp, Upd W P hp i f) : Keeps R i (M.upd i f) :=
  fun s hs => I.upd hs (h s.heap)

theorem keeps_ite {i : Nat} {α : Type} {c : Prop} [Decidable c] {m m' : M α} (h : Keeps R i m) (h' : Keeps R i m') :
    Keeps R i (if c then m else m') := by
  split <;> assumption

theorem keeps_attempt {i : Nat} {α : Type} {m : M α} (h : Keeps R i m) : Keeps R i (M.attempt m) := by
  intro s hs
  have h1 := h s hs
  rw [M.attempt]
  revert h1
  cases hx : m s with
  | mk r s' => cases r <;> exact id

/-- A condition on successful results. -/
def Yields {α : Type} (m : M α) (Q : α → Prop) : Prop := ∀ s a s', m s = (.ok a, s') → Q a

theorem yields_pure {α : Type} {a : α} {Q : α → Prop} (h : Q a) : Yields (Pure.pure a : M α) Q := by
  intro s b s' e
  cases e
  exact h

theorem yields_bind {α β : Type} {m : M α} {f : α → M β} {Q : β → Prop} {P : α → Prop} (hm : Yields m P)
    (h : ∀ a, P a → Yields (f a) Q) : Yields (m >>= f) Q := by
  intro s b s' e
  rw [M.bind_run, M.bind] at e
  cases hx : m s with
  | mk r s1 =>
    rw [hx] at e
    cases r with
    | ok a => exact h a (hm s a s1 hx) s1 b s' e
    | err _ => cases e
    | panic => cases e
    | more => cases e

theorem yields_true {α : Type} (m : M α) : Yields m fun _ => True := fun _ _ _ _ => trivial

theorem yields_bind' {α β : Type} {m : M α} {f : α → M β} {Q : β → Prop} (h : ∀ a, Yields (f a) Q) :
    Yields (m >>= f) Q := yields_bind (yields_true m) fun a _ => h a

theorem yields_err {α : Type} {Q : α → Prop} {e : Err} : Yields (M.lift (.err e)) Q := by
  intro s b s' h
  cases h

theorem yields_panic {α : Type} {Q : α → Prop} : Yields (M.lift .panic) Q := by
  intro s b s' h
  cases h

/-- Sequencing with a condition on the intermediate result. -/
theorem keeps_bindY (I : EvalInv W P R) {i : Nat} {α β : Type} {m : M α} {f : α → M β} {P : α → Prop}
    (hm : Keeps R i m) (hy : Yields m P) (hf : ∀ a, P a → Keeps R i (f a)) : Keeps R i (m >>= f) := by
  intro s hs
  have h1 := hm s hs
  rw [M.bind_run, M.bind]
  have hl := I.len h1
  revert h1 hl
  cases hx : m s with
  | mk r s' =>
    cases r with
    | ok a => intro h1 hl; exact I.trans h1 (hf a (hy s a s' hx) s' (Nat.lt_of_lt_of_le hs hl))
    | err e => intro h1 _; exact h1
    | panic => intro h1 _; exact h1
    | more => intro h1 _; exact h1

/-- The body of a section. -/
theorem evalBody_run (ev : Ev) (c : Nat) (s : St) :
    evalBody ev c s =
      match ev c .nil s with
      | (.ok r, s') => (.ok (), setBody r s' c)
      | (.err e, s') => (.err e, s')
      | (.panic, s') => (.panic, s')
      | (.more, s') => (.more, s') := by
  rw [evalBody, M.bind_run, M.bind]
  cases ev c .nil s with
  | mk r s' =>
    cases r with
    | ok r => simp only [setBody]; split <;> rfl
    | _ => rfl

/-- Evaluation in any section keeps the relation, and makes content with the condition. -/
def EvOk (P : Content → Prop) (R : Nat → St → St → Prop) (ev : Ev) : Prop :=
  ∀ j r, Keeps R j (ev j r) ∧ ((r.isNil = false → P r) → Yields (ev j r) fun c => c.isNil = false → P c)

theorem keeps_body (I : EvalInv W P R) {ev : Ev} {c : Nat} (h : EvOk P R ev) : Keeps R c (evalBody ev c) := by
  refine keeps_bindY I (h c _).1 ((h c .nil).2 (by intro h; cases h)) fun r hr => ?_
  by_cases hn : r.isNil = true
  · rw [if_pos hn]; exact keeps_pure I _
  · rw [if_neg hn]
    exact fun s hs => I.body r hs (hr (by simpa using hn))

theorem evalInline_run (i : Nat) (ev : Ev) (s : St) :
    evalInline i ev s =
      match evalBody ev s.heap.length (s.inline i) with
      | (.ok _, s') => (.ok (), s'.linkInline i s.heap.length)
      | (.err e, s') => (.err e, s')
      | (.panic, s') => (.panic, s')
      | (.more, s') => (.more, s') := by
  rw [evalInline]
  simp only [M.bind_run, M.bind, M.get, M.alloc, M.upd]
  have e : St.mk (s.heap ++ [{ Sec.fresh (some i) [] with plugins := (s.heap.get i).plugins }]) s.cache = s.inline i := rfl
  rw [e]
  cases evalBody ev s.heap.length (s.inline i) with
  | mk r s' => cases r <;> rfl

theorem keeps_inline (I : EvalInv W P R) {i : Nat} {ev : Ev} (h : EvOk P R ev) :
    Keeps R i (evalInline i ev) := by
  intro s hs
  rw [evalInline_run]
  have hb := keeps_body I (c := s.heap.length) h (s.inline i) (by simp [St.inline])
  revert hb
  cases evalBody ev s.heap.length (s.inline i) with
  | mk r s' =>
    cases r with
    | ok _ => exact fun hb => I.inline hs hb
    | err _ => exact fun hb => I.failed hs hb
    | panic => exact fun hb => I.failed hs hb
    | more => exact fun hb => I.failed hs hb

theorem keeps_filePath (I : EvalInv W P R) {i j : Nat} : Keeps R i (filePathM j) := keeps_const I fun _ => rfl

theorem keeps_defaultTag (I : EvalInv W P R) {i k : Nat} {t : Content} : Keeps R i (defaultTag W k t) := by
  refine keeps_const I fun s => ?_
  rw [defaultTag]
  split <;> rfl

theorem titleNames_state {k : Nat} (t : Content) (tags : List Str) (s : St) : (titleNames W k t tags s).2 = s := by
  unfold titleNames
  split
  · rw [M.bind_run, M.bind]
    have : (defaultTag W k t s).2 = s := by rw [defaultTag]; split <;> rfl
    cases hx : defaultTag W k t s with
    | mk r s2 => rw [hx] at this; cases r <;> exact this
  · rfl

theorem titleNames_ne {k : Nat} (t : Content) (tags : List Str) (s : St) (a : List Str) (s' : St)
    (h : titleNames W k t tags s = (.ok a, s')) : a ≠ [] := by
  unfold titleNames at h
  split at h
  · rw [M.bind_run, M.bind] at h
    cases hx : defaultTag W k t s with
    | mk r s2 =>
      rw [hx] at h
      cases r with
      | ok t => cases h; simp
      | _ => cases h
  · cases h; assumption

/-- The functions called by an argument list. -/
def EvKeeps (P : Content → Prop) (R : Nat → St → St → Prop) : ArgV → Prop
  | .node _ ev => EvOk P R ev
  | .content c => P c
  | _ => True

theorem keeps_of_run {i : Nat} {α : Type} {m m' : M α} (h : Keeps R i m) (e : m' = m) : Keeps R i m' := e ▸ h

theorem keeps_callBase (I : EvalInv W P R) {k i : Nat} {inc : Inc} (hi : ∀ j q, q ≠ [] → Keeps R j (inc j q)) (b : Base)
    (args : List ArgV) (ha : ∀ a ∈ args, EvKeeps P R a) : Keeps R i (callBase W k inc i b args) := by
  have hjoin : ∀ f p, joinPath (dirPath f) p ≠ [] := by
    intro f p
    have hc : ∀ s, cleanPath s ≠ [] := by
      intro s
      rw [cleanPath]
      split
      · simp
      · split
        · simp
        · assumption
    rw [joinPath, if_pos (show dirPath f ≠ [] from hc _)]
    exact hc _
  unfold callBase
  split
  · split
    · exact keeps_pure I _
    · next p hp =>
      exact keeps_bind I (keeps_upd I fun _ => .plugin hp) fun _ => keeps_pure I _
  · exact keeps_bind I (keeps_upd I fun _ => .style _) fun _ => keeps_pure I _
  · next title tags =>
    refine keeps_get fun s hs => ?_
    by_cases ht : (s.heap.get i).title = .str []
    · have he : (s.heap.get i).title.isEmpty = true := by rw [ht]; rfl
      simp only [he, if_true]
      rw [M.bind_run, M.bind]
      have e1 := titleNames_state (W := W) (k := k) title (strArgs tags) s
      have e2 := titleNames_ne (W := W) (k := k) title (strArgs tags) s
      cases hm : titleNames W k title (strArgs tags) s with
      | mk r s' =>
        rw [hm] at e1
        dsimp only at e1
        subst e1
        cases r with
        | ok names =>
          refine I.upd (W := W) hs ?_
          exact .title ht (e2 _ _ hm) title (ha (.content title) (by simp)) _ rfl
        | _ => exact I.refl i s'
    · have he : (s.heap.get i).title.isEmpty = false := by
        rw [Content.isEmpty.eq_def]
        split
        · next h => exact absurd h ht
        · rfl
      simp only [he, Bool.false_eq_true, if_false]
      exact keeps_bind I (keeps_filePath I) (fun _ => keeps_pure I _) s hs
  · exact keeps_pure I _
  · next n ev =>
    refine keeps_bind I (keeps_attempt (keeps_inline I ?_)) fun _ => keeps_pure I _
    exact ha (.node n ev) (by simp)
  · refine keeps_bind I (keeps_filePath I) fun f => ?_
    exact keeps_bind I (keeps_attempt (hi _ _ (hjoin _ _))) fun _ => keeps_pure I _
  · exact keeps_bind I (keeps_upd I fun _ => .prevent) fun _ => keeps_pure I _
  · refine keeps_bind I (keeps_upd I fun _ => .reset) fun _ => ?_
    refine keeps_get fun s hs => ?_
    cases hp : s.heap.splitPrevented (s.heap.length + 1) i with
    | none => exact I.refl i s
    | some b =>
      cases b with
      | true => exact I.refl i s
      | false => exact I.upd hs (.split hp)
  · exact keeps_bind I (keeps_upd I fun _ => .omit_) fun _ => keeps_pure I _
  · exact keeps_pure I _
  · exact keeps_pure I _
  · exact keeps_pure I _
  · exact keeps_const I fun _ => rfl
  · exact keeps_const I fun _ => rfl
  · exact keeps_pure I _
  · exact keeps_pure I _
  · exact keeps_pure I _
  · next name c =>
    exact keeps_bind I (keeps_upd I fun _ => .partial_ _ _ (ha (.content c) (by simp))) fun _ => keeps_pure I _
  · split <;> exact keeps_pure I _
  · exact keeps_pure I _
  · split <;> exact keeps_pure I _
  · exact keeps_pure I _
  · exact keeps_lift I _

theorem keeps_convert (I : EvalInv W P R) {k i : Nat} (t : Ty) (a : Node × Ev) (h : EvOk P R a.2) :
    Keeps R i (convert W k i t a) := by
  obtain ⟨n, ev⟩ := a
  cases t with
  | string =>
    refine keeps_bind I (h i _).1 fun c => ?_
    exact keeps_const I fun s => by
      simp only [M.bind_run, M.bind, M.get, M.lift]
      cases s.heap.text W.brokenOk k c <;> rfl
  | content => exact keeps_bind I (h i _).1 fun c => keeps_pure I _
  | node => exact keeps_pure I _
  | other => exact keeps_lift I _

theorem keeps_convertAll (I : EvalInv W P R) {k i : Nat} (ts : List Ty) (v : Option Ty) (as : List (Node × Ev))
    (h : ∀ a ∈ as, EvOk P R a.2) : Keeps R i (convertAll W k i ts v as) := by
  induction as generalizing ts with
  | nil => cases ts <;> cases v <;> exact keeps_pure I _
  | cons a as ih =>
    have ih' := fun ts => ih ts fun b hb => h b (by simp [hb])
    cases ts with
    | cons t ts =>
      exact keeps_bind I (keeps_convert I t a (h a (by simp))) fun x => keeps_bind I (ih' ts) fun xs => keeps_pure I _
    | nil =>
      cases v with
      | none => exact keeps_pure I _
      | some v =>
        exact keeps_bind I (keeps_convert I v a (h a (by simp))) fun x => keeps_bind I (ih' []) fun xs => keeps_pure I _

theorem yields_convert {k i : Nat} (t : Ty) (a : Node × Ev) (h : EvOk P R a.2) :
    Yields (convert W k i t a) (EvKeeps P R) := by
  obtain ⟨n, ev⟩ := a
  cases t with
  | string => exact yields_bind' fun c => yields_bind' fun s => yields_bind' fun t => yields_pure trivial
  | content =>
    refine yields_bind ((h i .nil).2 (by intro h; cases h)) fun c hP => yields_pure ?_
    by_cases hc : c.isNil = true
    · rw [if_pos hc]; trivial
    · rw [if_neg hc]; exact hP (by simpa using hc)
  | node => exact yields_pure h
  | other => exact yields_err

theorem yields_convertAll {k i : Nat} (ts : List Ty) (v : Option Ty) (as : List (Node × Ev))
    (h : ∀ a ∈ as, EvOk P R a.2) :
    Yields (convertAll W k i ts v as) fun vs => ∀ a ∈ vs, EvKeeps P R a := by
  induction as generalizing ts with
  | nil => cases ts <;> cases v <;> exact yields_pure (by simp)
  | cons a as ih =>
    have ih' := fun ts => ih ts fun b hb => h b (by simp [hb])
    cases ts with
    | cons t ts =>
      refine yields_bind (yields_convert t a (h a (by simp))) fun x hx => yields_bind (ih' ts) fun xs hxs => ?_
      exact yields_pure (by simp only [List.mem_cons, forall_eq_or_imp]; exact ⟨hx, hxs⟩)
    | nil =>
      cases v with
      | none => exact yields_pure (by simp)
      | some v =>
        refine yields_bind (yields_convert v a (h a (by simp))) fun x hx => yields_bind (ih' []) fun xs hxs => ?_
        exact yields_pure (by simp only [List.mem_cons, forall_eq_or_imp]; exact ⟨hx, hxs⟩)

theorem keeps_callMethod (I : EvalInv W P R) {k i : Nat} {inc : Inc} (hi : ∀ j q, q ≠ [] → Keeps R j (inc j q)) (m : Method)
    (args : List ArgV) (ha : ∀ a ∈ args, EvKeeps P R a) : Keeps R i (callMethod W k inc i m args) := by
  unfold callMethod
  refine keeps_ite (keeps_lift I _) ?_
  cases m with
  | base b => exact keeps_callBase I hi b args ha
  | foreign f => exact keeps_const I fun _ => rfl

theorem keeps_finish (I : EvalInv W P R) {i : Nat} {fn path : Str} {loc : Location} {r : Content} (ret : Ret) :
    Keeps R i (finish fn path loc r ret) := by
  refine keeps_const I fun s => ?_
  rw [finish.eq_def]
  split <;> first | rfl | (split <;> rfl)

/-- What a returned value contributes. -/
def RetOk (P : Content → Prop) : Ret → Prop
  | .content c => c.isNil = false → P c
  | .both c none => c.isNil = false → P c
  | _ => True

theorem contentArgs_ok {args : List ArgV} (ha : ∀ a ∈ args, EvKeeps P R a) : ∀ c ∈ contentArgs args, P c := by
  induction args with
  | nil => simp [contentArgs]
  | cons a as ih =>
    have ih' := ih fun b hb => ha b (by simp [hb])
    cases a with
    | content c =>
      simp only [contentArgs, List.mem_cons, forall_eq_or_imp]
      exact ⟨ha (.content c) (by simp), ih'⟩
    | str _ => exact ih'
    | node _ _ => exact ih'
    | zero => exact ih'

theorem tableRows_ok (C : ContentInv W P) : ∀ {cs : List Content} {rows}, (∀ c ∈ cs, P c) → tableRows cs = some rows →
    ∀ r ∈ rows, ∀ x ∈ r, P x
  | [], rows, _, h => by cases h; simp
  | c :: cs, rows, hc, h => by
    cases c with
    | list items o =>
      simp only [tableRows, Option.map_eq_some_iff] at h
      obtain ⟨rs, h1, rfl⟩ := h
      simp only [List.mem_cons, forall_eq_or_imp] at hc ⊢
      exact ⟨C.items hc.1, tableRows_ok C hc.2 h1⟩
    | _ => cases h

theorem definitionItems_ok (C : ContentInv W P) : ∀ {cs : List Content} {ds}, (∀ c ∈ cs, P c) →
    definitionItems cs = some ds → ∀ d ∈ ds, P d.1 ∧ P d.2
  | [], rows, _, h => by cases h; simp
  | c :: cs, rows, hc, h => by
    rw [definitionItems.eq_def] at h
    split at h
    · next e => cases e
    · next a b o ds e =>
      cases e
      simp only [Option.map_eq_some_iff] at h
      obtain ⟨rs, h1, rfl⟩ := h
      simp only [List.mem_cons, forall_eq_or_imp] at hc ⊢
      have := C.items hc.1
      exact ⟨⟨this a (by simp), this b (by simp)⟩, definitionItems_ok C hc.2 h1⟩
    · cases h

theorem yields_callBase (C : ContentInv W P) {k i : Nat} {inc : Inc} (b : Base) (args : List ArgV)
    (ha : ∀ a ∈ args, EvKeeps P R a) : Yields (callBase W k inc i b args) (RetOk P) := by
  have hcs := contentArgs_ok ha
  unfold callBase
  split
  · split
    · exact yields_pure trivial
    · exact yields_bind' fun _ => yields_pure trivial
  · exact yields_bind' fun _ => yields_pure trivial
  · refine yields_bind' fun _ => ?_
    dsimp only
    split
    · exact yields_bind' fun _ => yields_bind' fun _ => yields_pure trivial
    · exact yields_bind' fun _ => yields_pure trivial
  · exact yields_pure fun _ => C.aux (hcs _ (by simp [contentArgs]))
  · exact yields_bind' fun _ => yields_pure trivial
  · exact yields_bind' fun _ => yields_bind' fun _ => yields_pure trivial
  · exact yields_bind' fun _ => yields_pure trivial
  · refine yields_bind' fun _ => yields_bind' fun _ => yields_bind' fun _ => ?_
    split
    · exact yields_pure trivial
    · exact yields_bind' fun _ => yields_pure trivial
  · exact yields_bind' fun _ => yields_pure trivial
  · exact yields_pure fun _ => C.toc _
  · exact yields_pure fun _ => C.styled _ (hcs _ (by simp [contentArgs]))
  · exact yields_pure fun _ => C.link _ (hcs _ (by simp [contentArgs]))
  · next tag cs =>
    refine yields_bind' fun s => yields_pure fun _ => C.ref _ _ _ ?_
    simp only [contentArgs] at hcs
    cases hx : contentArgs cs with
    | nil => intro h; cases h
    | cons c _ => exact fun _ => hcs c (by simp [hx])
  · next tag cs =>
    refine yields_bind' fun s => yields_pure fun _ => ?_
    simp only [contentArgs] at hcs
    split
    · next ti c hx => exact C.target _ _ (hcs _ (by simp [hx])) fun _ => hcs _ (by simp [hx])
    · next ti hx => exact C.target _ _ (hcs _ (by simp [hx])) (by intro h; cases h)
    · exact C.target _ _ (C.str _) (by intro h; cases h)
  · exact yields_pure fun _ => C.list _ hcs
  · exact yields_pure fun _ => C.list _ hcs
  · exact yields_pure fun _ => C.image _ _
  · exact yields_bind' fun _ => yields_pure trivial
  · split
    · next rows h => exact yields_pure fun _ => C.table (tableRows_ok C hcs h)
    · exact yields_pure trivial
  · exact yields_pure fun _ => C.list _ hcs
  · split
    · next ds h => exact yields_pure fun _ => C.defs (definitionItems_ok C hcs h)
    · exact yields_pure trivial
  · refine yields_pure fun _ => C.list _ ?_
    simpa [contentArgs] using hcs
  · exact yields_panic

/-- A method of a plugin of the world. -/
def Method.In (W : World) : Method → Prop
  | .base _ => True
  | .foreign f => ∃ p name, W.foreign p name = some f

theorem findMethod_in {name : Str} {ps : List Nat} {m : Method} (h : findMethod W name ps = some m) : m.In W := by
  induction ps with
  | nil => cases h
  | cons p ps ih =>
    rw [findMethod] at h
    cases hm : methodOf W p name with
    | none => rw [hm] at h; exact ih h
    | some m' =>
      rw [hm] at h
      cases h
      cases p with
      | zero =>
        simp only [methodOf, Option.map_eq_some_iff] at hm
        obtain ⟨b, _, rfl⟩ := hm
        trivial
      | succ p =>
        simp only [methodOf, Option.map_eq_some_iff] at hm
        obtain ⟨f, h1, rfl⟩ := hm
        exact ⟨_, _, h1⟩

theorem yields_callMethod (C : ContentInv W P) {k i : Nat} {inc : Inc} (m : Method) (hm : m.In W) (args : List ArgV)
    (ha : ∀ a ∈ args, EvKeeps P R a) : Yields (callMethod W k inc i m args) (RetOk P) := by
  unfold callMethod
  split
  · exact yields_panic
  · next hz =>
    cases m with
    | base b => exact yields_callBase C b args ha
    | foreign f =>
      obtain ⟨p, name, hf⟩ := hm
      intro s ret s' e
      injection e with e1 e2
      injection e1 with e1
      have hP : ∀ c, Raw.content c ∈ args.map ArgV.raw → P c := by
        intro c hc
        obtain ⟨a, h1, h2⟩ := List.mem_map.1 hc
        cases a with
        | content d => injection h2 with h2; subst h2; exact ha _ h1
        | zero => exact absurd (List.any_eq_true.2 ⟨_, h1, rfl⟩) hz
        | _ => cases h2
      have := C.foreign s.heap i (args.map ArgV.raw) hf hP
      cases ret with
      | content c => exact this.1 c e1
      | both c e =>
        cases e with
        | none => exact this.2 c e1
        | some _ => trivial
      | _ => trivial

theorem yields_finish (C : ContentInv W P) {fn path : Str} {loc : Location} {r : Content} (hr : r.isNil = false → P r)
    (ret : Ret) (h : RetOk P ret) : Yields (finish fn path loc r ret) fun c => c.isNil = false → P c := by
  unfold finish
  split
  · exact yields_pure hr
  · exact yields_pure hr
  · exact yields_err
  · split
    · exact yields_panic
    · next hn => exact yields_pure fun _ => C.append hr (h (by simpa using hn))
  · exact yields_err
  · split
    · exact yields_panic
    · next hn => exact yields_pure fun _ => C.append hr (h (by simpa using hn))
  · exact yields_err

theorem invoke_ok (I : EvalInv W P R) {k : Nat} {inc : Inc} (hi : ∀ j q, q ≠ [] → Keeps R j (inc j q)) {fn : Str}
    {loc : Location} {args : List (Node × Ev)} (ha : ∀ a ∈ args, EvOk P R a.2) :
    EvOk P R (invokeFn W k inc fn loc args) := by
  intro i r
  constructor
  · rw [invokeFn]
    refine keeps_bind I (keeps_upd I fun _ => .invokeLoc loc) fun _ => ?_
    refine keeps_bind I (keeps_filePath I) fun path => ?_
    refine keeps_get fun s hs => ?_
    cases findMethod W (methodName fn) (s.heap.get i).plugins with
    | none => exact I.refl i s
    | some m =>
      refine keeps_ite ?_ (keeps_lift I _) s hs
      refine keeps_bindY I (keeps_convertAll I _ _ _ ha) (yields_convertAll _ _ _ ha) fun vs hvs => ?_
      exact keeps_bind I (keeps_callMethod I hi m vs hvs) fun ret => keeps_finish I ret
  · intro hr
    rw [invokeFn]
    refine yields_bind' fun _ => yields_bind' fun path => yields_bind' fun s => ?_
    cases hm : findMethod W (methodName fn) (s.heap.get i).plugins with
    | none => exact yields_err
    | some m =>
      dsimp only
      split
      · refine yields_bind (yields_convertAll _ _ _ ha) fun vs hvs => ?_
        exact yields_bind (yields_callMethod I.content m (findMethod_in hm) vs hvs) fun ret hret =>
          yields_finish I.content hr ret hret
      · exact yields_err

theorem keeps_finishPara (I : EvalInv W P R) {i : Nat} {r : Content} (xs : List Content) :
    Keeps R i (finishPara r xs) := by
  refine keeps_const I fun s => ?_
  match xs with
  | [] => rfl
  | [x] => simp only [finishPara]; cases isFlow x with
    | none => rfl
    | some b => cases b <;> rfl
  | _ :: _ :: _ => rfl

theorem yields_finishPara (C : ContentInv W P) {r : Content} (hr : r.isNil = false → P r) (xs : List Content)
    (h : ∀ x ∈ xs, P x) : Yields (finishPara r xs) fun c => c.isNil = false → P c := by
  match xs with
  | [] => exact yields_pure hr
  | [x] =>
    simp only [finishPara]
    cases hf : isFlow x with
    | none => exact yields_panic
    | some b =>
      cases b with
      | false => exact yields_pure fun _ => C.append hr (h x (by simp))
      | true =>
        refine yields_pure fun _ => C.append hr (C.para (by simp) h ?_)
        intro y e
        cases e
        exact hf
  | x :: y :: zs =>
    refine yields_pure fun _ => C.append hr (C.para (by simp) h ?_)
    intro z e
    cases e

mutual
theorem node_ok (I : EvalInv W P R) {k : Nat} {inc : Inc} (hi : ∀ j q, q ≠ [] → Keeps R j (inc j q)) :
    ∀ (n : Node), EvOk P R (evalNode W k inc n)
  | .str s => fun i r => by
    rw [evalNode]
    exact ⟨keeps_pure I _, fun hr => yields_pure fun _ => I.content.append hr (I.content.str s)⟩
  | .seq ns => by rw [evalNode]; exact seq_ok I hi ns
  | .para ls => fun i r => by
    rw [evalNode]
    exact ⟨keeps_bind I (lines_ok I hi ls i).1 fun xs => keeps_finishPara I xs,
      fun hr => yields_bind (lines_ok I hi ls i).2 fun xs hx => yields_finishPara I.content hr xs hx⟩
  | .pre ls => fun i r => by
    rw [evalNode]
    exact ⟨keeps_bind I (lines_ok I hi ls i).1 fun xs => keeps_pure I _,
      fun hr => yields_bind (lines_ok I hi ls i).2 fun xs hx => yields_pure fun _ => I.content.append hr (I.content.pre hx)⟩
  | .invoke fn args loc => by
    rw [evalNode]
    exact invoke_ok I hi (args_ok I hi args)
theorem seq_ok (I : EvalInv W P R) {k : Nat} {inc : Inc} (hi : ∀ j q, q ≠ [] → Keeps R j (inc j q)) :
    ∀ (ns : List Node), EvOk P R (evalSeq W k inc ns)
  | [] => fun i r => by rw [evalSeq]; exact ⟨keeps_pure I _, fun hr => yields_pure hr⟩
  | n :: ns => fun i r => by
    rw [evalSeq]
    exact ⟨keeps_bind I (node_ok I hi n i r).1 fun r' => (seq_ok I hi ns i r').1,
      fun hr => yields_bind ((node_ok I hi n i r).2 hr) fun r' hr' => (seq_ok I hi ns i r').2 hr'⟩
theorem lines_ok (I : EvalInv W P R) {k : Nat} {inc : Inc} (hi : ∀ j q, q ≠ [] → Keeps R j (inc j q)) :
    ∀ (ls : List (List Node)) (i : Nat), Keeps R i (evalLines W k inc ls i) ∧
      Yields (evalLines W k inc ls i) fun xs => ∀ x ∈ xs, P x
  | [], i => by rw [evalLines]; exact ⟨keeps_pure I _, yields_pure (by simp)⟩
  | l :: ls, i => by
    rw [evalLines]
    refine ⟨keeps_bind I (seq_ok I hi l i _).1 fun x => keeps_bind I (lines_ok I hi ls i).1 fun xs => keeps_pure I _, ?_⟩
    refine yields_bind ((seq_ok I hi l i .nil).2 (by intro h; cases h)) fun x hx => ?_
    refine yields_bind (lines_ok I hi ls i).2 fun xs hxs => yields_pure ?_
    split
    · exact hxs
    · next hn => simp only [List.mem_cons, forall_eq_or_imp]; exact ⟨hx (by simpa using hn), hxs⟩
theorem args_ok (I : EvalInv W P R) {k : Nat} {inc : Inc} (hi : ∀ j q, q ≠ [] → Keeps R j (inc j q)) :
    ∀ (ns : List Node), ∀ a ∈ evalArgs W k inc ns, EvOk P R a.2
  | [] => by simp [evalArgs]
  | n :: ns => by
    rw [evalArgs]
    intro a ha
    rcases List.mem_cons.1 ha with rfl | ha
    · exact node_ok I hi n
    · exact args_ok I hi ns a ha
end

/-- The callback for included files. -/
def incl (W : World) (n : Nat) : Inc := fun p q => do
  let c ← evalFile W n (some p) q [0]
  M.upd p fun x => { x with children := x.children ++ [c] }

theorem evalFile_run (W : World) (n : Nat) (parent : Option Nat) (path : Str) (plugins : List Nat) (s : St) :
    evalFile W (n + 1) parent path plugins s =
      match W.fs path with
      | none => (.err (.plain q%"stat error"), s)
      | some info =>
        match nodeOf s path info with
        | .ok node =>
          match evalBody (evalNode W n (incl W n) node) s.heap.length (s.file parent path plugins) with
          | (.ok _, s') => (.ok s.heap.length, (remember path node info.mtime s').2)
          | (.err e, s') => (.err e, s')
          | (.panic, s') => (.panic, s')
          | (.more, s') => (.more, s')
        | .err e => (.err e, s)
        | .panic => (.panic, s)
        | .more => (.more, s) := by
  rw [evalFile]
  simp only [M.bind_run, M.bind, M.get]
  cases hf : W.fs path with
  | none => rfl
  | some info =>
    simp only [nodeOf]
    have hlater : ∀ node,
        ((M.bind (M.alloc { Sec.fresh parent path with plugins := plugins }) fun i =>
          M.bind (evalBody (evalNode W n (incl W n) node) i) fun _ =>
          M.bind (remember path node info.mtime) fun _ => M.pure i) s) =
        match evalBody (evalNode W n (incl W n) node) s.heap.length (s.file parent path plugins) with
          | (.ok _, s') => (.ok s.heap.length, (remember path node info.mtime s').2)
          | (.err e, s') => (.err e, s')
          | (.panic, s') => (.panic, s')
          | (.more, s') => (.more, s') := by
      intro node
      simp only [M.bind, M.alloc]
      have e : St.mk (s.heap ++ [{ Sec.fresh parent path with plugins := plugins }]) s.cache = s.file parent path plugins := rfl
      rw [e]
      cases evalBody (evalNode W n (incl W n) node) s.heap.length (s.file parent path plugins) with
      | mk r s' => cases r <;> rfl
    cases hc : cached s.cache path info.mtime with
    | some node => exact hlater node
    | none =>
      cases hp : parseFile path info with
      | ok node =>
        simp only [M.lift, M.bind_run, M.bind]
        exact hlater node
      | err e => rfl
      | panic => rfl
      | more => rfl

/-- What the relation says about evaluating a file. -/
theorem keeps_file (I : EvalInv W P R) : ∀ (n : Nat) (parent : Option Nat) (path : Str) (plugins : List Nat) (s : St),
    (∃ e, evalFile W n parent path plugins s = (.err e, s)) ∨
    evalFile W n parent path plugins s = (.panic, s) ∨ evalFile W n parent path plugins s = (.more, s) ∨
    ∃ s', evalFile W n parent path plugins s = (.ok s.heap.length, s') ∧ R s.heap.length (s.file parent path plugins) s' ∨
      (∀ i, evalFile W n parent path plugins s ≠ (.ok i, s')) ∧ (evalFile W n parent path plugins s).2 = s' ∧
        R s.heap.length (s.file parent path plugins) s'
  | 0, _, _, _, s => .inr (.inr (.inl rfl))
  | n + 1, parent, path, plugins, s => by
    have hinc : ∀ j q, q ≠ [] → Keeps R j (incl W n j q) := by
      intro j q hq s hs
      simp only [incl, M.bind_run, M.bind]
      rcases keeps_file I n (some j) q [0] s with ⟨e, h⟩ | h | h | ⟨s', ⟨h1, h2⟩ | ⟨h1, h2, h3⟩⟩
      · rw [h]; exact I.refl j s
      · rw [h]; exact I.refl j s
      · rw [h]; exact I.refl j s
      · rw [h1]; exact I.file hs hq h2
      · cases hx : evalFile W n (some j) q [0] s with
        | mk r s1 =>
          rw [hx] at h1 h2
          dsimp only at h2
          subst h2
          cases r with
          | ok a => exact absurd rfl (h1 a)
          | err _ => exact I.failedFile hs h3
          | panic => exact I.failedFile hs h3
          | more => exact I.failedFile hs h3
    rw [evalFile_run]
    cases hfs : W.fs path with
    | none => exact .inl ⟨_, rfl⟩
    | some info =>
      dsimp only
      cases hnode : nodeOf s path info with
      | err e => exact .inl ⟨_, rfl⟩
      | panic => exact .inr (.inl rfl)
      | more => exact .inr (.inr (.inl rfl))
      | ok node =>
        dsimp only
        have hb := keeps_body I (c := s.heap.length) (node_ok I (k := n) hinc node)
          (s.file parent path plugins) (by simp [St.file])
        revert hb
        cases evalBody (evalNode W n (incl W n) node) s.heap.length (s.file parent path plugins) with
        | mk r s' =>
          intro hb
          dsimp only at hb
          refine .inr (.inr (.inr ?_))
          cases r with
          | ok _ => exact ⟨_, .inl ⟨rfl, I.remember path info node hfs hnode hb⟩⟩
          | err e => exact ⟨s', .inr ⟨fun i => (by intro h; cases h), rfl, hb⟩⟩
          | panic => exact ⟨s', .inr ⟨fun i => (by intro h; cases h), rfl, hb⟩⟩
          | more => exact ⟨s', .inr ⟨fun i => (by intro h; cases h), rfl, hb⟩⟩

theorem keeps_incl (I : EvalInv W P R) (n j : Nat) (q : Str) (hq : q ≠ []) : Keeps R j (incl W n j q) := by
  intro s hs
  simp only [incl, M.bind_run, M.bind]
  rcases keeps_file I n (some j) q [0] s with ⟨e, h⟩ | h | h | ⟨s', ⟨h1, h2⟩ | ⟨h1, h2, h3⟩⟩
  · rw [h]; exact I.refl j s
  · rw [h]; exact I.refl j s
  · rw [h]; exact I.refl j s
  · rw [h1]; exact I.file hs hq h2
  · cases hx : evalFile W n (some j) q [0] s with
    | mk r s1 =>
      rw [hx] at h1 h2
      dsimp only at h2
      subst h2
      cases r with
      | ok a => exact absurd rfl (h1 a)
      | err _ => exact I.failedFile hs h3
      | panic => exact I.failedFile hs h3
      | more => exact I.failedFile hs h3

theorem ContentInv.true (W : World) : ContentInv W fun _ => True := by
  constructor <;> intros <;> simp

/-- A successful evaluation of a file gives the new section, and the relation holds. -/
theorem keeps_file_ok (I : EvalInv W P R) {n : Nat} {parent : Option Nat} {path : Str} {plugins : List Nat} {s s' : St}
    {i : Nat} (h : evalFile W n parent path plugins s = (.ok i, s')) :
    i = s.heap.length ∧ R i (s.file parent path plugins) s' := by
  rcases keeps_file I n parent path plugins s with ⟨e, h'⟩ | h' | h' | ⟨s1, ⟨h1, h2⟩ | ⟨h1, h2, h3⟩⟩
  · rw [h'] at h; cases h
  · rw [h'] at h; cases h
  · rw [h'] at h; cases h
  · rw [h1] at h; cases h; exact ⟨rfl, h2⟩
  · rw [h] at h2; dsimp only at h2; subst h2; exact absurd h (h1 i)

end Booklit
