import Verif.Lemmas.EvalRel

/-!
A condition on the errors of computations.
-/

namespace Booklit

/-- Every error of `m` satisfies `Q`. -/
def Errs {α : Type} (m : M α) (Q : Err → Prop) : Prop := ∀ s e s', m s = (.err e, s') → Q e

variable {W : World} {Q : Err → Prop}

theorem errs_pure {α : Type} (a : α) : Errs (Pure.pure a : M α) Q := by
  intro s e s' h
  cases h

theorem errs_bind {α β : Type} {m : M α} {f : α → M β} (hm : Errs m Q) (hf : ∀ a, Errs (f a) Q) : Errs (m >>= f) Q := by
  intro s e s' h
  rw [M.bind_run, M.bind] at h
  cases hx : m s with
  | mk r s1 =>
    rw [hx] at h
    cases r with
    | ok a => exact hf a s1 e s' h
    | err e1 => cases h; exact hm s _ _ hx
    | panic => cases h
    | more => cases h

theorem errs_bindY {α β : Type} {m : M α} {f : α → M β} {P : α → Prop} (hm : Errs m Q) (hy : Yields m P)
    (hf : ∀ a, P a → Errs (f a) Q) : Errs (m >>= f) Q := by
  intro s e s' h
  rw [M.bind_run, M.bind] at h
  cases hx : m s with
  | mk r s1 =>
    rw [hx] at h
    cases r with
    | ok a => exact hf a (hy s a s1 hx) s1 e s' h
    | err e1 => cases h; exact hm s _ _ hx
    | panic => cases h
    | more => cases h

theorem errs_never {α : Type} {m : M α} (h : ∀ s e s', m s ≠ (.err e, s')) : Errs m Q := fun s e s' he => absurd he (h s e s')

theorem errs_get : Errs M.get Q := errs_never fun s e s' h => by cases h

theorem errs_upd (i : Nat) (f : Sec → Sec) : Errs (M.upd i f) Q := errs_never fun s e s' h => by cases h

theorem errs_lift {α : Type} {r : Res α} (h : ∀ e, r = .err e → Q e) : Errs (M.lift r) Q := by
  intro s e s' he
  injection he with h1 h2
  exact h e h1

theorem errs_filePath (i : Nat) : Errs (filePathM i) Q := errs_never fun s e s' h => by
  simp only [filePathM] at h
  cases hx : s.heap.filePath (s.heap.length + 1) i <;> rw [hx] at h <;> cases h

theorem errs_attempt {α : Type} (m : M α) : Errs (M.attempt m) Q := errs_never fun s e s' h => by
  rw [M.attempt] at h
  cases hx : m s with
  | mk r s1 => rw [hx] at h; cases r <;> cases h

theorem yields_attempt {α : Type} {m : M α} (h : Errs m Q) : Yields (M.attempt m) fun o => ∀ e, o = some e → Q e := by
  intro s a s' he
  rw [M.attempt] at he
  cases hx : m s with
  | mk r s1 =>
    rw [hx] at he
    cases r with
    | ok _ => cases he; intro e h; cases h
    | err e => cases he; intro e' h; cases h; exact h_aux h hx
    | panic => cases he
    | more => cases he
where
  h_aux {α : Type} {m : M α} {s s1 : St} {e : Err} (h : Errs m Q) (hx : m s = (.err e, s1)) : Q e := h s e s1 hx

mutual
theorem text_no_err (ref : Nat → Str → Bool → Location → Res Str) (sect : Nat → Res Str)
    (hr : ∀ s t o l e, ref s t o l ≠ .err e) (hs : ∀ i e, sect i ≠ .err e) : ∀ (c : Content) (e : Err), c.text ref sect ≠ .err e
  | .nil, e => by simp [Content.text]
  | .str s, e => by simp [Content.text]
  | .seq cs, e => by rw [Content.text]; exact map_no_err _ (textL_no_err ref sect hr hs cs) e
  | .para cs, e => by rw [Content.text]; exact map_no_err _ (textL_no_err ref sect hr hs cs) e
  | .pre cs, e => by rw [Content.text]; exact map_no_err _ (textL_no_err ref sect hr hs cs) e
  | .ref s t c o l, e => by
    rw [Content.text]
    split
    · exact hr s t o l e
    · exact text_no_err ref sect hr hs c e
  | .sect i, e => by rw [Content.text]; exact hs i e
  | .toc _, e => by simp [Content.text]
  | .styled _ _ c _, e => by rw [Content.text]; exact text_no_err ref sect hr hs c e
  | .target _ _ _ _, e => by simp [Content.text]
  | .image p _, e => by simp [Content.text]
  | .list cs o, e => by rw [Content.text]; exact map_no_err _ (textL_no_err ref sect hr hs cs) e
  | .link c _, e => by rw [Content.text]; exact text_no_err ref sect hr hs c e
  | .table rs, e => by rw [Content.text]; exact map_no_err _ (textR_no_err ref sect hr hs rs) e
  | .defs ds, e => by rw [Content.text]; exact map_no_err _ (textD_no_err ref sect hr hs ds) e
  | .lazy b _, e => by simp [Content.text]
  | .aux c, e => by rw [Content.text]; exact text_no_err ref sect hr hs c e
theorem textL_no_err (ref : Nat → Str → Bool → Location → Res Str) (sect : Nat → Res Str)
    (hr : ∀ s t o l e, ref s t o l ≠ .err e) (hs : ∀ i e, sect i ≠ .err e) : ∀ (cs : List Content) (e : Err), textL ref sect cs ≠ .err e
  | [], e => by simp [textL]
  | c :: cs, e => by
    rw [textL]
    exact bind_no_err (text_no_err ref sect hr hs c) (fun t e => map_no_err _ (textL_no_err ref sect hr hs cs) e) e
theorem textR_no_err (ref : Nat → Str → Bool → Location → Res Str) (sect : Nat → Res Str)
    (hr : ∀ s t o l e, ref s t o l ≠ .err e) (hs : ∀ i e, sect i ≠ .err e) : ∀ (rs : List (List Content)) (e : Err), textR ref sect rs ≠ .err e
  | [], e => by simp [textR]
  | r :: rs, e => by
    rw [textR]
    exact bind_no_err (textL_no_err ref sect hr hs r) (fun t e => map_no_err _ (textR_no_err ref sect hr hs rs) e) e
theorem textD_no_err (ref : Nat → Str → Bool → Location → Res Str) (sect : Nat → Res Str)
    (hr : ∀ s t o l e, ref s t o l ≠ .err e) (hs : ∀ i e, sect i ≠ .err e) : ∀ (ds : List (Content × Content)) (e : Err), textD ref sect ds ≠ .err e
  | [], e => by simp [textD]
  | (a, b) :: ds, e => by
    rw [textD]
    refine bind_no_err (fun e => ?_) (fun t e => bind_no_err (fun e => ?_) (fun t e => map_no_err _ (textD_no_err ref sect hr hs ds) e) e) e
    · split
      · simp
      · exact text_no_err ref sect hr hs a e
    · split
      · simp
      · exact text_no_err ref sect hr hs b e
theorem map_no_err {α β : Type} (f : α → β) {r : Res α} (h : ∀ e, r ≠ .err e) (e : Err) : r.map f ≠ .err e := by
  cases r with
  | err e => exact absurd rfl (h e)
  | _ => simp [Res.map]
theorem bind_no_err {α β : Type} {r : Res α} {f : α → Res β} (h : ∀ e, r ≠ .err e) (hf : ∀ a e, f a ≠ .err e) (e : Err) :
    r.bind f ≠ .err e := by
  cases r with
  | ok a => exact hf a e
  | err e => exact absurd rfl (h e)
  | _ => simp [Res.bind]
end

theorem heapText_no_err (b : Bool) (h : Heap) : ∀ (n : Nat) (c : Content) (e : Err), h.text b n c ≠ .err e
  | 0, c, e => by rw [Heap.text]; exact text_no_err _ _ (fun _ _ _ _ _ h => by cases h) (fun _ _ h => by cases h) c e
  | n + 1, c, e => by
    rw [Heap.text]
    refine text_no_err _ _ (fun s t o l e => ?_) (fun i e => ?_) c e
    · split
      · simp
      · exact heapText_no_err b h n _ e
      · simp
      · simp
      · simp
    · exact map_no_err _ (heapText_no_err b h n _) e


/-- Conditions met by every error that evaluation makes. -/
structure ErrInv (W : World) (Q : Err → Prop) : Prop where
  plain : ∀ w, Q (.plain w)
  parse : ∀ p l, Q (.parse p l)
  undefined : ∀ fn p l, Q (.undefined fn p l)
  titleTwice : ∀ p l l', Q (.titleTwice p l l')
  failed : ∀ {e} fn p l, e.pretty = false → Q e → Q (.failed fn e p l)
  foreign : ∀ {p name f} h i args e, W.foreign p name = some f →
    (f.run h i args = .error (some e) → Q e) ∧ (∀ c, f.run h i args = .both c (some e) → Q e)

/-- The errors among the returned values satisfy `Q`. -/
def RetErr (Q : Err → Prop) : Ret → Prop
  | .error (some e) => Q e
  | .both _ (some e) => Q e
  | _ => True

theorem errs_err {α : Type} {e : Err} (h : Q e) : Errs (M.lift (.err e) : M α) Q :=
  errs_lift fun e' h' => by cases h'; exact h

theorem errs_panic {α : Type} : Errs (M.lift .panic : M α) Q := errs_lift fun e' h' => by cases h'

theorem errs_alloc (x : Sec) : Errs (M.alloc x) Q := errs_never fun s e s' h => by cases h

theorem errs_body {ev : Ev} (h : ∀ i r, Errs (ev i r) Q) (c : Nat) : Errs (evalBody ev c) Q := by
  rw [evalBody]
  refine errs_bind (h c .nil) fun r => ?_
  split
  · exact errs_pure _
  · exact errs_upd _ _

theorem errs_inline {ev : Ev} (h : ∀ i r, Errs (ev i r) Q) (i : Nat) : Errs (evalInline i ev) Q := by
  rw [evalInline]
  exact errs_bind errs_get fun s => errs_bind (errs_alloc _) fun c => errs_bind (errs_body h c) fun _ =>
    errs_bind errs_get fun s => errs_bind (errs_upd _ _) fun _ => errs_upd _ _

theorem errs_titleNames (k : Nat) (t : Content) (tags : List Str) : Errs (titleNames W k t tags) Q := by
  rw [titleNames]
  split
  · refine errs_bind (errs_never fun s e s' h => ?_) fun _ => errs_pure _
    simp only [defaultTag] at h
    split at h
    · cases h
    · injection h with h1 h2
      exact map_no_err _ (heapText_no_err _ _ _ _) _ h1
  · exact errs_pure _

theorem yields_get_true {α : Type} (m : M α) : Yields m fun _ => True := yields_true m

/-- Errors of the methods of baselit, and the errors they return. -/
theorem errs_callBase (E : ErrInv W Q) {k i : Nat} {inc : Inc} (hi : ∀ j q, Errs (inc j q) Q) (b : Base)
    (args : List ArgV) (ha : ∀ n ev, ArgV.node n ev ∈ args → ∀ i r, Errs (ev i r) Q) :
    Errs (callBase W k inc i b args) Q ∧ Yields (callBase W k inc i b args) (RetErr Q) := by
  unfold callBase
  split
  · split
    · exact ⟨errs_pure _, yields_pure (E.plain _)⟩
    · exact ⟨errs_bind (errs_upd _ _) fun _ => errs_pure _, yields_bind' fun _ => yields_pure trivial⟩
  · exact ⟨errs_bind (errs_upd _ _) fun _ => errs_pure _, yields_bind' fun _ => yields_pure trivial⟩
  · constructor
    · refine errs_bind errs_get fun s => ?_
      dsimp only
      split
      · exact errs_bind (errs_titleNames _ _ _) fun _ => errs_bind (errs_upd _ _) fun _ => errs_pure _
      · exact errs_bind (errs_filePath _) fun _ => errs_pure _
    · refine yields_bind' fun s => ?_
      dsimp only
      split
      · exact yields_bind' fun _ => yields_bind' fun _ => yields_pure trivial
      · exact yields_bind' fun _ => yields_pure (E.titleTwice _ _ _)
  · exact ⟨errs_pure _, yields_pure trivial⟩
  · next n ev =>
    refine ⟨errs_bind (errs_attempt _) fun _ => errs_pure _, ?_⟩
    refine yields_bind (yields_attempt (errs_inline (ha n ev (by simp)) i)) fun o ho => yields_pure ?_
    cases o with
    | none => trivial
    | some e => exact ho e rfl
  · refine ⟨errs_bind (errs_filePath _) fun _ => errs_bind (errs_attempt _) fun _ => errs_pure _, ?_⟩
    refine yields_bind' fun p => yields_bind (yields_attempt (hi _ _)) fun o ho => yields_pure ?_
    cases o with
    | none => trivial
    | some e => exact ho e rfl
  · exact ⟨errs_bind (errs_upd _ _) fun _ => errs_pure _, yields_bind' fun _ => yields_pure trivial⟩
  · constructor
    · refine errs_bind (errs_upd _ _) fun _ => errs_bind errs_get fun s => ?_
      refine errs_bind (errs_lift fun e h => ?_) fun p => ?_
      · cases hx : s.heap.splitPrevented (s.heap.length + 1) i <;> rw [hx] at h <;> cases h
      · split
        · exact errs_pure _
        · exact errs_bind (errs_upd _ _) fun _ => errs_pure _
    · refine yields_bind' fun _ => yields_bind' fun s => yields_bind' fun p => ?_
      split
      · exact yields_pure trivial
      · exact yields_bind' fun _ => yields_pure trivial
  · exact ⟨errs_bind (errs_upd _ _) fun _ => errs_pure _, yields_bind' fun _ => yields_pure trivial⟩
  · exact ⟨errs_pure _, yields_pure trivial⟩
  · exact ⟨errs_pure _, yields_pure trivial⟩
  · exact ⟨errs_pure _, yields_pure trivial⟩
  · exact ⟨errs_bind errs_get fun _ => errs_pure _, yields_bind' fun _ => yields_pure trivial⟩
  · exact ⟨errs_bind errs_get fun _ => errs_pure _, yields_bind' fun _ => yields_pure trivial⟩
  · exact ⟨errs_pure _, yields_pure trivial⟩
  · exact ⟨errs_pure _, yields_pure trivial⟩
  · exact ⟨errs_pure _, yields_pure trivial⟩
  · exact ⟨errs_bind (errs_upd _ _) fun _ => errs_pure _, yields_bind' fun _ => yields_pure trivial⟩
  · split
    · exact ⟨errs_pure _, yields_pure trivial⟩
    · exact ⟨errs_pure _, yields_pure (E.plain _)⟩
  · exact ⟨errs_pure _, yields_pure trivial⟩
  · split
    · exact ⟨errs_pure _, yields_pure trivial⟩
    · exact ⟨errs_pure _, yields_pure (E.plain _)⟩
  · exact ⟨errs_pure _, yields_pure trivial⟩
  · exact ⟨errs_panic, yields_panic⟩

/-- A node argument comes with an evaluation whose errors satisfy `Q`. -/
def ArgErr (Q : Err → Prop) (a : ArgV) : Prop := ∀ n ev, a = .node n ev → ∀ i r, Errs (ev i r) Q

theorem errs_convert (E : ErrInv W Q) {k i : Nat} (t : Ty) (a : Node × Ev) (h : ∀ i r, Errs (a.2 i r) Q) :
    Errs (convert W k i t a) Q ∧ Yields (convert W k i t a) (ArgErr Q) := by
  obtain ⟨n, ev⟩ := a
  cases t with
  | string =>
    refine ⟨errs_bind (h _ _) fun c => errs_bind errs_get fun s => errs_bind (errs_lift fun e he => ?_) fun t => errs_pure _, ?_⟩
    · exact absurd he (heapText_no_err _ _ _ _ _)
    · refine yields_bind' fun c => yields_bind' fun s => yields_bind' fun t => yields_pure ?_
      intro n ev e; cases e
  | content =>
    refine ⟨errs_bind (h _ _) fun c => errs_pure _, yields_bind' fun c => yields_pure ?_⟩
    intro n ev e
    split at e <;> cases e
  | node =>
    refine ⟨errs_pure _, yields_pure ?_⟩
    intro n' ev' e
    cases e
    exact h
  | other => exact ⟨errs_err (E.plain _), yields_err⟩

theorem errs_convertAll (E : ErrInv W Q) {k i : Nat} (ts : List Ty) (v : Option Ty) (as : List (Node × Ev))
    (h : ∀ a ∈ as, ∀ i r, Errs (a.2 i r) Q) :
    Errs (convertAll W k i ts v as) Q ∧ Yields (convertAll W k i ts v as) fun vs => ∀ a ∈ vs, ArgErr Q a := by
  induction as generalizing ts with
  | nil => unfold convertAll; exact ⟨errs_pure _, yields_pure (by simp)⟩
  | cons a as ih =>
    have h1 := h a (by simp)
    have h2 := fun ts => ih ts fun b hb => h b (by simp [hb])
    unfold convertAll
    split
    · next heq => cases heq
    · next heq =>
      cases heq
      refine ⟨errs_bind (errs_convert E _ _ h1).1 fun x => errs_bind (h2 _).1 fun xs => errs_pure _, ?_⟩
      refine yields_bind (errs_convert E _ _ h1).2 fun x hx => yields_bind (h2 _).2 fun xs hxs => yields_pure ?_
      simp only [List.mem_cons, forall_eq_or_imp]
      exact ⟨hx, hxs⟩
    · next heq =>
      cases heq
      refine ⟨errs_bind (errs_convert E _ _ h1).1 fun x => errs_bind (h2 _).1 fun xs => errs_pure _, ?_⟩
      refine yields_bind (errs_convert E _ _ h1).2 fun x hx => yields_bind (h2 _).2 fun xs hxs => yields_pure ?_
      simp only [List.mem_cons, forall_eq_or_imp]
      exact ⟨hx, hxs⟩
    · exact ⟨errs_pure _, yields_pure (by simp)⟩

theorem errs_callMethod (E : ErrInv W Q) {k i : Nat} {inc : Inc} (hi : ∀ j q, Errs (inc j q) Q) (m : Method)
    (hm : m.In W) (args : List ArgV) (ha : ∀ a ∈ args, ArgErr Q a) :
    Errs (callMethod W k inc i m args) Q ∧ Yields (callMethod W k inc i m args) (RetErr Q) := by
  unfold callMethod
  split
  · exact ⟨errs_panic, yields_panic⟩
  · cases m with
    | base b => exact errs_callBase E hi b args fun n ev hn => ha _ hn n ev rfl
    | foreign f =>
      obtain ⟨p, name, hf⟩ := hm
      refine ⟨errs_never fun s e s' h => (by cases h), ?_⟩
      intro s ret s' h
      injection h with h1 h2
      injection h1 with h1
      have := fun e => E.foreign s.heap i (args.map ArgV.raw) e hf
      rw [h1] at this
      cases ret with
      | error o => cases o with
        | none => trivial
        | some e => exact (this e).1 rfl
      | both c o => cases o with
        | none => trivial
        | some e => exact (this e).2 c rfl
      | _ => trivial

theorem returnedError_ok (E : ErrInv W Q) {fn path : Str} {loc : Location} {e : Err} (h : Q e) :
    Q (returnedError fn path loc e) := by
  rw [returnedError]
  split
  · exact h
  · next hp => exact E.failed _ _ _ (by simpa using hp) h

theorem errs_finish (E : ErrInv W Q) {fn path : Str} {loc : Location} {r : Content} (ret : Ret) (h : RetErr Q ret) :
    Errs (finish fn path loc r ret) Q := by
  unfold finish
  split
  · exact errs_pure _
  · exact errs_pure _
  · exact errs_err (returnedError_ok E h)
  · split
    · exact errs_panic
    · exact errs_pure _
  · exact errs_err (returnedError_ok E h)
  · split
    · exact errs_panic
    · exact errs_pure _
  · exact errs_err (E.plain _)

theorem errs_finishPara {r : Content} (xs : List Content) : Errs (finishPara r xs) Q := by
  unfold finishPara
  split
  · exact errs_pure _
  · split
    · exact errs_panic
    · exact errs_pure _
    · exact errs_pure _
  · exact errs_pure _

theorem errs_invoke (E : ErrInv W Q) {k : Nat} {inc : Inc} (hi : ∀ j q, Errs (inc j q) Q) {fn : Str} {loc : Location}
    {args : List (Node × Ev)} (ha : ∀ a ∈ args, ∀ i r, Errs (a.2 i r) Q) (i : Nat) (r : Content) :
    Errs (invokeFn W k inc fn loc args i r) Q := by
  rw [invokeFn]
  refine errs_bind (errs_upd _ _) fun _ => errs_bind (errs_filePath _) fun path => errs_bind errs_get fun s => ?_
  cases hm : findMethod W (methodName fn) (s.heap.get i).plugins with
  | none => exact errs_err (E.undefined _ _ _)
  | some m =>
    dsimp only
    split
    · refine errs_bindY (errs_convertAll E _ _ _ ha).1 (errs_convertAll E _ _ _ ha).2 fun vs hvs => ?_
      have := errs_callMethod E hi (k := k) (i := i) m (findMethod_in hm) vs hvs
      exact errs_bindY this.1 this.2 fun ret hret => errs_finish E ret hret
    · exact errs_err (E.plain _)

mutual
theorem errs_node (E : ErrInv W Q) {k : Nat} {inc : Inc} (hi : ∀ j q, Errs (inc j q) Q) :
    ∀ (n : Node) (i : Nat) (r : Content), Errs (evalNode W k inc n i r) Q
  | .str s, i, r => by rw [evalNode]; exact errs_pure _
  | .seq ns, i, r => by rw [evalNode]; exact errs_seq E hi ns i r
  | .para ls, i, r => by rw [evalNode]; exact errs_bind (errs_lines E hi ls i) fun xs => errs_finishPara xs
  | .pre ls, i, r => by rw [evalNode]; exact errs_bind (errs_lines E hi ls i) fun xs => errs_pure _
  | .invoke fn args loc, i, r => by rw [evalNode]; exact errs_invoke E hi (errs_args E hi args) i r
theorem errs_seq (E : ErrInv W Q) {k : Nat} {inc : Inc} (hi : ∀ j q, Errs (inc j q) Q) :
    ∀ (ns : List Node) (i : Nat) (r : Content), Errs (evalSeq W k inc ns i r) Q
  | [], i, r => by rw [evalSeq]; exact errs_pure _
  | n :: ns, i, r => by
    rw [evalSeq]
    exact errs_bind (errs_node E hi n i r) fun r' => errs_seq E hi ns i r'
theorem errs_lines (E : ErrInv W Q) {k : Nat} {inc : Inc} (hi : ∀ j q, Errs (inc j q) Q) :
    ∀ (ls : List (List Node)) (i : Nat), Errs (evalLines W k inc ls i) Q
  | [], i => by rw [evalLines]; exact errs_pure _
  | l :: ls, i => by
    rw [evalLines]
    exact errs_bind (errs_seq E hi l i _) fun x => errs_bind (errs_lines E hi ls i) fun xs => errs_pure _
theorem errs_args (E : ErrInv W Q) {k : Nat} {inc : Inc} (hi : ∀ j q, Errs (inc j q) Q) :
    ∀ (ns : List Node), ∀ a ∈ evalArgs W k inc ns, ∀ i r, Errs (a.2 i r) Q
  | [] => by simp [evalArgs]
  | n :: ns => by
    rw [evalArgs]
    intro a ha
    rcases List.mem_cons.1 ha with rfl | ha
    · exact errs_node E hi n
    · exact errs_args E hi ns a ha
end

theorem errs_file (E : ErrInv W Q) : ∀ (n : Nat) (parent : Option Nat) (path : Str) (plugins : List Nat),
    Errs (evalFile W n parent path plugins) Q
  | 0, _, _, _ => by intro s e s' h; cases h
  | n + 1, parent, path, plugins => by
    have hi : ∀ j q, Errs (incl W n j q) Q := fun j q => errs_bind (errs_file E n _ _ _) fun _ => errs_upd _ _
    intro s e s' h
    rw [evalFile_run] at h
    cases hf : W.fs path with
    | none => rw [hf] at h; cases h; exact E.plain _
    | some info =>
      rw [hf] at h
      dsimp only at h
      cases hn : nodeOf s path info with
      | err e' =>
        rw [hn] at h
        cases h
        rw [nodeOf] at hn
        split at hn
        · cases hn
        · rw [parseFile] at hn
          split at hn
          · cases hn; exact E.plain _
          · split at hn <;> cases hn
            · exact E.parse _ _
            · exact E.parse _ _
      | panic => rw [hn] at h; cases h
      | more => rw [hn] at h; cases h
      | ok node =>
        rw [hn] at h
        dsimp only at h
        cases hb : evalBody (evalNode W n (incl W n) node) s.heap.length (s.file parent path plugins) with
        | mk r s1 =>
          rw [hb] at h
          cases r with
          | err e' => cases h; exact errs_body (fun i r => errs_node E hi node i r) _ _ _ _ hb
          | ok _ => cases h
          | panic => cases h
          | more => cases h

theorem errs_incl (E : ErrInv W Q) (n j : Nat) (q : Str) : Errs (incl W n j q) Q :=
  errs_bind (errs_file E n _ _ _) fun _ => errs_upd _ _

end Booklit
