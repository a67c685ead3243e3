import Verif.Lemmas.SafeFile
import Verif.Lemmas.PageAbove
import Verif.Spec.Outline

/-!
Evaluation does what is written, in order.
-/

namespace Booklit

variable {W : World}

theorem Runs.append {h : Heap} {lo : Nat} {up : Bool} {file : Str} {ns ms : List Node} {f g k : Face} (a : Runs W h lo up file ns f g)
    (b : Runs W h lo up file ms g k) : Runs W h lo up file (ns ++ ms) f k := by
  induction a with
  | nil => exact b
  | str _ ih => exact .str (ih b)
  | seq h1 _ _ ih => exact .seq h1 (ih b)
  | para h1 _ _ ih => exact .para h1 (ih b)
  | pre h1 _ _ ih => exact .pre h1 (ih b)
  | inline h1 h2 h3 h4 h5 h6 _ _ ih => exact .inline h1 h2 h3 h4 h5 h6 (ih b)
  | incl h1 h2 h3 h4 h5 h6 h7 h8 h9 _ _ _ ih => exact .incl h1 h2 h3 h4 h5 h6 h7 h8 h9 (ih b)
  | use h1 h2 h3 h4 _ _ ih => exact .use h1 h2 h3 h4 (ih b)
  | styled h1 h2 h3 _ _ ih => exact .styled h1 h2 h3 (ih b)
  | title h1 h2 h3 h4 _ _ ih => exact .title h1 h2 h3 h4 (ih b)
  | single h1 _ ih => exact .single h1 (ih b)
  | splits h1 _ ih => exact .splits h1 (ih b)
  | omits h1 _ ih => exact .omits h1 (ih b)
  | part h1 h2 h3 h4 _ _ ih => exact .part h1 h2 h3 h4 (ih b)
  | other h1 h2 _ _ ih => exact .other h1 h2 (ih b)

/-- What is done depends only on the sections made. -/
theorem Runs.keep {h h' : Heap} {lo lo' : Nat} (hl : lo' ≤ lo) (hlen : h.length ≤ h'.length)
    (he : ∀ j, lo ≤ j → j < h.length → (h'.get j).path = (h.get j).path ∧ (h'.get j).loc = (h.get j).loc ∧
      (h'.get j).face = (h.get j).face)
    {up : Bool} {file : Str} {ns : List Node} {f g : Face} (a : Runs W h lo up file ns f g) : Runs W h' lo' up file ns f g := by
  induction a with
  | nil => exact .nil
  | str _ ih => exact .str ih
  | seq _ _ i1 i2 => exact .seq i1 i2
  | para _ _ i1 i2 => exact .para i1 i2
  | pre _ _ i1 i2 => exact .pre i1 i2
  | inline h1 h2 h3 h4 h5 _ _ i1 i2 =>
    obtain ⟨e1, e2, e3⟩ := he _ h2 h3
    exact .inline h1 (by omega) (by omega) (by rw [e1]; exact h4) (by rw [e2]; exact h5) (by rw [e3]; exact i1) i2
  | incl h1 _ h3 h4 h5 h6 h7 h8 _ _ i1 i2 i3 =>
    obtain ⟨e1, e2, e3⟩ := he _ h4 h5
    exact .incl h1 i1 h3 (by omega) (by omega) (by rw [e1]; exact h6) (by rw [e2]; exact h7) h8 (by rw [e3]; exact i2) i3
  | use h1 _ h3 h4 _ i1 i2 => exact .use h1 i1 h3 h4 i2
  | styled h1 _ h3 _ i1 i2 => exact .styled h1 i1 h3 i2
  | title h1 h2 _ h4 _ i1 i2 => exact .title h1 h2 i1 h4 i2
  | single h1 _ ih => exact .single h1 ih
  | splits h1 _ ih => exact .splits h1 ih
  | omits h1 _ ih => exact .omits h1 ih
  | part h1 _ h3 h4 _ i1 i2 => exact .part h1 i1 h3 h4 i2
  | other h1 _ _ i1 i2 => exact .other h1 i1 i2

/-- Evaluating in section `i` of file `p` did what the nodes say. -/
structure Did (W : World) (p : Str) (i : Nat) (ns : List Node) (s s' : St) : Prop where
  ok : Ok W.Wrote p i s'
  frame : Frame i s s'
  kept : (s'.heap.get i).path = (s.heap.get i).path ∧ (s'.heap.get i).loc = (s.heap.get i).loc
  above : PageAbove s'.heap i ↔ PageAbove s.heap i
  runs : ∀ up : Bool, (up = true ↔ PageAbove s.heap i) → Runs W s'.heap s.heap.length up p ns (s.heap.get i).face (s'.heap.get i).face

theorem Did.trans {p : Str} {i : Nat} {ns ms : List Node} {s s' s'' : St} (hs : i < s.heap.length) (a : Did W p i ns s s')
    (b : Did W p i ms s' s'') : Did W p i (ns ++ ms) s s'' := by
  refine ⟨b.ok, a.frame.trans b.frame, ⟨b.kept.1.trans a.kept.1, b.kept.2.trans a.kept.2⟩, b.above.trans a.above, fun up hup => ?_⟩
  have h1 := (a.runs up hup).keep (Nat.le_refl _) b.frame.1 fun j hj hl => by
    rw [b.frame.2 j hl (by omega)]; exact ⟨rfl, rfl, rfl⟩
  exact h1.append ((b.runs up (hup.trans a.above.symm)).keep a.frame.1 (Nat.le_refl _) fun _ _ _ => ⟨rfl, rfl, rfl⟩)

theorem Did.refl {p : Str} {i : Nat} {s : St} (o : Ok W.Wrote p i s) : Did W p i [] s s := ⟨o, .refl i s, ⟨rfl, rfl⟩, Iff.rfl, fun _ _ => .nil⟩

/-- A computation that does what the nodes say. -/
def Does (W : World) (p : Str) (i : Nat) (ns : List Node) {α : Type} (m : M α) : Prop :=
  ∀ s a s', Ok W.Wrote p i s → m s = (.ok a, s') → Did W p i ns s s'

theorem does_const {p : Str} {i : Nat} {α : Type} {m : M α} (h : ∀ s, (m s).2 = s) : Does W p i [] m := by
  intro s a s' o e
  have := h s
  rw [e] at this
  dsimp only at this
  subst this
  exact .refl o

theorem does_pure {p : Str} {i : Nat} {α : Type} (a : α) : Does W p i [] (Pure.pure a : M α) := does_const fun _ => rfl

theorem does_bind {p : Str} {i : Nat} {ns ms : List Node} {α β : Type} {m : M α} {f : α → M β} (hm : Does W p i ns m)
    (hf : ∀ a, Does W p i ms (f a)) : Does W p i (ns ++ ms) (m >>= f) := by
  intro s b s'' o e
  simp only [M.bind_run, M.bind] at e
  cases h : m s with
  | mk r s' =>
    rw [h] at e
    cases r with
    | ok a =>
      have h1 := hm s a s' o h
      exact h1.trans o.lt (hf a s' b s'' h1.ok e)
    | err _ => cases e
    | panic => cases e
    | more => cases e

/-- Evaluation of a node. -/
def EvDoes (W : World) (ns : List Node) (ev : Ev) : Prop := ∀ p i r, Does W p i ns (ev i r)

/-! ### Literal arguments -/

mutual
theorem literal_lit {k : Nat} {inc : Inc} : ∀ (n : Node) {x y : Str} {i : Nat} {r a : Content} {s s' : St}, n.literal = some x →
    evalNode W k inc n i r s = (.ok a, s') → Lit r y → Lit a (y ++ x)
  | .str t, x, y, i, r, a, s, s', hx, e, hr => by
    rw [Node.literal] at hx
    cases hx
    rw [evalNode] at e
    cases e
    exact hr.append t
  | .seq ns, x, y, i, r, a, s, s', hx, e, hr => by
    rw [Node.literal] at hx
    rw [evalNode] at e
    exact literal_litL ns hx e hr
  | .para _, x, y, i, r, a, s, s', hx, e, hr => by rw [Node.literal] at hx <;> first | cases hx | simp
  | .pre _, x, y, i, r, a, s, s', hx, e, hr => by rw [Node.literal] at hx <;> first | cases hx | simp
  | .invoke _ _ _, x, y, i, r, a, s, s', hx, e, hr => by rw [Node.literal] at hx <;> first | cases hx | simp
theorem literal_litL {k : Nat} {inc : Inc} : ∀ (ns : List Node) {x y : Str} {i : Nat} {r a : Content} {s s' : St},
    literalAll ns = some x → evalSeq W k inc ns i r s = (.ok a, s') → Lit r y → Lit a (y ++ x)
  | [], x, y, i, r, a, s, s', hx, e, hr => by
    rw [literalAll] at hx
    cases hx
    rw [evalSeq] at e
    cases e
    simpa using hr
  | n :: ns, x, y, i, r, a, s, s', hx, e, hr => by
    rw [literalAll] at hx
    cases h1 : n.literal with
    | none => simp [h1] at hx
    | some u =>
      cases h2 : literalAll ns with
      | none => simp [h1, h2] at hx
      | some v =>
        simp only [h1, h2, Option.some.injEq] at hx
        subst hx
        rw [evalSeq] at e
        simp only [M.bind_run, M.bind] at e
        cases h : evalNode W k inc n i r s with
        | mk q s1 =>
          rw [h] at e
          cases q with
          | ok b =>
            have := literal_litL ns h2 e (literal_lit n h1 h hr)
            rwa [List.append_assoc] at this
          | err _ => cases e
          | panic => cases e
          | more => cases e
end

theorem Lit.texts {c : Content} {t : Str} (h : Lit c t) : (c.texts true).flatten = t := by
  rcases h with ⟨rfl, rfl⟩ | rfl | ⟨ss, rfl, rfl⟩
  · rfl
  · simp [Content.texts]
  · rw [Content.texts]
    induction ss with
    | nil => rfl
    | cons s ss ih => simp [textsL, Content.texts, ih]

/-! ### Arguments -/

/-- What is known of a converted argument. -/
structure ValOk (W : World) (n : Node) (v : ArgV) : Prop where
  str : ∀ t, v = .str t → n.gives t
  content : ∀ c, v = .content c → n.gives (c.texts true).flatten
  node : ∀ m ev, v = .node m ev → EvDoes W [n] ev

inductive ValsOk (W : World) : List Node → List ArgV → Prop
  | nil : ValsOk W [] []
  | cons {n : Node} {v : ArgV} {ns : List Node} {vs : List ArgV} : ValOk W n v → ValsOk W ns vs → ValsOk W (n :: ns) (v :: vs)

theorem convert_does {k i : Nat} {inc : Inc} {p : Str} {n : Node} (t : Ty) (h : EvDoes W [n] (evalNode W k inc n)) {s s' : St} {v : ArgV}
    (o : Ok W.Wrote p i s) (e : convert W k i t (n, evalNode W k inc n) s = (.ok v, s')) :
    ValOk W n v ∧ (t ≠ .node → Did W p i [n] s s') ∧ (t = .node → s' = s) := by
  cases t with
  | string =>
    rw [convert] at e
    simp only [M.bind_run, M.bind] at e
    cases hx : evalNode W k inc n i .nil s with
    | mk q s1 =>
      rw [hx] at e
      cases q with
      | ok c =>
        simp only [M.get, M.lift] at e
        cases ht : s1.heap.text W.brokenOk k c with
        | ok t =>
          rw [ht] at e
          cases e
          refine ⟨⟨?_, (by intro _ h; cases h), (by intro _ _ h; cases h)⟩, fun _ => h p i _ s c _ o hx, (by intro h; cases h)⟩
          intro u hu x hl
          cases hu
          have := literal_lit n hl hx (y := []) (.inl ⟨rfl, rfl⟩)
          exact this.text ht
        | err _ => rw [ht] at e; cases e
        | panic => rw [ht] at e; cases e
        | more => rw [ht] at e; cases e
      | err _ => cases e
      | panic => cases e
      | more => cases e
  | content =>
    rw [convert] at e
    simp only [M.bind_run, M.bind] at e
    cases hx : evalNode W k inc n i .nil s with
    | mk q s1 =>
      rw [hx] at e
      cases q with
      | ok c =>
        simp only [M.pure_run] at e
        injection e with e1 e2
        injection e1 with e1
        subst e1 e2
        refine ⟨⟨?_, ?_, ?_⟩, fun _ => h p i _ s c _ o hx, (by intro h; cases h)⟩
        · intro t ht; split at ht <;> cases ht
        · intro d hd x hl
          split at hd
          · cases hd
          · cases hd
            exact (literal_lit n hl hx (y := []) (.inl ⟨rfl, rfl⟩)).texts
        · intro _ _ hd; split at hd <;> cases hd
      | err _ => cases e
      | panic => cases e
      | more => cases e
  | node =>
    rw [convert, M.pure_run] at e
    cases e
    exact ⟨⟨(by intro _ h; cases h), (by intro _ h; cases h), fun m ev hm => by cases hm; exact h⟩, fun h => absurd rfl h, fun _ => rfl⟩
  | other => rw [convert] at e; cases e

theorem convertAll_does {k i : Nat} {inc : Inc} {p : Str} (v : Option Ty) (hv : v ≠ some .node) : ∀ (ns : List Node) (ts : List Ty)
    {s s' : St} {vs : List ArgV}, (∀ n ∈ ns, EvDoes W [n] (evalNode W k inc n)) → Ty.node ∉ ts →
    arityOk (ts, v) ns.length = true → Ok W.Wrote p i s →
    convertAll W k i ts v (evalArgs W k inc ns) s = (.ok vs, s') → ValsOk W ns vs ∧ Did W p i ns s s'
  | [], ts, s, s', vs, _, _, _, o, e => by
    have : convertAll W k i ts v (evalArgs W k inc []) s = (.ok [], s) := by cases ts <;> cases v <;> rfl
    rw [this] at e
    cases e
    exact ⟨.nil, .refl o⟩
  | n :: ns, ts, s, s', vs, h, ht, ha, o, e => by
    have step : ∀ t ts', t ≠ Ty.node → Ty.node ∉ ts' → arityOk (ts', v) ns.length = true →
        (convert W k i t (n, evalNode W k inc n) >>= fun x => convertAll W k i ts' v (evalArgs W k inc ns) >>= fun xs =>
          (Pure.pure (x :: xs) : M _)) s = (.ok vs, s') → ValsOk W (n :: ns) vs ∧ Did W p i (n :: ns) s s' := by
      intro t ts' htn hts ha e
      simp only [M.bind_run, M.bind] at e
      cases h1 : convert W k i t (n, evalNode W k inc n) s with
      | mk q s1 =>
        rw [h1] at e
        cases q with
        | ok y =>
          dsimp only at e
          obtain ⟨hy, hd, _⟩ := convert_does t (h n (by simp)) o h1
          have hd := hd htn
          cases h2 : convertAll W k i ts' v (evalArgs W k inc ns) s1 with
          | mk q s2 =>
            rw [h2] at e
            cases q with
            | ok ys =>
              cases e
              obtain ⟨hys, hd2⟩ := convertAll_does v hv ns ts' (fun m hm => h m (by simp [hm])) hts ha hd.ok h2
              exact ⟨.cons hy hys, hd.trans o.lt hd2⟩
            | err _ => cases e
            | panic => cases e
            | more => cases e
        | err _ => cases e
        | panic => cases e
        | more => cases e
    cases ts with
    | cons t ts =>
      have he : arityOk (ts, v) ns.length = true := by
        simp only [arityOk, List.length_cons] at ha ⊢
        cases v <;> simpa using ha
      cases v <;> exact step t ts (fun h => ht (by simp [h])) (fun h => ht (by simp [h])) he e
    | nil =>
      cases v with
      | none => simp [arityOk] at ha
      | some t => exact step t [] (fun h => hv (by rw [h])) (by simp) (by simp [arityOk]) e

/-! ### Calls -/

theorem Heap.upd_upd (h : Heap) (i : Nat) (f g : Sec → Sec) : (h.upd i f).upd i g = h.upd i fun x => g (f x) := by
  simp only [Heap.upd, List.modify_modify_eq]
  rfl

theorem Ok.later {p : Str} {i : Nat} {s s' : St} (o : Ok W.Wrote p i s) (hl : s.heap.length ≤ s'.heap.length)
    (hs : Sound s'.heap) (hc : CacheOk W s') (he : ∀ j, j < s.heap.length → (s'.heap.get j).path = (s.heap.get j).path ∧
      (s'.heap.get j).parent = (s.heap.get j).parent) : Ok W.Wrote p i s' :=
  ⟨Nat.lt_of_lt_of_le o.lt hl, hs, hc, o.file.keep o.sound he o.lt⟩

theorem pageAbove_upd {h : Heap} (hs : Sound h) {i : Nat} (hi : i < h.length) (f : Sec → Sec) (hf : ∀ x, (f x).parent = x.parent) :
    PageAbove (h.upd i f) i ↔ PageAbove h i :=
  pageAbove_same hs hi (by rw [Heap.get_upd_eq _ _ hi, hf]) fun _ hj => Heap.get_upd_ne _ _ (by omega)

/-- Changing the section. -/
theorem Did.upd {p : Str} {i : Nat} {ns ms : List Node} {s s' : St} (hs : i < s.heap.length) (a : Did W p i ns s s') (f : Sec → Sec)
    (hf : ∀ x, (f x).parent = x.parent ∧ (f x).path = x.path ∧ (x.plugins.head? = some 0 → (f x).plugins.head? = some 0))
    (hloc : ∀ x, (f x).loc = x.loc)
    (hr : ∀ {h : Heap} {lo : Nat} {up : Bool} {x : Face}, (up = true ↔ PageAbove s'.heap i) →
      Runs W h lo up p ns x (s'.heap.get i).face → Runs W h lo up p ms x (f (s'.heap.get i)).face) :
    Did W p i ms s { s' with heap := s'.heap.upd i f } := by
  refine ⟨a.ok.upd f hf, a.frame.trans (.upd i s' f), ?_, (pageAbove_upd a.ok.sound a.ok.lt f fun x => (hf x).1).trans a.above,
    fun up hup => ?_⟩
  · rw [Heap.get_upd_eq _ _ a.ok.lt, (hf _).2.1, hloc]
    exact a.kept
  dsimp only
  rw [Heap.get_upd_eq _ _ a.ok.lt]
  refine (hr (hup.trans a.above.symm) (a.runs up hup)).keep (Nat.le_refl _) (by rw [Heap.length_upd]; exact Nat.le_refl _) fun j hj _ => ?_
  rw [Heap.get_upd_ne _ _ (by omega)]
  exact ⟨rfl, rfl, rfl⟩

theorem Sec.parts_setPartial (x : Sec) (t : Str) (c : Content) :
    (x.setPartial t c).partialOf = fun y => if y = t then c else x.partialOf y := by
  funext name
  by_cases e : t = name
  · subst e
    simp [Sec.partialOf, Sec.setPartial]
  · have hl : (List.lookup name (x.setPartial t c).partials) = List.lookup name x.partials := by
      simp only [Sec.setPartial, List.lookup_cons, show (name == t) = false by simpa using fun h => e h.symm]
      generalize x.partials = ps
      induction ps with
      | nil => rfl
      | cons p ps ih =>
        by_cases ep : p.1 = t
        · rw [List.filter_cons_of_neg (by simp [ep]), ih, List.lookup_cons,
            show (name == p.1) = false by rw [ep]; simpa using fun h => e h.symm]
        · rw [List.filter_cons_of_pos (by simp [ep]), List.lookup_cons, List.lookup_cons, ih]
    have e' : ¬ name = t := fun h => e h.symm
    simp only [Sec.partialOf, hl, if_neg e']

/-- What is known of the callback for included files. -/
def IncDoes (W : World) (inc : Inc) : Prop :=
  ∀ p i q s u s', Ok W.Wrote p i s → q ≠ [] → inc i q s = (.ok u, s') → Ok W.Wrote p i s' ∧ Frame i s s' ∧
    ((s'.heap.get i).path = (s.heap.get i).path ∧ (s'.heap.get i).loc = (s.heap.get i).loc) ∧
    (PageAbove s'.heap i ↔ PageAbove s.heap i) ∧
    ∃ c n, s.heap.length ≤ c ∧ c < s'.heap.length ∧ W.Wrote q n ∧ (s'.heap.get c).path = q ∧
      (s'.heap.get c).loc = Location.zero ∧
      (∀ up : Bool, (up = true ↔ OnSinglePage s.heap i) →
        Runs W s'.heap s.heap.length up q [n] (Face.start [0]) (s'.heap.get c).face) ∧
      (s'.heap.get i).face = { (s.heap.get i).face with children := (s.heap.get i).children ++ [c] }

/-- A result that is not an error. -/
def Ret.fine : Ret → Prop
  | .error (some _) => False
  | .both _ (some _) => False
  | .other => False
  | _ => True

theorem attempt_fine {α : Type} {m : M α} {s s' : St} {ret : Ret} (hf : ret.fine)
    (e : (M.attempt m >>= fun e => (Pure.pure (Ret.error e) : M Ret)) s = (.ok ret, s')) : ∃ a, m s = (.ok a, s') := by
  simp only [M.bind_run, M.bind, M.attempt] at e
  cases h : m s with
  | mk q s1 =>
    rw [h] at e
    cases q with
    | ok a => cases e; exact ⟨a, rfl⟩
    | err _ => cases e; exact hf.elim
    | panic => cases e
    | more => cases e

/-- The name a base method goes by. -/
theorem lookup_mem {name : Str} {b : Base} (h : baseMethods.lookup name = some b) : (name, b) ∈ baseMethods := by
  revert h
  generalize baseMethods = l
  induction l with
  | nil => intro h; cases h
  | cons x l ih =>
    obtain ⟨a, c⟩ := x
    intro h
    rw [List.lookup_cons] at h
    split at h
    · next e => cases h; rw [beq_iff_eq] at e; subst e; exact List.mem_cons_self
    · exact List.mem_cons_of_mem _ (ih h)

theorem inline_does {p : Str} {i : Nat} {n : Node} {fn : Str} {loc : Location} {ev : Ev} (hn : methodName fn = q%"Section")
    (h : EvDoes W [n] ev) {s s' : St} {u : Unit} (o : Ok W.Wrote p i s) (hl : (s.heap.get i).invokeLoc = loc)
    (e : evalInline i ev s = (.ok u, s')) : Did W p i [.invoke fn [n] loc] s s' := by
  have hi := o.lt
  have hold : ∀ j, j < s.heap.length → Heap.get (s.inline i).heap j = s.heap.get j := fun j hj => Heap.get_append_lt _ _ hj
  have e0 : Heap.get (s.inline i).heap s.heap.length = { Sec.fresh (some i) [] with plugins := (s.heap.get i).plugins } :=
    Heap.get_append_eq _ _
  have hlen : (s.inline i).heap.length = s.heap.length + 1 := by simp [St.inline]
  have hnew : Ok W.Wrote p s.heap.length (s.inline i) := by
    refine ⟨by simp [St.inline], ?_, o.cache, ?_⟩
    · refine o.sound.add _ (fun p hp => ?_) (o.sound i o.lt).2
      cases hp
      exact o.lt
    · refine .up (j := i) (by rw [e0]; rfl) (by rw [e0]; rfl) ?_
      exact o.file.keep o.sound (fun j hj => by rw [hold j hj]; exact ⟨rfl, rfl⟩) o.lt
  rw [evalInline_run, evalBody_run] at e
  cases hx : ev s.heap.length .nil (s.inline i) with
  | mk q s1 =>
    rw [hx] at e
    cases q with
    | err _ => cases e
    | panic => cases e
    | more => cases e
    | ok r =>
      dsimp only at e
      injection e with _ e
      subst e
      have hd := h p _ _ _ _ _ hnew hx
      -- the body of the new section
      have hb : Did W p s.heap.length [n] (s.inline i) (setBody r s1 s.heap.length) := by
        rw [setBody]
        split
        · exact hd
        · exact hd.upd (by simp [St.inline]) _ (fun x => ⟨rfl, rfl, id⟩) (fun _ => rfl) fun _ hr => hr
      generalize setBody r s1 s.heap.length = s2 at hb
      have hfr := hb.frame
      have hl2 : s.heap.length < s2.heap.length := by have := hfr.1; omega
      have hi2 : s2.heap.get i = s.heap.get i := by rw [hfr.2 i (by omega) (by omega), hold i hi]
      have hgc : ∀ j, j ≠ i → j ≠ s.heap.length → (s2.linkInline i s.heap.length).heap.get j = s2.heap.get j := by
        intro j h1 h2
        simp only [St.linkInline]
        rw [Heap.get_upd_ne _ _ h1, Heap.get_upd_ne _ _ h2]
      have hc : (s2.linkInline i s.heap.length).heap.get s.heap.length = { s2.heap.get s.heap.length with loc := loc } := by
        simp only [St.linkInline]
        rw [Heap.get_upd_ne _ _ (by omega), Heap.get_upd_eq _ _ hl2, hi2, hl]
      have hii : (s2.linkInline i s.heap.length).heap.get i =
          { s.heap.get i with children := (s.heap.get i).children ++ [s.heap.length] } := by
        simp only [St.linkInline]
        rw [Heap.get_upd_eq _ _ (by rw [Heap.length_upd]; omega), Heap.get_upd_ne _ _ (by omega), hi2]
      have hll : (s2.linkInline i s.heap.length).heap.length = s2.heap.length := by
        simp [St.linkInline, Heap.length_upd]
      have hok : Ok W.Wrote p i (s2.linkInline i s.heap.length) := by
        have h1 : Ok W.Wrote p i s2 := o.later (by omega) hb.ok.sound hb.ok.cache fun j hj => by
          rw [hfr.2 j (by omega) (by omega), hold j hj]; exact ⟨rfl, rfl⟩
        have h2 := h1.upd (j := s.heap.length) (fun x => { x with loc := (s2.heap.get i).invokeLoc }) fun x => ⟨rfl, rfl, id⟩
        exact h2.upd (j := i) (fun x => { x with children := x.children ++ [s.heap.length] }) fun x => ⟨rfl, rfl, id⟩
      refine ⟨hok, ⟨by omega, fun j hj hne => ?_⟩, by rw [hii]; exact ⟨rfl, rfl⟩,
        pageAbove_same o.sound o.lt (by rw [hii]) (fun j hj => ?_), fun up hup => ?_⟩
      · rw [hgc j hne (by omega), hfr.2 j (by omega) (by omega), hold j hj]
      · rw [hgc j (by omega) (by omega), hfr.2 j (by omega) (by omega), hold j (by omega)]
      · rw [hii]
        have hpath : (s2.heap.get s.heap.length).path = [] := by
          rw [hb.kept.1, e0]
          rfl
        refine .inline hn (c := s.heap.length) (Nat.le_refl _) (by omega) (by rw [hc]; exact hpath) (by rw [hc]) ?_ .nil
        rw [hc]
        have := hb.runs (up || (s.heap.get i).face.single) (by
          rw [PageAbove, e0, Bool.or_eq_true, hup]
          constructor
          · intro h1
            exact ⟨i, rfl, (onSinglePage_same o.sound (Nat.le_refl _) hold i hi).2 (onSinglePage_iff.2 h1.symm)⟩
          · rintro ⟨q, hq, h1⟩
            cases hq
            exact (onSinglePage_iff.1 ((onSinglePage_same o.sound (Nat.le_refl _) hold i hi).1 h1)).symm)
        rw [e0] at this
        refine Runs.keep (by omega) (by omega) (fun j hj _ => ?_) this
        rw [hgc j (by omega) (by omega)]
        exact ⟨rfl, rfl, rfl⟩

/-- A call that does nothing itself. -/
theorem Did.quiet {p : Str} {i : Nat} {fn : Str} {nodes : List Node} {loc : Location} {s s' : St} (hn : methodName fn ∉ actions)
    (a : Did W p i nodes s s') : Did W p i [.invoke fn nodes loc] s s' :=
  ⟨a.ok, a.frame, a.kept, a.above, fun up hup => .other hn (a.runs up hup) .nil⟩

theorem not_action {name : Str} {b : Base} (h : baseMethods.lookup name = some b)
    (hb : b ≠ .section ∧ b ≠ .includeSection ∧ b ≠ .usePlugin ∧ b ≠ .styled ∧ b ≠ .title ∧ b ≠ .singlePage ∧
      b ≠ .splitSections ∧ b ≠ .omitChildren ∧ b ≠ .setPartial) : name ∉ actions := by
  obtain ⟨h1, h2, h3, h4, h5, h6, h7, h8, h9⟩ := hb
  intro hm
  simp only [actions, List.mem_cons, List.not_mem_nil, or_false] at hm
  rcases hm with rfl | rfl | rfl | rfl | rfl | rfl | rfl | rfl | rfl
  · exact h1 (Option.some.inj (h.symm.trans rfl))
  · exact h2 (Option.some.inj (h.symm.trans rfl))
  · exact h3 (Option.some.inj (h.symm.trans rfl))
  · exact h4 (Option.some.inj (h.symm.trans rfl))
  · exact h5 (Option.some.inj (h.symm.trans rfl))
  · exact h6 (Option.some.inj (h.symm.trans rfl))
  · exact h7 (Option.some.inj (h.symm.trans rfl))
  · exact h8 (Option.some.inj (h.symm.trans rfl))
  · exact h9 (Option.some.inj (h.symm.trans rfl))

theorem base_does {k i : Nat} {inc : Inc} (hinc : IncDoes W inc) {p fn : Str} {loc : Location} {b : Base} {nodes : List Node}
    {vals : List ArgV} {s s1 s2 : St} {ret : Ret} (hname : baseMethods.lookup (methodName fn) = some b) (hs : i < s.heap.length)
    (a : Did W p i nodes s s1) (hv : ValsOk W nodes vals)
    (hloc : (∀ n ∈ nodes, n.callFree = true) → (s1.heap.get i).invokeLoc = loc) (hb : b ≠ .section)
    (e : callBase W k inc i b vals s1 = (.ok ret, s2)) (hf : ret.fine) : Did W p i [.invoke fn nodes loc] s s2 := by
  have hmem := lookup_mem hname
  unfold callBase at e
  split at e
  · -- use-plugin
    next name =>
    obtain _ | ⟨h1, h2⟩ := hv
    cases h2
    have hn : methodName fn = q%"UsePlugin" := by simpa [baseMethods] using hmem
    cases hr : W.registry name with
    | none => rw [hr] at e; cases e; exact hf.elim
    | some q =>
      rw [hr] at e
      cases e
      refine a.upd hs _ (fun x => ⟨rfl, rfl, ?_⟩) (fun _ => rfl) fun _ hr' => .use hn hr' (h1.str _ rfl) hr .nil
      intro h0
      simp only [Sec.usePlugin]
      cases hx : x.plugins with
      | nil => rw [hx] at h0; cases h0
      | cons y ys => rw [hx] at h0; exact h0
  · -- styled
    next name =>
    obtain _ | ⟨h1, h2⟩ := hv
    cases h2
    have hn : methodName fn = q%"Styled" := by simpa [baseMethods] using hmem
    cases e
    exact a.upd hs _ (fun x => ⟨rfl, rfl, id⟩) (fun _ => rfl) fun _ hr' => .styled hn hr' (h1.str _ rfl) .nil
  · -- title
    next title tags =>
    have hn : methodName fn = q%"Title" := by simpa [baseMethods] using hmem
    simp only [M.bind_run, M.bind, M.get] at e
    split at e
    · simp only [M.bind_run, M.bind] at e
      have e1 := titleNames_state (W := W) (k := k) title (strArgs tags) s1
      cases hm : titleNames W k title (strArgs tags) s1 with
      | mk r s' =>
        rw [hm] at e1 e
        dsimp only at e1
        subst e1
        cases r with
        | ok names =>
          cases e
          refine a.upd hs _ (fun x => ⟨rfl, rfl, id⟩) (fun _ => rfl) fun _ hr' => .title hn ?_ hr' hloc .nil
          intro h0; rw [h0] at hv; cases hv
        | err _ => cases e
        | panic => cases e
        | more => cases e
    · simp only [M.bind_run, M.bind, filePathM] at e
      revert e
      cases (Res.ofFuel (s1.heap.filePath (s1.heap.length + 1) i)) with
      | ok q => intro e; cases e; exact hf.elim
      | err _ => intro e; cases e
      | panic => intro e; cases e
      | more => intro e; cases e
  · cases e; exact a.quiet (not_action hname (by simp))
  · exact absurd rfl hb
  · -- include
    next path =>
    obtain _ | ⟨h1, h2⟩ := hv
    cases h2
    have hn : methodName fn = q%"IncludeSection" := by simpa [baseMethods] using hmem
    simp only [M.bind_run, M.bind, filePathM, a.ok.filePath, Res.ofFuel] at e
    obtain ⟨u, hu⟩ := attempt_fine hf e
    obtain ⟨ho, hfr, hgi, hab, c, n, hc, hc', hw, hp, hl, hr, hface⟩ := hinc _ _ _ _ _ _ a.ok (joinPath_ne _ _) hu
    refine ⟨ho, a.frame.trans hfr, ⟨hgi.1.trans a.kept.1, hgi.2.trans a.kept.2⟩, hab.trans a.above, fun up hup => ?_⟩
    rw [hface]
    have hlt := a.frame.1
    refine .incl hn ?_ (h1.str _ rfl) (by omega) hc' hp hl hw ?_ .nil
    · exact (a.runs up hup).keep (Nat.le_refl _) hfr.1 fun j hj hl => by
        rw [hfr.2 j hl (by omega)]; exact ⟨rfl, rfl, rfl⟩
    · refine (hr _ ?_).keep hlt (Nat.le_refl _) fun _ _ _ => ⟨rfl, rfl, rfl⟩
      rw [Bool.or_eq_true, hup.trans a.above.symm, onSinglePage_iff]
      exact Or.comm
  · -- single-page
    cases hv
    have hn : methodName fn = q%"SinglePage" := by simpa [baseMethods] using hmem
    cases e
    exact a.upd hs _ (fun x => ⟨rfl, rfl, id⟩) (fun _ => rfl) fun _ hr' => hr'.append (.single hn .nil)
  · -- split-sections
    cases hv
    have hn : methodName fn = q%"SplitSections" := by simpa [baseMethods] using hmem
    obtain ⟨on, off⟩ := splitPrevented_on (a.ok.upd (j := i) (fun x => { x with resetDepth := true }) fun x => ⟨rfl, rfl, id⟩).sound
      i ((s1.heap.upd i fun x => { x with resetDepth := true }).length + 1) (by rw [Heap.length_upd]; exact a.ok.lt)
      (by rw [Heap.length_upd]; have := a.ok.lt; omega)
    dsimp only at on off
    rw [onSinglePage_reset] at on off
    simp only [M.bind_run, M.bind, M.upd, M.get, M.lift] at e
    have key : ∀ {up : Bool}, (up = true ↔ PageAbove s1.heap i) →
        ((up || (s1.heap.get i).face.single) = true ↔ OnSinglePage s1.heap i) := by
      intro up hup
      rw [Bool.or_eq_true, hup, onSinglePage_iff]
      exact Or.comm
    by_cases hon : OnSinglePage s1.heap i
    · rw [on hon] at e
      cases e
      refine a.upd hs _ (fun x => ⟨rfl, rfl, id⟩) (fun _ => rfl) fun hup hr' => hr'.append ?_
      refine .splits hn ?_
      rw [(key hup).2 hon, Bool.not_true, Bool.or_false]
      exact .nil
    · rw [off hon] at e
      cases e
      rw [Heap.upd_upd]
      refine a.upd hs _ (fun x => ⟨rfl, rfl, id⟩) (fun _ => rfl) fun hup hr' => hr'.append ?_
      refine .splits hn ?_
      rw [Bool.eq_false_iff.2 fun h => hon ((key hup).1 h), Bool.not_false, Bool.or_true]
      exact .nil
  · -- omit-children
    cases hv
    have hn : methodName fn = q%"OmitChildrenFromTableOfContents" := by simpa [baseMethods] using hmem
    cases e
    exact a.upd hs _ (fun x => ⟨rfl, rfl, id⟩) (fun _ => rfl) fun _ hr' => hr'.append (.omits hn .nil)
  · cases e; exact a.quiet (not_action hname (by simp))
  · cases e; exact a.quiet (not_action hname (by simp))
  · cases e; exact a.quiet (not_action hname (by simp))
  · cases e; exact a.quiet (not_action hname (by simp))
  · cases e; exact a.quiet (not_action hname (by simp))
  · cases e; exact a.quiet (not_action hname (by simp))
  · cases e; exact a.quiet (not_action hname (by simp))
  · cases e; exact a.quiet (not_action hname (by simp))
  · -- set-partial
    next name c =>
    obtain _ | ⟨h1, h2⟩ := hv
    obtain _ | ⟨h2, h3⟩ := h2
    cases h3
    have hn : methodName fn = q%"SetPartial" := by simpa [baseMethods] using hmem
    cases e
    refine a.upd hs _ (fun x => ⟨rfl, rfl, id⟩) (fun _ => rfl) fun _ hr' => ?_
    have := Runs.part (W := W) (loc := loc) hn hr' (h1.str _ rfl) (h2.content _ rfl) .nil
    have e2 : ((s1.heap.get i).setPartial name c).face = { (s1.heap.get i).face with
        parts := fun x => if x = name then c else (s1.heap.get i).face.parts x } := by
      simp only [Sec.face, Sec.parts_setPartial]
      rfl
    rw [e2]
    exact this
  · next cs =>
    revert e
    cases tableRows (contentArgs vals) with
    | some _ => intro e; cases e; exact a.quiet (not_action hname (by simp))
    | none => intro e; cases e; exact hf.elim
  · cases e; exact a.quiet (not_action hname (by simp))
  · next cs =>
    revert e
    cases definitionItems (contentArgs vals) with
    | some _ => intro e; cases e; exact a.quiet (not_action hname (by simp))
    | none => intro e; cases e; exact hf.elim
  · cases e; exact a.quiet (not_action hname (by simp))
  · cases e

theorem finish_fine {fn path : Str} {loc : Location} {r a : Content} {ret : Ret} {s s' : St}
    (e : finish fn path loc r ret s = (.ok a, s')) : ret.fine ∧ s' = s := by
  revert e
  cases ret with
  | nothing => intro e; cases e; exact ⟨trivial, rfl⟩
  | error x => cases x <;> intro e <;> cases e; exact ⟨trivial, rfl⟩
  | content c => rw [finish]; split <;> intro e <;> cases e; exact ⟨trivial, rfl⟩
  | both c x =>
    cases x with
    | none => rw [finish]; split <;> intro e <;> cases e; exact ⟨trivial, rfl⟩
    | some _ => intro e; cases e
  | other => intro e; cases e

/-- A base method is found by its name only. -/
theorem findMethod_base_name {name : Str} {b : Base} : ∀ {ps : List Nat}, findMethod W name ps = some (.base b) →
    baseMethods.lookup name = some b
  | [], h => by cases h
  | p :: ps, h => by
    rw [findMethod] at h
    cases p with
    | zero =>
      simp only [methodOf] at h
      cases hl : baseMethods.lookup name with
      | none => rw [hl] at h; exact absurd (findMethod_base_name h) (by rw [hl]; simp)
      | some c => rw [hl] at h; cases h; rfl
    | succ p =>
      simp only [methodOf] at h
      cases hl : W.foreign (p + 1) name with
      | none => rw [hl] at h; exact findMethod_base_name h
      | some c => rw [hl] at h; cases h

theorem findMethod_foreign {name : Str} {f : Foreign} : ∀ {ps : List Nat}, findMethod W name ps = some (.foreign f) →
    ∃ p, W.foreign p name = some f
  | [], h => by cases h
  | p :: ps, h => by
    rw [findMethod] at h
    cases p with
    | zero =>
      simp only [methodOf] at h
      cases hl : baseMethods.lookup name with
      | none => rw [hl] at h; exact findMethod_foreign h
      | some c => rw [hl] at h; cases h
    | succ p =>
      simp only [methodOf] at h
      cases hl : W.foreign (p + 1) name with
      | none => rw [hl] at h; exact findMethod_foreign h
      | some c => rw [hl] at h; cases h; exact ⟨_, hl⟩

theorem actions_base {name : Str} (h : name ∈ actions) : ∃ b, baseMethods.lookup name = some b := by
  simp only [actions, List.mem_cons, List.not_mem_nil, or_false] at h
  rcases h with rfl | rfl | rfl | rfl | rfl | rfl | rfl | rfl | rfl <;> exact ⟨_, rfl⟩

theorem Base.sig_node {b : Base} (h : b ≠ .section) : Ty.node ∉ b.sig.1 ∧ b.sig.2 ≠ some .node := by
  cases b <;> first | exact absurd rfl h | (simp [Base.sig])

theorem invoke_does (hW : W.noNodes) {k : Nat} {inc : Inc} (hinc : IncDoes W inc) {fn : Str} {args : List Node} {loc : Location}
    (h : ∀ n ∈ args, EvDoes W [n] (evalNode W k inc n)) : EvDoes W [.invoke fn args loc] (evalNode W k inc (.invoke fn args loc)) := by
  intro p i r s a s' o e
  rw [invoke_run, o.filePath] at e
  have oc : Ok W.Wrote p i (s.calling i loc) := o.upd _ fun x => ⟨rfl, rfl, id⟩
  have hcall : Did W p i [] s (s.calling i loc) :=
    (Did.refl o).upd o.lt _ (fun x => ⟨rfl, rfl, id⟩) (fun _ => rfl) fun _ hr => hr
  have hil : ((s.calling i loc).heap.get i).invokeLoc = loc := by
    simp only [St.calling]; rw [Heap.get_upd_eq _ _ o.lt]
  have hi : i < (s.calling i loc).heap.length := oc.lt
  have h0 := (o.sound i o.lt).2
  dsimp only at e
  cases hm : findMethod W (methodName fn) (s.heap.get i).plugins with
  | none => rw [hm] at e; cases e
  | some m =>
    rw [hm] at e
    dsimp only at e
    split at e
    rotate_left
    · cases e
    next har =>
    -- the arguments, the call, the end
    simp only [M.bind_run, M.bind] at e
    cases h1 : convertAll W k i m.sig.1 m.sig.2 (evalArgs W k inc args) (s.calling i loc) with
    | mk q s1 =>
      rw [h1] at e
      cases q with
      | err _ => cases e
      | panic => cases e
      | more => cases e
      | ok vals =>
        dsimp only at e
        cases h2 : callMethod W k inc i m vals s1 with
        | mk q s2 =>
          rw [h2] at e
          cases q with
          | err _ => cases e
          | panic => cases e
          | more => cases e
          | ok ret =>
            dsimp only at e
            obtain ⟨hf, rfl⟩ := finish_fine e
            unfold callMethod at h2
            split at h2
            · cases h2
            have hloc1 : (∀ n ∈ args, n.callFree = true) → (s1.heap.get i).invokeLoc = loc := by
              intro hc
              have := convertAll_state (W := W) (k := k) (i := i) m.sig.2 _ m.sig.1 (s.calling i loc)
                (evalArgs_callFree (W := W) (k := k) (inc := inc) args hc)
              rw [h1] at this
              dsimp only at this
              rw [this]
              exact hil
            refine hcall.trans (ns := []) o.lt ?_
            cases m with
            | base b =>
              dsimp only at h2
              by_cases hb : b = .section
              · subst hb
                have hn : methodName fn = q%"Section" := by simpa [baseMethods] using lookup_mem (findMethod_base_name hm)
                have hlen : args.length = 1 := by
                  have h3 : (1 == args.length) = true := har
                  exact (beq_iff_eq.1 h3).symm
                obtain ⟨n, rfl⟩ : ∃ n, args = [n] := by
                  match args, hlen with
                  | [n], _ => exact ⟨n, rfl⟩
                simp only [Method.sig, Base.sig, evalArgs, convertAll, convert, M.bind_run, M.bind, M.pure_run] at h1
                cases h1
                rw [callBase] at h2
                obtain ⟨u, hu⟩ := attempt_fine hf h2
                exact inline_does hn (h n (by simp)) oc hil hu
              · obtain ⟨ht, hv⟩ := Base.sig_node hb
                obtain ⟨hvals, hd⟩ := convertAll_does (p := p) _ hv args _ h ht har oc h1
                exact base_does hinc (findMethod_base_name hm) hi hd hvals hloc1 hb h2 hf
            | foreign f =>
              cases h2
              obtain ⟨pl, hpl⟩ := findMethod_foreign hm
              obtain ⟨ht, hv⟩ := hW pl _ f hpl
              obtain ⟨hvals, hd⟩ := convertAll_does (p := p) _ hv args _ h ht har oc h1
              refine hd.quiet fun hact => ?_
              obtain ⟨b, hb⟩ := actions_base hact
              rw [findMethod_head hb h0] at hm
              cases hm

mutual
theorem node_does (hW : W.noNodes) {k : Nat} {inc : Inc} (hinc : IncDoes W inc) : ∀ (n : Node), EvDoes W [n] (evalNode W k inc n)
  | .str t => by
    rw [evalNode]
    intro p i r s a s' o e
    cases e
    exact ⟨o, .refl i s, ⟨rfl, rfl⟩, Iff.rfl, fun _ _ => .str .nil⟩
  | .seq ns => by
    rw [evalNode]
    intro p i r s a s' o e
    have := seq_does hW hinc ns p i r s a s' o e
    exact ⟨this.ok, this.frame, this.kept, this.above, fun up hup => .seq (this.runs up hup) .nil⟩
  | .para ls => by
    rw [evalNode]
    intro p i r s a s' o e
    have := does_bind (lines_does hW hinc ls p i) (fun xs => does_const fun s => finishPara_state r xs s) s a s' o e
    rw [List.append_nil] at this
    exact ⟨this.ok, this.frame, this.kept, this.above, fun up hup => .para (this.runs up hup) .nil⟩
  | .pre ls => by
    rw [evalNode]
    intro p i r s a s' o e
    have := does_bind (lines_does hW hinc ls p i) (fun xs => does_pure _) s a s' o e
    rw [List.append_nil] at this
    exact ⟨this.ok, this.frame, this.kept, this.above, fun up hup => .pre (this.runs up hup) .nil⟩
  | .invoke fn args loc => invoke_does hW hinc (args_does hW hinc args)
theorem seq_does (hW : W.noNodes) {k : Nat} {inc : Inc} (hinc : IncDoes W inc) : ∀ (ns : List Node), EvDoes W ns (evalSeq W k inc ns)
  | [] => by rw [evalSeq]; exact fun p i r => does_pure r
  | n :: ns => by
    rw [evalSeq]
    exact fun p i r => does_bind (node_does hW hinc n p i r) fun r' => seq_does hW hinc ns p i r'
theorem lines_does (hW : W.noNodes) {k : Nat} {inc : Inc} (hinc : IncDoes W inc) : ∀ (ls : List (List Node)) (p : Str) (i : Nat),
    Does W p i ls.flatten (evalLines W k inc ls i)
  | [], p, i => by rw [evalLines]; exact does_pure _
  | l :: ls, p, i => by
    rw [evalLines, List.flatten_cons]
    refine does_bind (seq_does hW hinc l p i .nil) fun x => ?_
    have := does_bind (lines_does hW (k := k) hinc ls p i) (fun xs => does_pure (W := W) (p := p) (i := i) (if x.isNil then xs else x :: xs))
    rw [List.append_nil] at this
    exact this
theorem args_does (hW : W.noNodes) {k : Nat} {inc : Inc} (hinc : IncDoes W inc) : ∀ (ns : List Node),
    ∀ n ∈ ns, EvDoes W [n] (evalNode W k inc n)
  | [] => by simp
  | n :: ns => by
    intro m hm
    rcases List.mem_cons.1 hm with hm | hm
    · rw [hm]; exact node_does hW hinc n
    · exact args_does hW hinc ns m hm
end

/-- What is known of a file. -/
theorem file_does (hW : W.noNodes) : ∀ (n : Nat) {parent : Option Nat} {path : Str} {plugins : List Nat} {s s' : St} {c : Nat},
    Sound s.heap → CacheOk W s → (∀ p, parent = some p → p < s.heap.length) → plugins.head? = some 0 → path ≠ [] →
    evalFile W n parent path plugins s = (.ok c, s') →
    c = s.heap.length ∧ Sound s'.heap ∧ CacheOk W s' ∧ Frame c (s.file parent path plugins) s' ∧
    ∃ node, W.Wrote path node ∧ (s'.heap.get c).path = path ∧ (s'.heap.get c).loc = Location.zero ∧
      ∀ up : Bool, (up = true ↔ ∃ p, parent = some p ∧ OnSinglePage s.heap p) →
        Runs W s'.heap (s.heap.length + 1) up path [node] (Face.start plugins) (s'.heap.get c).face
  | 0, _, _, _, _, _, _, _, _, _, _, _, e => by cases e
  | n + 1, parent, path, plugins, s, s', c, hs, hc, hpar, h0, hp, e => by
    have hinc : IncDoes W (incl W n) := by
      intro p i q s u s' o hq e
      simp only [incl, M.bind_run, M.bind] at e
      cases hx : evalFile W n (some i) q [0] s with
      | mk r s1 =>
        rw [hx] at e
        cases r with
        | err _ => cases e
        | panic => cases e
        | more => cases e
        | ok c =>
          obtain ⟨rfl, hs1, hc1, hfr, node, hw, hpath, hloc, hr⟩ := file_does hW n o.sound o.cache (by intro p hp; cases hp; exact o.lt) rfl hq hx
          cases e
          have hi := o.lt
          have hfl : (s.file (some i) q [0]).heap.length = s.heap.length + 1 := by simp [St.file]
          have hl := hfr.1
          have hold : ∀ j, j < s.heap.length → s1.heap.get j = s.heap.get j := by
            intro j hj
            rw [hfr.2 j (by omega) (by omega)]
            exact Heap.get_append_lt _ _ hj
          have ho : Ok W.Wrote p i s1 := o.later (by omega) hs1 hc1 fun j hj => by rw [hold j hj]; exact ⟨rfl, rfl⟩
          have hii : Heap.get (s1.heap.upd i fun x => { x with children := x.children ++ [s.heap.length] }) i =
              { s.heap.get i with children := (s.heap.get i).children ++ [s.heap.length] } := by
            rw [Heap.get_upd_eq _ _ ho.lt, hold i hi]
          have hcc : Heap.get (s1.heap.upd i fun x => { x with children := x.children ++ [s.heap.length] }) s.heap.length =
              s1.heap.get s.heap.length := Heap.get_upd_ne _ _ (by omega)
          refine ⟨ho.upd _ fun x => ⟨rfl, rfl, id⟩, ⟨?_, fun j hj hne => ?_⟩, by rw [hii]; exact ⟨rfl, rfl⟩,
            pageAbove_same o.sound o.lt (by dsimp only; rw [hii]) (fun j hj => by
              dsimp only; rw [Heap.get_upd_ne _ _ (by omega), hold j (by omega)]),
            s.heap.length, node, Nat.le_refl _, ?_, hw, ?_, ?_, fun up hup => ?_, by rw [hii]; rfl⟩
          · simp only [Heap.length_upd]; omega
          · dsimp only
            rw [Heap.get_upd_ne _ _ hne, hold j hj]
          · simp only [Heap.length_upd]; omega
          · dsimp only; rw [hcc]; exact hpath
          · dsimp only; rw [hcc]; exact hloc
          · dsimp only
            rw [hcc]
            refine (hr up (by simpa using hup)).keep (by omega) (by rw [Heap.length_upd]; exact Nat.le_refl _) fun j hj _ => ?_
            rw [Heap.get_upd_ne _ _ (by omega)]
            exact ⟨rfl, rfl, rfl⟩
    rw [evalFile_run] at e
    cases hfs : W.fs path with
    | none => rw [hfs] at e; cases e
    | some info =>
      rw [hfs] at e
      dsimp only at e
      cases hnode : nodeOf s path info with
      | err _ => rw [hnode] at e; cases e
      | panic => rw [hnode] at e; cases e
      | more => rw [hnode] at e; cases e
      | ok node =>
        rw [hnode] at e
        dsimp only at e
        have hw := hc.nodeOf hfs hnode
        have e0 : Heap.get (s.file parent path plugins).heap s.heap.length = { Sec.fresh parent path with plugins := plugins } :=
          Heap.get_append_eq _ _
        have hnew : Ok W.Wrote path s.heap.length (s.file parent path plugins) := by
          refine ⟨by simp [St.file], hs.add _ hpar h0, hc, ?_⟩
          have := FileOf.own (h := (s.file parent path plugins).heap) (i := s.heap.length) (by rw [e0]; exact hp)
          rwa [e0] at this
        rw [evalBody_run] at e
        cases hx : evalNode W n (incl W n) node s.heap.length .nil (s.file parent path plugins) with
        | mk q s1 =>
          rw [hx] at e
          cases q with
          | err _ => cases e
          | panic => cases e
          | more => cases e
          | ok r =>
            dsimp only at e
            injection e with e1 e2
            injection e1 with e1
            subst e1
            have hd := node_does hW hinc node path _ _ _ _ _ hnew hx
            have hb : Did W path s.heap.length [node] (s.file parent path plugins) (setBody r s1 s.heap.length) := by
              rw [setBody]
              split
              · exact hd
              · exact hd.upd (by simp [St.file]) _ (fun x => ⟨rfl, rfl, id⟩) (fun _ => rfl) fun _ hr => hr
            generalize setBody r s1 s.heap.length = s2 at hb e2
            subst e2
            refine ⟨rfl, hb.ok.sound, CacheOk.remember hb.ok.cache _ hw, hb.frame, node, hw, ?_, ?_, fun up hup => ?_⟩
            · exact hb.kept.1.trans (by rw [e0]; rfl)
            · exact hb.kept.2.trans (by rw [e0]; rfl)
            · have := hb.runs up (by
                rw [hup, PageAbove, e0]
                refine exists_congr fun q => and_congr_right fun hq => ?_
                exact (onSinglePage_same hs (Nat.le_refl _) (fun j hj => Heap.get_append_lt _ _ hj) q (hpar q hq)).symm)
              rw [e0] at this
              have hl : (s.file parent path plugins).heap.length = s.heap.length + 1 := by simp [St.file]
              rw [hl] at this
              exact this

/-! ### The steps -/

/-- The steps, one after the other. -/
inductive Plan (W : World) (h : Heap) (file : Str) (up' : Bool) (ps' cs' : List Nat) :
    List Node → Bool → List Nat → List Nat → Prop
  | nil : Plan W h file up' ps' cs' [] up' ps' cs'
  | single {fn : Str} {loc : Location} {st : List Node} {up : Bool} {ps cs : List Nat} :
      methodName fn = q%"SinglePage" → Plan W h file up' ps' cs' st true ps cs →
      Plan W h file up' ps' cs' (.invoke fn [] loc :: st) up ps cs
  | use {up : Bool} {fn : Str} {a : Node} {loc : Location} {t : Str} {p : Nat} {st : List Node} {ps cs : List Nat} :
      methodName fn = q%"UsePlugin" → a.gives t → W.registry t = some p → Plan W h file up' ps' cs' st up (ps ++ [p]) cs →
      Plan W h file up' ps' cs' (.invoke fn [a] loc :: st) up ps cs
  | kid {up : Bool} {call : Node} {c : Nat} {st : List Node} {ps cs : List Nat} : IsChild W h up file ps call c →
      Plan W h file up' ps' cs' st up ps (cs ++ [c]) → Plan W h file up' ps' cs' (call :: st) up ps cs

theorem Plan.append {h : Heap} {file : Str} {up up1 up2 : Bool} {ps1 cs1 ps2 cs2 : List Nat} {st st' : List Node} {ps cs : List Nat}
    (a : Plan W h file up1 ps1 cs1 st up ps cs) (b : Plan W h file up2 ps2 cs2 st' up1 ps1 cs1) : Plan W h file up2 ps2 cs2 (st ++ st') up ps cs := by
  induction a with
  | nil => exact b
  | single h1 _ ih => exact .single h1 ih
  | use h1 h2 h3 _ ih => exact .use h1 h2 h3 ih
  | kid h1 _ ih => exact .kid h1 ih

theorem stepsAll_append : ∀ (as bs : List Node), stepsAll (as ++ bs) = stepsAll as ++ stepsAll bs
  | [], bs => by simp [stepsAll]
  | a :: as, bs => by rw [List.cons_append, stepsAll, stepsAll, stepsAll_append as bs, List.append_assoc]

theorem stepsLines_eq : ∀ (ls : List (List Node)), stepsLines ls = stepsAll ls.flatten
  | [] => by simp [stepsLines, stepsAll]
  | l :: ls => by rw [stepsLines, List.flatten_cons, stepsAll_append, stepsLines_eq ls]

theorem Runs.plan {h : Heap} {lo : Nat} {up : Bool} {file : Str} {ns : List Node} {f g : Face} (a : Runs W h lo up file ns f g) :
    Plan W h file (up || g.single) g.plugins g.children (stepsAll ns) (up || f.single) f.plugins f.children := by
  have low : ∀ {up : Bool} {file : Str} {ns : List Node} {f g : Face}, Runs W h lo up file ns f g → Runs W h 0 up file ns f g :=
    fun a => a.keep (Nat.zero_le _) (Nat.le_refl _) fun _ _ _ => ⟨rfl, rfl, rfl⟩
  induction a with
  | nil => rw [stepsAll]; exact .nil
  | str _ ih => rw [stepsAll, Node.steps]; exact ih
  | seq _ _ i1 i2 => rw [stepsAll, Node.steps]; exact i1.append i2
  | para _ _ i1 i2 => rw [stepsAll, Node.steps, stepsLines_eq]; exact i1.append i2
  | pre _ _ i1 i2 => rw [stepsAll, Node.steps, stepsLines_eq]; exact i1.append i2
  | inline h1 h2 h3 h4 h5 h6 _ _ i2 =>
    rw [stepsAll, Node.steps, if_pos h1]
    exact .kid ⟨h3, _, _, _, rfl, .inl ⟨h1, h4, h5, low h6⟩⟩ i2
  | incl h1 h2 h3 h4 h5 h6 h7 h8 h9 _ i1 _ i3 =>
    rw [stepsAll, Node.steps, if_neg (by rw [h1]; decide), if_pos (.inl h1), List.append_assoc]
    exact i1.append (.kid ⟨h5, _, _, _, rfl, .inr ⟨h1, _, _, h3, h6, h7, h8, low h9⟩⟩ i3)
  | use h1 h2 h3 h4 _ i1 i2 =>
    rw [stepsAll, Node.steps, if_neg (by rw [h1]; decide), if_pos (.inr (.inl h1)), List.append_assoc]
    exact i1.append (.use h1 h3 h4 i2)
  | styled h1 h2 h3 _ i1 i2 =>
    rw [stepsAll, Node.steps, if_neg (by rw [h1]; decide), if_neg (by rw [h1]; decide), List.append_nil]
    exact i1.append i2
  | title h1 h2 h3 h4 _ i1 i2 =>
    rw [stepsAll, Node.steps, if_neg (by rw [h1]; decide), if_neg (by rw [h1]; decide), List.append_nil]
    exact i1.append i2
  | single h1 _ ih =>
    rw [stepsAll, Node.steps, if_neg (by rw [h1]; decide), if_pos (.inr (.inr h1)), stepsAll]
    rw [Bool.or_true] at ih
    exact .single h1 ih
  | splits h1 _ ih =>
    rw [stepsAll, Node.steps, if_neg (by rw [h1]; decide), if_neg (by rw [h1]; decide), stepsAll]
    exact ih
  | omits h1 _ ih =>
    rw [stepsAll, Node.steps, if_neg (by rw [h1]; decide), if_neg (by rw [h1]; decide), stepsAll]
    exact ih
  | part h1 h2 h3 h4 _ i1 i2 =>
    rw [stepsAll, Node.steps, if_neg (by rw [h1]; decide), if_neg (by rw [h1]; decide), List.append_nil]
    exact i1.append i2
  | other h1 h2 _ i1 i2 =>
    rw [stepsAll, Node.steps, if_neg (fun e => h1 (by rw [e]; decide)),
      if_neg (fun e => h1 (by rcases e with e | e | e <;> rw [e] <;> decide)), List.append_nil]
    exact i1.append i2

theorem IsChild.isKid {h : Heap} {up : Bool} {file : Str} {ps : List Nat} {call : Node} {c : Nat} (a : IsChild W h up file ps call c) :
    call.isKid = true ∧ call.isUse = false ∧ call.isSingle = false := by
  obtain ⟨_, fn, x, loc, rfl, ⟨h1, _⟩ | ⟨h1, _⟩⟩ := a <;> simp only [Node.isKid, Node.isUse, Node.isSingle, h1] <;> decide

theorem Plan.counts {h : Heap} {file : Str} {up up' : Bool} {ps' cs' : List Nat} {st : List Node} {ps cs : List Nat}
    (a : Plan W h file up' ps' cs' st up ps cs) : (∃ qs, Uses W (st.filter Node.isUse) qs ∧ ps' = ps ++ qs) ∧
      ∃ ks, ks.length = (st.filter Node.isKid).length ∧ cs' = cs ++ ks := by
  induction a with
  | nil => exact ⟨⟨[], rfl, by simp⟩, [], rfl, by simp⟩
  | @single fn loc st up ps cs h1 _ ih =>
    have hu : (Node.invoke fn [] loc).isUse = false := by simp only [Node.isUse, h1]; decide
    have hn : (Node.invoke fn [] loc).isKid = false := by simp only [Node.isKid, h1]; decide
    rw [List.filter_cons_of_neg (by simp [hu]), List.filter_cons_of_neg (by simp [hn])]
    exact ih
  | @use up fn a loc t p st ps cs h1 h2 h3 _ ih =>
    obtain ⟨⟨qs, hq, e⟩, ks, hk, e'⟩ := ih
    have hu : (Node.invoke fn [a] loc).isUse = true := by simp [Node.isUse, h1]
    have hn : (Node.invoke fn [a] loc).isKid = false := by simp only [Node.isKid, h1]; decide
    refine ⟨⟨p :: qs, ?_, by simpa using e⟩, ks, ?_, e'⟩
    · rw [List.filter_cons_of_pos hu]
      exact ⟨_, _, _, _, _, _, rfl, h2, h3, rfl, hq⟩
    · rw [List.filter_cons_of_neg (by simp [hn])]; exact hk
  | @kid up call c st ps cs h1 _ ih =>
    obtain ⟨⟨qs, hq, e⟩, ks, hk, e'⟩ := ih
    obtain ⟨hkid, huse, hsin⟩ := h1.isKid
    refine ⟨⟨qs, ?_, e⟩, c :: ks, ?_, by simpa using e'⟩
    · rw [List.filter_cons_of_neg (by simp [huse])]; exact hq
    · rw [List.filter_cons_of_pos hkid]; simp [hk]

theorem Plan.at {h : Heap} {file : Str} {up up' : Bool} {ps' cs' : List Nat} {st : List Node} {ps cs : List Nat}
    (a : Plan W h file up' ps' cs' st up ps cs) : ∀ {pre post : List Node} {call : Node}, st = pre ++ call :: post → call.isKid = true →
      ∃ qs c, Uses W (pre.filter Node.isUse) qs ∧ cs'[cs.length + (pre.filter Node.isKid).length]? = some c ∧
        IsChild W h (up || pre.any Node.isSingle) file (ps ++ qs) call c := by
  induction a with
  | nil => intro pre post call e; cases pre <;> cases e
  | @single fn loc st up ps cs h1 _ ih =>
    intro pre post call e hk
    have hu : (Node.invoke fn [] loc).isUse = false := by simp only [Node.isUse, h1]; decide
    have hn : (Node.invoke fn [] loc).isKid = false := by simp only [Node.isKid, h1]; decide
    have hx : (Node.invoke fn [] loc).isSingle = true := by simp only [Node.isSingle, h1]; decide
    cases pre with
    | nil => cases e; rw [hn] at hk; cases hk
    | cons x pre =>
      cases e
      rw [List.filter_cons_of_neg (by simp [hu]), List.filter_cons_of_neg (by simp [hn]), List.any_cons, hx]
      simpa using ih rfl hk
  | @use up fn a loc t p st ps cs h1 h2 h3 _ ih =>
    intro pre post call e hk
    have hu : (Node.invoke fn [a] loc).isUse = true := by simp [Node.isUse, h1]
    have hn : (Node.invoke fn [a] loc).isKid = false := by simp only [Node.isKid, h1]; decide
    cases pre with
    | nil => cases e; rw [hn] at hk; cases hk
    | cons x pre =>
      cases e
      obtain ⟨qs, c, hq, hc, hi⟩ := ih rfl hk
      have hx : (Node.invoke fn [a] loc).isSingle = false := by simp only [Node.isSingle, h1]; decide
      refine ⟨p :: qs, c, ?_, ?_, by rw [List.any_cons, hx]; simpa using hi⟩
      · rw [List.filter_cons_of_pos hu]
        exact ⟨_, _, _, _, _, _, rfl, h2, h3, rfl, hq⟩
      · rw [List.filter_cons_of_neg (by simp [hn])]; exact hc
  | @kid up call c st ps cs h1 hp ih =>
    intro pre post call' e hk
    obtain ⟨hkid, huse, hsin⟩ := h1.isKid
    cases pre with
    | nil =>
      cases e
      obtain ⟨_, ks, _, e'⟩ := hp.counts
      exact ⟨[], c, rfl, by rw [e']; simp, by simpa using h1⟩
    | cons x pre =>
      cases e
      obtain ⟨qs, c', hq, hc, hi⟩ := ih rfl hk
      refine ⟨qs, c', ?_, ?_, by rw [List.any_cons, hsin]; exact hi⟩
      · rw [List.filter_cons_of_neg (by simp [huse])]; exact hq
      · rw [List.filter_cons_of_pos hkid]
        have : cs.length + (call :: List.filter Node.isKid pre).length = (cs ++ [c]).length + (List.filter Node.isKid pre).length := by
          simp; omega
        rw [this]
        exact hc

/-! ### Settings -/

theorem ranAll_append : ∀ (as bs : List Node), ranAll (as ++ bs) = ranAll as ++ ranAll bs
  | [], bs => by simp [ranAll]
  | a :: as, bs => by rw [List.cons_append, ranAll, ranAll, ranAll_append as bs, List.append_assoc]

theorem ranLines_eq : ∀ (ls : List (List Node)), ranLines ls = ranAll ls.flatten
  | [] => by simp [ranLines, ranAll]
  | l :: ls => by rw [ranLines, List.flatten_cons, ranAll_append, ranLines_eq ls]

/-- The flags of a face. -/
structure Flags (f g : Face) (names : List Str) : Prop where
  single : g.single = (f.single || decide (q%"SinglePage" ∈ names))
  resets : g.resets = (f.resets || decide (q%"SplitSections" ∈ names))
  omits : g.omits = (f.omits || decide (q%"OmitChildrenFromTableOfContents" ∈ names))
  style : q%"Styled" ∉ names → g.style = f.style
  title : q%"Title" ∉ names → g.titleLoc = f.titleLoc
  parts : q%"SetPartial" ∉ names → g.parts = f.parts

theorem Flags.refl (f : Face) : Flags f f [] := ⟨by simp, by simp, by simp, fun _ => rfl, fun _ => rfl, fun _ => rfl⟩

theorem Flags.trans {f g k : Face} {as bs : List Str} (a : Flags f g as) (b : Flags g k bs) : Flags f k (as ++ bs) := by
  refine ⟨?_, ?_, ?_, ?_, ?_, ?_⟩
  · rw [b.single, a.single]; simp [Bool.or_assoc]
  · rw [b.resets, a.resets]; simp [Bool.or_assoc]
  · rw [b.omits, a.omits]; simp [Bool.or_assoc]
  · intro h; simp only [List.mem_append, not_or] at h; rw [b.style h.2, a.style h.1]
  · intro h; simp only [List.mem_append, not_or] at h; rw [b.title h.2, a.title h.1]
  · intro h; simp only [List.mem_append, not_or] at h; rw [b.parts h.2, a.parts h.1]

theorem Flags.after {f g k : Face} {as bs : List Str} (b : Flags g k bs) (a : Flags f g as) : Flags f k (as ++ bs) := a.trans b

/-- One call. -/
theorem Flags.call {f g : Face} {name : Str} (h1 : g.single = (f.single || decide (name = q%"SinglePage")))
    (h2 : g.resets = (f.resets || decide (name = q%"SplitSections")))
    (h3 : g.omits = (f.omits || decide (name = q%"OmitChildrenFromTableOfContents")))
    (h4 : name ≠ q%"Styled" → g.style = f.style) (h5 : name ≠ q%"Title" → g.titleLoc = f.titleLoc)
    (h6 : name ≠ q%"SetPartial" → g.parts = f.parts) : Flags f g [name] := by
  have e : ∀ x : Str, decide (x ∈ [name]) = decide (name = x) := by intro x; simp [eq_comm]
  have e' : ∀ x : Str, x ∉ [name] → name ≠ x := fun x h e => h (by simp [e])
  exact ⟨by rw [e]; exact h1, by rw [e]; exact h2, by rw [e]; exact h3, fun h => h4 (e' _ h), fun h => h5 (e' _ h),
    fun h => h6 (e' _ h)⟩

theorem Runs.flags {h : Heap} {lo : Nat} {up : Bool} {file : Str} {ns : List Node} {f g : Face} (a : Runs W h lo up file ns f g) :
    Flags f g (ranAll ns) := by
  induction a with
  | nil => rw [ranAll]; exact .refl _
  | str _ ih => rw [ranAll, Node.ran]; exact ih
  | seq _ _ i1 i2 => rw [ranAll, Node.ran]; exact i1.trans i2
  | para _ _ i1 i2 => rw [ranAll, Node.ran, ranLines_eq]; exact i1.trans i2
  | pre _ _ i1 i2 => rw [ranAll, Node.ran, ranLines_eq]; exact i1.trans i2
  | inline h1 h2 h3 h4 h5 h6 _ _ i2 =>
    rw [ranAll, Node.ran, if_pos h1, h1, List.nil_append]
    exact Flags.after i2 (.call (by simp) (by simp) (by simp) (fun _ => rfl) (fun _ => rfl) (fun _ => rfl))
  | incl h1 h2 h3 h4 h5 h6 h7 h8 h9 _ i1 _ i3 =>
    rw [ranAll, Node.ran, if_neg (by rw [h1]; decide), h1, List.append_assoc]
    exact i1.trans (Flags.after i3 (.call (by simp) (by simp) (by simp) (fun _ => rfl) (fun _ => rfl) (fun _ => rfl)))
  | use h1 h2 h3 h4 _ i1 i2 =>
    rw [ranAll, Node.ran, if_neg (by rw [h1]; decide), h1, List.append_assoc]
    exact i1.trans (Flags.after i2 (.call (by simp) (by simp) (by simp) (fun _ => rfl) (fun _ => rfl) (fun _ => rfl)))
  | styled h1 h2 h3 _ i1 i2 =>
    rw [ranAll, Node.ran, if_neg (by rw [h1]; decide), h1, List.append_assoc]
    exact i1.trans (Flags.after i2 (.call (by simp) (by simp) (by simp) (fun h => absurd rfl h) (fun _ => rfl) (fun _ => rfl)))
  | title h1 h2 h3 h4 _ i1 i2 =>
    rw [ranAll, Node.ran, if_neg (by rw [h1]; decide), h1, List.append_assoc]
    exact i1.trans (Flags.after i2 (.call (by simp) (by simp) (by simp) (fun _ => rfl) (fun h => absurd rfl h) (fun _ => rfl)))
  | single h1 _ ih =>
    rw [ranAll, Node.ran, if_neg (by rw [h1]; decide), h1, ranAll, List.nil_append]
    exact Flags.after ih (.call (by simp) (by simp) (by simp) (fun _ => rfl) (fun _ => rfl) (fun _ => rfl))
  | splits h1 _ ih =>
    rw [ranAll, Node.ran, if_neg (by rw [h1]; decide), h1, ranAll, List.nil_append]
    exact Flags.after ih (.call (by simp) (by simp) (by simp) (fun _ => rfl) (fun _ => rfl) (fun _ => rfl))
  | omits h1 _ ih =>
    rw [ranAll, Node.ran, if_neg (by rw [h1]; decide), h1, ranAll, List.nil_append]
    exact Flags.after ih (.call (by simp) (by simp) (by simp) (fun _ => rfl) (fun _ => rfl) (fun _ => rfl))
  | part h1 h2 h3 h4 _ i1 i2 =>
    rw [ranAll, Node.ran, if_neg (by rw [h1]; decide), h1, List.append_assoc]
    exact i1.trans (Flags.after i2 (.call (by simp) (by simp) (by simp) (fun _ => rfl) (fun _ => rfl) (fun h => absurd rfl h)))
  | @other up file fn as loc ns f g k h1 h2 _ i1 i2 =>
    have hne : ∀ {x : Str}, x ∈ actions → methodName fn ≠ x := fun hx e => h1 (e ▸ hx)
    rw [ranAll, Node.ran, if_neg (hne (by decide)), List.append_assoc]
    refine i1.trans (Flags.after i2 (.call ?_ ?_ ?_ (fun _ => rfl) (fun _ => rfl) (fun _ => rfl)))
    · rw [decide_eq_false (hne (by decide))]; simp
    · rw [decide_eq_false (hne (by decide))]; simp
    · rw [decide_eq_false (hne (by decide))]; simp

end Booklit
