import Verif.Spec.SplitCalls
import Verif.Lemmas.EvalRel
import Verif.Lemmas.OutlineL

/-!
Evaluation follows the calls of `\single-page` and `\split-sections` in a document.
-/

namespace Booklit

theorem SplitFirst.nil : ¬ SplitFirst [] := by
  rintro ⟨a, b, e, _⟩
  cases a <;> cases e

theorem SplitFirst.append {cs ds : List PageCall} :
    SplitFirst (cs ++ ds) ↔ SplitFirst cs ∨ (.single ∉ cs ∧ SplitFirst ds) := by
  constructor
  · rintro ⟨a, b, e, h⟩
    rcases List.append_eq_append_iff.1 e with ⟨x, rfl, e2⟩ | ⟨x, rfl, e2⟩
    · refine .inr ⟨fun hm => h (List.mem_append_left _ hm), x, b, e2, fun hm => h (List.mem_append_right _ hm)⟩
    · cases x with
      | nil => exact .inr ⟨by simpa using h, [], b, by simpa using e2.symm, by simp⟩
      | cons c x =>
        injection e2 with e3 e4
        subst e3
        exact .inl ⟨a, x, rfl, h⟩
  · rintro (⟨a, b, rfl, h⟩ | ⟨h, a, b, rfl, h'⟩)
    · exact ⟨a, b ++ ds, by simp, h⟩
    · exact ⟨cs ++ a, b, by simp, by simp [h, h']⟩

theorem PageAbove.keep {i : Nat} {s s' : St} (h : Unsplit i s s') (hs : Sound s.heap) (hi : i < s.heap.length) :
    PageAbove s'.heap i ↔ PageAbove s.heap i := by
  have hs' := h.2.1.2 hs
  have hpar := (h.1.2 hi).1
  have hoth := h.1.1.2
  constructor
  · rintro ⟨p, hp, o⟩
    rw [hpar] at hp
    have hlt := (hs i hi).1 p hp
    exact ⟨p, hp, o.upto hs' (by have := h.1.1.1; omega) fun j hj => (hoth j (by omega) (by omega)).symm⟩
  · rintro ⟨p, hp, o⟩
    have hlt := (hs i hi).1 p hp
    exact ⟨p, by rw [hpar]; exact hp, o.upto hs (by omega) fun j hj => hoth j (by omega) (by omega)⟩

/-- What the calls do to a section. -/
def Tracks (i : Nat) (cs : List PageCall) (s s' : St) : Prop :=
  Unsplit i s s' ∧
  ((s'.heap.get i).split = true ↔ (s.heap.get i).split = true ∨ (¬ OnSinglePage s.heap i ∧ SplitFirst cs)) ∧
  ((s'.heap.get i).preventSplit = true ↔ (s.heap.get i).preventSplit = true ∨ .single ∈ cs)

theorem Tracks.on {i : Nat} {cs : List PageCall} {s s' : St} (h : Tracks i cs s s') (hs : Sound s.heap)
    (hi : i < s.heap.length) : OnSinglePage s'.heap i ↔ OnSinglePage s.heap i ∨ .single ∈ cs := by
  rw [onSinglePage_iff, onSinglePage_iff, h.2.2, PageAbove.keep h.1 hs hi]
  constructor
  · rintro ((h | h) | h)
    · exact .inl (.inl h)
    · exact .inr h
    · exact .inl (.inr h)
  · rintro ((h | h) | h)
    · exact .inl (.inl h)
    · exact .inr h
    · exact .inl (.inr h)

theorem Tracks.trans {W : World} {i : Nat} {cs ds : List PageCall} {s s' s'' : St} (h : Tracks i cs s s')
    (h' : Tracks i ds s' s'') (hs : Sound s.heap) (hi : i < s.heap.length) : Tracks i (cs ++ ds) s s'' := by
  refine ⟨(Unsplit.inv W).trans h.1 h'.1, ?_, ?_⟩
  · rw [h'.2.1, h.2.1, h.on hs hi, SplitFirst.append]
    constructor
    · rintro ((h1 | ⟨h1, h2⟩) | ⟨h1, h2⟩)
      · exact .inl h1
      · exact .inr ⟨h1, .inl h2⟩
      · exact .inr ⟨fun o => h1 (.inl o), .inr ⟨fun m => h1 (.inr m), h2⟩⟩
    · rintro (h1 | ⟨h1, h2 | ⟨h2, h3⟩⟩)
      · exact .inl (.inl h1)
      · exact .inl (.inr ⟨h1, h2⟩)
      · exact .inr ⟨fun o => o.elim h1 h2, h3⟩
  · rw [h'.2.2, h.2.2, List.mem_append]
    constructor
    · rintro ((h1 | h1) | h1)
      · exact .inl h1
      · exact .inr (.inl h1)
      · exact .inr (.inr h1)
    · rintro (h1 | h1 | h1)
      · exact .inl (.inl h1)
      · exact .inl (.inr h1)
      · exact .inr h1

/-- A computation in a section that makes the given calls if it succeeds. -/
def Obeys (i : Nat) (cs : List PageCall) {α : Type} (m : M α) : Prop :=
  ∀ s a s', Sound s.heap → i < s.heap.length → m s = (.ok a, s') → Tracks i cs s s'

variable {W : World}

theorem Tracks.same {i : Nat} {s s' : St} (h : Unsplit i s s') (h1 : (s'.heap.get i).split = (s.heap.get i).split)
    (h2 : (s'.heap.get i).preventSplit = (s.heap.get i).preventSplit) : Tracks i [] s s' := by
  refine ⟨h, ?_, ?_⟩
  · rw [h1]; simp [SplitFirst.nil]
  · rw [h2]; simp

theorem obeys_const {i : Nat} {α : Type} {m : M α} (h : ∀ s, (m s).2 = s) : Obeys i [] m := by
  intro s a s' hs hi e
  have := h s
  rw [e] at this
  dsimp only at this
  subst this
  exact .same ((Unsplit.inv ⟨fun _ => none, fun _ => none, fun _ _ => none, false⟩).refl i s') rfl rfl

theorem obeys_pure {i : Nat} {α : Type} (a : α) : Obeys i [] (Pure.pure a : M α) := obeys_const fun _ => rfl

theorem obeys_lift {i : Nat} {α : Type} (r : Res α) : Obeys i [] (M.lift r) := obeys_const fun _ => rfl

theorem obeys_bind {i : Nat} {cs ds : List PageCall} {α β : Type} {m : M α} {f : α → M β} (hm : Obeys i cs m)
    (hf : ∀ a, Obeys i ds (f a)) : Obeys i (cs ++ ds) (m >>= f) := by
  intro s b s' hs hi e
  rw [M.bind_run, M.bind] at e
  cases hx : m s with
  | mk r s1 =>
    rw [hx] at e
    cases r with
    | ok a =>
      have h1 := hm s a s1 hs hi hx
      exact h1.trans (W := ⟨fun _ => none, fun _ => none, fun _ _ => none, false⟩)
        (hf a s1 b s' (h1.1.2.1.2 hs) (Nat.lt_of_lt_of_le hi h1.1.1.1.1) e) hs hi
    | err _ => cases e
    | panic => cases e
    | more => cases e

theorem obeys_bind0 {i : Nat} {ds : List PageCall} {α β : Type} {m : M α} {f : α → M β} (hm : Obeys i [] m)
    (hf : ∀ a, Obeys i ds (f a)) : Obeys i ds (m >>= f) := obeys_bind hm hf

theorem obeys_bindE {i : Nat} {cs : List PageCall} {α β : Type} {m : M α} {f : α → M β} (hm : Obeys i cs m)
    (hf : ∀ a, Obeys i [] (f a)) : Obeys i cs (m >>= f) := by
  have := obeys_bind hm hf
  rwa [List.append_nil] at this

theorem obeys_get' {i : Nat} {cs : List PageCall} {α : Type} {f : St → M α}
    (h : ∀ t s a s', Sound s.heap → i < s.heap.length → t = s → f t s = (.ok a, s') → Tracks i cs s s') :
    Obeys i cs (M.get >>= f) := fun s a s' hs hi e => h s s a s' hs hi rfl e

/-- A computation that does not touch what is looked at. -/
def Untouched (i : Nat) {α : Type} (m : M α) : Prop :=
  ∀ s, i < s.heap.length → s.heap.length ≤ (m s).2.heap.length ∧ ((m s).2.heap.get i).split = (s.heap.get i).split ∧
    ((m s).2.heap.get i).preventSplit = (s.heap.get i).preventSplit

theorem untouched_const {i : Nat} {α : Type} {m : M α} (h : ∀ s, (m s).2 = s) : Untouched i m := by
  intro s hi
  rw [h]
  exact ⟨Nat.le_refl _, rfl, rfl⟩

theorem untouched_pure {i : Nat} {α : Type} (a : α) : Untouched i (Pure.pure a : M α) := untouched_const fun _ => rfl

theorem untouched_bind {i : Nat} {α β : Type} {m : M α} {f : α → M β} (hm : Untouched i m) (hf : ∀ a, Untouched i (f a)) :
    Untouched i (m >>= f) := by
  intro s hi
  have h1 := hm s hi
  rw [M.bind_run, M.bind]
  cases hx : m s with
  | mk r s1 =>
    rw [hx] at h1
    dsimp only at h1
    cases r with
    | ok a =>
      have h2 := hf a s1 (by omega)
      exact ⟨Nat.le_trans h1.1 h2.1, h2.2.1.trans h1.2.1, h2.2.2.trans h1.2.2⟩
    | err _ => exact h1
    | panic => exact h1
    | more => exact h1

theorem untouched_upd {i : Nat} {f : Sec → Sec} (h1 : ∀ x, (f x).split = x.split)
    (h2 : ∀ x, (f x).preventSplit = x.preventSplit) : Untouched i (M.upd i f) := by
  intro s hi
  simp only [M.upd, Heap.length_upd, Heap.get_upd_eq _ _ hi, h1, h2]
  exact ⟨Nat.le_refl _, trivial, trivial⟩

theorem untouched_attempt {i : Nat} {α : Type} {m : M α} (h : Untouched i m) : Untouched i (M.attempt m) := by
  intro s hi
  have h1 := h s hi
  rw [M.attempt]
  revert h1
  cases m s with
  | mk r s' => cases r <;> exact id

theorem untouched_get {i : Nat} {α : Type} {f : St → M α} (h : ∀ t, Untouched i (f t)) : Untouched i (M.get >>= f) :=
  fun s hi => h s s hi

theorem same_inline {i : Nat} {ev : Ev} (hev : EvOk (fun _ => True) Unsplit ev) : Untouched i (evalInline i ev) := by
  intro s hi
  rw [evalInline_run]
  have hb := keeps_body (Unsplit.inv ⟨fun _ => none, fun _ => none, fun _ _ => none, false⟩) (c := s.heap.length) hev (s.inline i) (by simp [St.inline])
  revert hb
  cases evalBody ev s.heap.length (s.inline i) with
  | mk r s' =>
    intro hb
    have hn := Frame.new (s := s) hb.1.1
    cases r with
    | ok _ =>
      have hlt : i < s'.heap.length := Nat.lt_trans hi hn.1
      simp only [St.linkInline, Heap.length_upd]
      rw [Heap.get_upd_eq _ _ (by rw [Heap.length_upd]; exact hlt), Heap.get_upd_ne _ _ (by omega), hn.2 i hi]
      exact ⟨Nat.le_of_lt hn.1, rfl, rfl⟩
    | _ =>
      dsimp only
      rw [hn.2 i hi]
      exact ⟨Nat.le_of_lt hn.1, rfl, rfl⟩

/-- Included files. -/
def IncSame (inc : Inc) : Prop := ∀ i q, Untouched i (inc i q)

theorem same_incl (n : Nat) : IncSame (incl W n) := by
  intro i q s hi
  simp only [incl, M.bind_run, M.bind]
  rcases keeps_file (Unsplit.inv W) n (some i) q [0] s with ⟨e, h⟩ | h | h | ⟨s', ⟨h1, h2⟩ | ⟨h1, h2, h3⟩⟩
  · rw [h]; exact ⟨Nat.le_refl _, rfl, rfl⟩
  · rw [h]; exact ⟨Nat.le_refl _, rfl, rfl⟩
  · rw [h]; exact ⟨Nat.le_refl _, rfl, rfl⟩
  · rw [h1]
    have hn := Frame.new (s := s) h2.1.1
    have hlt : i < s'.heap.length := Nat.lt_trans hi hn.1
    simp only [M.upd, Heap.length_upd]
    rw [Heap.get_upd_eq _ _ hlt, hn.2 i hi]
    exact ⟨Nat.le_of_lt hn.1, rfl, rfl⟩
  · cases hx : evalFile W n (some i) q [0] s with
    | mk r s1 =>
      rw [hx] at h1 h2
      dsimp only at h2
      subst h2
      have hn := Frame.new (s := s) h3.1.1
      cases r with
      | ok a => exact absurd rfl (h1 a)
      | _ =>
        dsimp only
        rw [hn.2 i hi]
        exact ⟨Nat.le_of_lt hn.1, rfl, rfl⟩

/-- The calls a method of baselit makes itself. -/
def Base.pageCalls : Base → List PageCall
  | .singlePage => [.single]
  | .splitSections => [.split]
  | _ => []

theorem obeys_callBase {k i : Nat} {inc : Inc} (hi : ∀ j q, q ≠ [] → Keeps Unsplit j (inc j q)) (hinc : IncSame inc)
    (b : Base) (args : List ArgV) (ha : ∀ a ∈ args, EvKeeps (fun _ => True) Unsplit a) :
    Obeys i b.pageCalls (callBase W k inc i b args) := by
  intro s a s' hs hlt e
  have hk := keeps_callBase (Unsplit.inv W) (k := k) (i := i) hi b args ha s hlt
  rw [e] at hk
  dsimp only at hk
  have flat : ∀ {m : M Ret}, Untouched i m → m s = (.ok a, s') → Tracks i [] s s' := by
    intro m hm e
    have := hm s hlt
    rw [e] at this
    exact .same hk this.2.1 this.2.2
  revert e
  unfold callBase
  split
  · refine flat ?_
    split
    · exact untouched_pure _
    · exact untouched_bind (untouched_upd (fun _ => rfl) fun _ => rfl) fun _ => untouched_pure _
  · exact flat (untouched_bind (untouched_upd (fun _ => rfl) fun _ => rfl) fun _ => untouched_pure _)
  · refine flat (untouched_get fun t => ?_)
    dsimp only
    split
    · refine untouched_bind (untouched_const (titleNames_state _ _)) fun names => ?_
      exact untouched_bind (untouched_upd (fun _ => rfl) fun _ => rfl) fun _ => untouched_pure _
    · exact untouched_bind (untouched_const fun _ => rfl) fun _ => untouched_pure _
  · exact flat (untouched_pure _)
  · next n ev =>
    have hev : EvOk (fun _ => True) Unsplit ev := ha (.node n ev) (by simp)
    exact flat (untouched_bind (untouched_attempt (same_inline hev)) fun _ => untouched_pure _)
  · refine flat (untouched_bind (untouched_const fun _ => rfl) fun file => ?_)
    exact untouched_bind (untouched_attempt (hinc _ _)) fun _ => untouched_pure _
  · intro e
    cases e
    refine ⟨hk, ?_, ?_⟩
    · dsimp only
      rw [Heap.get_upd_eq _ _ hlt]
      constructor
      · exact .inl
      · rintro (h | ⟨_, a, b, h, hn⟩)
        · exact h
        · cases a with
          | nil => cases h
          | cons x a =>
            injection h with h1 h2
            cases a <;> cases h2
    · dsimp only
      rw [Heap.get_upd_eq _ _ hlt]
      simp [Base.pageCalls]
  · intro e
    simp only [M.bind_run, M.bind, M.upd, M.get, M.lift] at e
    have hs1 : Sound (s.heap.upd i fun x => { x with resetDepth := true }) := hs.upd i _ fun _ => ⟨rfl, id⟩
    have hlt1 : i < (s.heap.upd i fun x => { x with resetDepth := true }).length := by rw [Heap.length_upd]; exact hlt
    have hon := onSinglePage_reset s.heap i i
    obtain ⟨y, n⟩ := splitPrevented_on hs1 i ((s.heap.upd i fun x => { x with resetDepth := true }).length + 1) hlt1 (by omega)
    have hsf : SplitFirst (Base.pageCalls .splitSections) := ⟨[], [], rfl, by simp⟩
    have hns : PageCall.single ∉ Base.pageCalls .splitSections := by simp [Base.pageCalls]
    by_cases o : OnSinglePage s.heap i
    · rw [y (hon.2 o)] at e
      cases e
      refine ⟨hk, ?_, ?_⟩
      · dsimp only
        rw [Heap.get_upd_eq _ _ hlt]
        exact ⟨.inl, fun h => h.elim id fun h => absurd o h.1⟩
      · dsimp only
        rw [Heap.get_upd_eq _ _ hlt]
        exact ⟨.inl, fun h => h.elim id fun h => absurd h hns⟩
    · rw [n fun h => o (hon.1 h)] at e
      cases e
      refine ⟨hk, ?_, ?_⟩
      · dsimp only [M.upd]
        rw [Heap.get_upd_eq _ _ hlt1]
        exact ⟨fun _ => .inr ⟨o, hsf⟩, fun _ => rfl⟩
      · dsimp only [M.upd]
        rw [Heap.get_upd_eq _ _ hlt1, Heap.get_upd_eq _ _ hlt]
        exact ⟨.inl, fun h => h.elim id fun h => absurd h hns⟩
  · exact flat (untouched_bind (untouched_upd (fun _ => rfl) fun _ => rfl) fun _ => untouched_pure _)
  · exact flat (untouched_pure _)
  · exact flat (untouched_pure _)
  · exact flat (untouched_pure _)
  · exact flat (untouched_const fun _ => rfl)
  · exact flat (untouched_const fun _ => rfl)
  · exact flat (untouched_pure _)
  · exact flat (untouched_pure _)
  · exact flat (untouched_pure _)
  · exact flat (untouched_bind (untouched_upd (fun _ => rfl) fun _ => rfl) fun _ => untouched_pure _)
  · refine flat ?_
    split <;> exact untouched_pure _
  · exact flat (untouched_pure _)
  · refine flat ?_
    split <;> exact untouched_pure _
  · exact flat (untouched_pure _)
  · exact fun e => by cases e

theorem obeys_convert {k i : Nat} {t : Ty} (ht : t ≠ .node) {a : Node × Ev} {cs : List PageCall} (h : ∀ i r, Obeys i cs (a.2 i r)) :
    Obeys i cs (convert W k i t a) := by
  obtain ⟨n, ev⟩ := a
  cases t with
  | string =>
    refine obeys_bindE (h i _) fun c => obeys_const fun s => ?_
    simp only [M.bind_run, M.bind, M.get, M.lift]
    cases s.heap.text W.brokenOk k c <;> rfl
  | content => exact obeys_bindE (h i _) fun c => obeys_pure _
  | node => exact absurd rfl ht
  | other =>
    intro s a s' hs hi e
    cases e

theorem obeys_convertAll {k k' i : Nat} {inc : Inc} {v : Option Ty} (hv : v ≠ some .node) : ∀ (ts : List Ty) (ns : List Node),
    .node ∉ ts → (v = none → ts.length = ns.length) → (∀ n ∈ ns, ∀ i r, Obeys i n.pageCalls (evalNode W k' inc n i r)) →
    Obeys i (Node.pageCalls.seq ns) (convertAll W k i ts v (evalArgs W k' inc ns))
  | ts, [], _, _, h => by
    rw [evalArgs, Node.pageCalls.seq]
    cases ts <;> cases v <;> exact obeys_pure _
  | t :: ts, n :: ns, ht, hl, h => by
    rw [evalArgs, Node.pageCalls.seq]
    have ih := obeys_convertAll (k := k) (i := i) hv ts ns (fun hm => ht (List.mem_cons_of_mem _ hm))
      (fun e => by have := hl e; simpa using this) fun m hm => h m (List.mem_cons_of_mem _ hm)
    exact obeys_bind (obeys_convert (fun e => ht (by rw [e]; exact List.mem_cons_self)) (h n List.mem_cons_self))
      fun x => obeys_bindE ih fun xs => obeys_pure _
  | [], n :: ns, ht, hl, h => by
    rw [evalArgs, Node.pageCalls.seq]
    cases v with
    | none => exact absurd (hl rfl) (by simp)
    | some v =>
      have ih := obeys_convertAll (k := k) (i := i) hv [] ns ht (fun e => by cases e) fun m hm => h m (List.mem_cons_of_mem _ hm)
      exact obeys_bind (obeys_convert (fun e => hv (by rw [e])) (h n List.mem_cons_self)) fun x => obeys_bindE ih fun xs => obeys_pure _

/-- No plugin takes arguments that it may or may not evaluate. -/
def World.Plain (W : World) : Prop := ∀ p name f, W.foreign p name = some f → .node ∉ f.params ∧ f.variadic ≠ some .node

theorem base_sig (b : Base) (hb : b ≠ .section) : .node ∉ b.sig.1 ∧ b.sig.2 ≠ some .node := by
  cases b <;> first | exact absurd rfl hb | simp [Base.sig]

theorem base_name {name : Str} {b : Base} (h : baseMethods.lookup name = some b) :
    (b = .section ↔ name = q%"Section") ∧ b.pageCalls = (if name = q%"SinglePage" then [.single] else
      if name = q%"SplitSections" then [.split] else []) := by
  have hm := lookup_mem h
  have key : ∀ x ∈ baseMethods, (x.2 = .section ↔ x.1 = q%"Section") ∧ x.2.pageCalls = (if x.1 = q%"SinglePage" then [.single] else
      if x.1 = q%"SplitSections" then [.split] else []) := by decide
  exact key _ hm

theorem base_found {name : Str} (h : name = q%"Section" ∨ name = q%"SinglePage" ∨ name = q%"SplitSections") :
    baseMethods.lookup name ≠ none := by
  rcases h with rfl | rfl | rfl <;> decide

theorem obeys_finish {i : Nat} {fn path : Str} {loc : Location} {r : Content} (ret : Ret) : Obeys i [] (finish fn path loc r ret) := by
  refine obeys_const fun s => ?_
  rw [finish.eq_def]
  split <;> first | rfl | (split <;> rfl)

theorem obeys_finishPara {i : Nat} {r : Content} (xs : List Content) : Obeys i [] (finishPara r xs) := by
  refine obeys_const fun s => ?_
  match xs with
  | [] => rfl
  | [x] => simp only [finishPara]; cases isFlow x with
    | none => rfl
    | some b => cases b <;> rfl
  | _ :: _ :: _ => rfl

theorem Obeys.with {i : Nat} {cs : List PageCall} {α β : Type} {m : M α} {f : α → M β} {Q : α → Prop} {ds : List PageCall}
    (hm : Obeys i cs m) (hy : Yields m Q) (hf : ∀ a, Q a → Obeys i ds (f a)) : Obeys i (cs ++ ds) (m >>= f) := by
  intro s b s' hs hi e
  rw [M.bind_run, M.bind] at e
  cases hx : m s with
  | mk r s1 =>
    rw [hx] at e
    cases r with
    | ok a =>
      have h1 := hm s a s1 hs hi hx
      exact h1.trans (W := ⟨fun _ => none, fun _ => none, fun _ _ => none, false⟩)
        (hf a (hy s a s1 hx) s1 b s' (h1.1.2.1.2 hs) (Nat.lt_of_lt_of_le hi h1.1.1.1.1) e) hs hi
    | err _ => cases e
    | panic => cases e
    | more => cases e

theorem convertAll_section {k k' i : Nat} {inc : Inc} {ns : List Node} (hl : arityOk Base.section.sig ns.length = true) :
    Obeys i [] (convertAll W k i Base.section.sig.1 Base.section.sig.2 (evalArgs W k' inc ns)) := by
  cases ns with
  | nil => exact obeys_pure _
  | cons n ns =>
    cases ns with
    | nil => exact obeys_const fun _ => rfl
    | cons m ns => simp [arityOk, Base.sig] at hl

theorem findMethod_other {name : Str} (hb : baseMethods.lookup name = none) : ∀ {ps : List Nat} {m : Method},
    findMethod W name ps = some m → ∃ f p, m = .foreign f ∧ W.foreign p name = some f
  | [], m, h => by cases h
  | p :: ps, m, h => by
    rw [findMethod] at h
    cases p with
    | zero =>
      rw [methodOf, hb] at h
      exact findMethod_other hb h
    | succ p =>
      rw [methodOf] at h
      · cases hf : W.foreign (p + 1) name with
        | none => rw [hf] at h; exact findMethod_other hb h
        | some f => rw [hf] at h; cases h; exact ⟨f, p + 1, rfl, hf⟩
      · intro e; cases e

theorem obeys_invoke (hW : W.Plain) {k : Nat} {inc : Inc} (hi : ∀ j q, q ≠ [] → Keeps Unsplit j (inc j q)) (hinc : IncSame inc)
    {fn : Str} {loc : Location} {ns : List Node} (h : ∀ n ∈ ns, ∀ i r, Obeys i n.pageCalls (evalNode W k inc n i r)) (i : Nat)
    (r : Content) : Obeys i (Node.pageCalls (.invoke fn ns loc)) (invokeFn W k inc fn loc (evalArgs W k inc ns) i r) := by
  have hev := args_ok (Unsplit.inv W) (k := k) hi ns
  rw [invokeFn]
  refine obeys_bind0 (?_ : Obeys i [] _) fun _ => obeys_bind0 (obeys_const fun _ => rfl) fun path => ?_
  · intro s a s' hs hlt e
    have hk := keeps_upd (Unsplit.inv W) (f := fun x => { x with invokeLoc := loc }) (fun _ => .invokeLoc loc) s hlt
    have hu : Untouched i (M.upd i fun x => { x with invokeLoc := loc }) := untouched_upd (fun _ => rfl) fun _ => rfl
    have hu := hu s hlt
    rw [e] at hk hu
    exact .same hk hu.2.1 hu.2.2
  · refine obeys_get' ?_
    rintro t s a s' hs hlt rfl e
    revert e
    have hp := (hs i hlt).2
    cases hpl : (t.heap.get i).plugins with
    | nil => rw [hpl] at hp; cases hp
    | cons p ps =>
      rw [hpl] at hp
      cases hp
      cases hm : findMethod W (methodName fn) (0 :: ps) with
      | none =>
        intro e
        cases e
      | some m =>
        dsimp only
        split
        · rename_i har
          rw [evalArgs_length] at har
          intro e
          refine (?_ : Obeys i _ _) t a s' hs hlt e
          rw [findMethod, methodOf] at hm
          cases hb : baseMethods.lookup (methodName fn) with
          | some b =>
            rw [hb] at hm
            cases hm
            obtain ⟨hsec, hpc⟩ := base_name hb
            rw [Node.pageCalls, ← hpc]
            have hcall : ∀ vs, (∀ a ∈ vs, EvKeeps (fun _ => True) Unsplit a) → Obeys i b.pageCalls (do
                let ret ← callMethod W k inc i (.base b) vs
                finish fn path loc r ret) := by
              intro vs hvs
              refine obeys_bindE ?_ fun ret => obeys_finish ret
              unfold callMethod
              split
              · intro s a s' _ _ e
                cases e
              · exact obeys_callBase hi hinc b vs hvs
            by_cases hbs : b = .section
            · rw [if_pos (hsec.1 hbs)]
              subst hbs
              exact (convertAll_section har).with (yields_convertAll _ _ _ hev) hcall
            · rw [if_neg fun h => hbs (hsec.2 h)]
              obtain ⟨h1, h2⟩ := base_sig b hbs
              refine (obeys_convertAll h2 _ _ h1 (fun hn => ?_) h).with (yields_convertAll _ _ _ hev) hcall
              simp only [Method.sig] at hn har
              simpa [arityOk, hn] using har
          | none =>
            rw [hb] at hm
            have hn : ∀ x, x = q%"Section" ∨ x = q%"SinglePage" ∨ x = q%"SplitSections" → methodName fn ≠ x := by
              rintro x hx rfl
              exact base_found hx hb
            rw [Node.pageCalls, if_neg (hn _ (.inl rfl)), if_neg (hn _ (.inr (.inl rfl))), if_neg (hn _ (.inr (.inr rfl)))]
            rw [List.append_nil]
            obtain ⟨f, p, rfl, hf⟩ := findMethod_other hb hm
            obtain ⟨h1, h2⟩ := hW _ _ _ hf
            refine obeys_bindE (obeys_convertAll h2 _ _ h1 (fun hn => ?_) h) fun vs =>
              obeys_bindE (obeys_const fun s => ?_) fun ret => obeys_finish ret
            · simp only [Method.sig] at har hn ⊢
              simpa [arityOk, hn] using har
            · unfold callMethod
              split <;> rfl
        · intro e
          cases e

mutual
theorem obeys_node (hW : W.Plain) {k : Nat} {inc : Inc} (hi : ∀ j q, q ≠ [] → Keeps Unsplit j (inc j q)) (hinc : IncSame inc) :
    ∀ (n : Node) (i : Nat) (r : Content), Obeys i n.pageCalls (evalNode W k inc n i r)
  | .str s, i, r => by rw [evalNode, Node.pageCalls]; exact obeys_pure _
  | .seq ns, i, r => by rw [evalNode, Node.pageCalls]; exact obeys_seq hW hi hinc ns i r
  | .para ls, i, r => by
    rw [evalNode, Node.pageCalls]
    exact obeys_bindE (obeys_lines hW hi hinc ls i) fun xs => obeys_finishPara xs
  | .pre ls, i, r => by
    rw [evalNode, Node.pageCalls]
    exact obeys_bindE (obeys_lines hW hi hinc ls i) fun xs => obeys_pure _
  | .invoke fn args loc, i, r => by
    rw [evalNode]
    exact obeys_invoke hW hi hinc (obeys_args hW hi hinc args) i r
theorem obeys_seq (hW : W.Plain) {k : Nat} {inc : Inc} (hi : ∀ j q, q ≠ [] → Keeps Unsplit j (inc j q)) (hinc : IncSame inc) :
    ∀ (ns : List Node) (i : Nat) (r : Content), Obeys i (Node.pageCalls.seq ns) (evalSeq W k inc ns i r)
  | [], i, r => by rw [evalSeq, Node.pageCalls.seq]; exact obeys_pure _
  | n :: ns, i, r => by
    rw [evalSeq, Node.pageCalls.seq]
    exact obeys_bind (obeys_node hW hi hinc n i r) fun r' => obeys_seq hW hi hinc ns i r'
theorem obeys_lines (hW : W.Plain) {k : Nat} {inc : Inc} (hi : ∀ j q, q ≠ [] → Keeps Unsplit j (inc j q)) (hinc : IncSame inc) :
    ∀ (ls : List (List Node)) (i : Nat), Obeys i (Node.pageCalls.lines ls) (evalLines W k inc ls i)
  | [], i => by rw [evalLines, Node.pageCalls.lines]; exact obeys_pure _
  | l :: ls, i => by
    rw [evalLines, Node.pageCalls.lines]
    exact obeys_bind (obeys_seq hW hi hinc l i _) fun x => obeys_bindE (obeys_lines hW hi hinc ls i) fun xs => obeys_pure _
theorem obeys_args (hW : W.Plain) {k : Nat} {inc : Inc} (hi : ∀ j q, q ≠ [] → Keeps Unsplit j (inc j q)) (hinc : IncSame inc) :
    ∀ (ns : List Node), ∀ n ∈ ns, ∀ i r, Obeys i n.pageCalls (evalNode W k inc n i r)
  | [], n, hn, _, _ => by cases hn
  | m :: ns, n, hn, i, r => by
    rcases List.mem_cons.1 hn with e | hn
    · rw [e]; exact obeys_node hW hi hinc m i r
    · exact obeys_args hW hi hinc ns n hn i r
end

end Booklit
