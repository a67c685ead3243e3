import Verif.Lemmas.Frame
import Verif.Lemmas.InvokeL
import Verif.Spec.LastCall
import Verif.Spec.Calls

/-!
The location that a section remembers while its text is evaluated (C38).
-/

namespace Booklit

/-- The section `i` remembers `l`. -/
structure Post (i : Nat) (s s' : St) (l : Location) : Prop where
  len : s.heap.length ≤ s'.heap.length
  head : (s.heap.get i).plugins.head? = some 0 → (s'.heap.get i).plugins.head? = some 0
  loc : (s'.heap.get i).invokeLoc = l

/-- `m` leaves the location that `i` remembers as it is. -/
def Kept (i : Nat) {α : Type} (m : M α) : Prop := ∀ s, i < s.heap.length → Post i s (m s).2 (s.heap.get i).invokeLoc

theorem Post.refl (i : Nat) (s : St) : Post i s s (s.heap.get i).invokeLoc := ⟨Nat.le_refl _, id, rfl⟩

theorem Post.trans {i : Nat} {s s' s'' : St} {l l' : Location} (h : Post i s s' l) (h' : Post i s' s'' l') : Post i s s'' l' :=
  ⟨Nat.le_trans h.len h'.len, fun hh => h'.head (h.head hh), h'.loc⟩

theorem Post.next {i : Nat} {s s' s'' : St} {l : Location} (h : Post i s s' l) (h' : Post i s' s'' (s'.heap.get i).invokeLoc) : Post i s s'' l :=
  ⟨Nat.le_trans h.len h'.len, fun hh => h'.head (h.head hh), by rw [h'.loc, h.loc]⟩

theorem kept_const {i : Nat} {α : Type} {m : M α} (h : ∀ s, (m s).2 = s) : Kept i m := fun s _ => by rw [h]; exact .refl i s

theorem kept_pure {i : Nat} {α : Type} (a : α) : Kept i (Pure.pure a : M α) := kept_const fun _ => rfl

theorem kept_bind {i : Nat} {α β : Type} {m : M α} {f : α → M β} (hm : Kept i m) (hf : ∀ a, Kept i (f a)) : Kept i (m >>= f) := by
  intro s hs
  have h1 := hm s hs
  rw [M.bind_run, M.bind]
  revert h1
  cases hx : m s with
  | mk r s' =>
    cases r with
    | ok a =>
      intro h1
      exact h1.next (hf a s' (Nat.lt_of_lt_of_le hs h1.len))
    | _ => exact id

theorem kept_get {i : Nat} {α : Type} {f : St → M α} (h : ∀ s, i < s.heap.length → Post i s (f s s).2 (s.heap.get i).invokeLoc) :
    Kept i (M.get >>= f) := fun s hs => h s hs

theorem post_upd {i : Nat} {f : Sec → Sec} (h1 : ∀ x, (f x).invokeLoc = x.invokeLoc)
    (h2 : ∀ x, x.plugins.head? = some 0 → (f x).plugins.head? = some 0) {s : St} (hs : i < s.heap.length) :
    Post i s { s with heap := s.heap.upd i f } (s.heap.get i).invokeLoc := by
  refine ⟨by simp [Heap.length_upd], fun h => ?_, ?_⟩
  · show ((s.heap.upd i f).get i).plugins.head? = _
    rw [Heap.get_upd_eq _ _ hs]; exact h2 _ h
  · show ((s.heap.upd i f).get i).invokeLoc = _
    rw [Heap.get_upd_eq _ _ hs]; exact h1 _

theorem kept_upd {i : Nat} {f : Sec → Sec} (h1 : ∀ x, (f x).invokeLoc = x.invokeLoc)
    (h2 : ∀ x, x.plugins.head? = some 0 → (f x).plugins.head? = some 0) : Kept i (M.upd i f) := fun _ hs => post_upd h1 h2 hs

theorem kept_attempt {i : Nat} {α : Type} {m : M α} (h : Kept i m) : Kept i (M.attempt m) := by
  intro s hs
  have h1 := h s hs
  rw [M.attempt]
  revert h1
  cases hx : m s with
  | mk r s' => cases r <;> exact id

variable {W : World}

theorem post_frame {i c : Nat} {s s' : St} (hi : i < s.heap.length) (hc : i ≠ c) (h : Frame c s s') : Post i s s' (s.heap.get i).invokeLoc := by
  have := h.2 i hi hc
  exact ⟨h.1, by rw [this]; exact id, by rw [this]⟩

theorem kept_inline (W : World) {i : Nat} {ev : Ev} (h : EvOk (fun _ => True) Grow ev) : Kept i (evalInline i ev) := by
  intro s hs
  rw [evalInline_run]
  have hb := (keeps_body (Grow.inv W) (c := s.heap.length) h (s.inline i) (by simp [St.inline])).1
  revert hb
  cases evalBody ev s.heap.length (s.inline i) with
  | mk r s' =>
    intro hb
    have h0 : Post i s (s.inline i) (s.heap.get i).invokeLoc := by
      have e : (s.inline i).heap.get i = s.heap.get i := Heap.get_append_lt _ _ hs
      exact ⟨by simp [St.inline], by rw [e]; exact id, by rw [e]⟩
    have h1 := post_frame (i := i) (by simp [St.inline]; omega) (by omega) hb
    have h2 := h0.next h1
    cases r with
    | ok _ =>
      dsimp only
      have hc : s.heap.length < s'.heap.length := Nat.lt_of_lt_of_le (by simp [St.inline]) hb.1
      have f1 : Frame s.heap.length s' { s' with heap := s'.heap.upd s.heap.length fun x => { x with loc := (s'.heap.get i).invokeLoc } } := Frame.upd _ _ _
      have h3 := post_frame (i := i) (Nat.lt_of_lt_of_le hs h2.len) (by omega) f1
      have h4 := h2.next h3
      have h5 := post_upd (i := i) (f := fun x => { x with children := x.children ++ [s.heap.length] }) (fun _ => rfl) (fun _ => id)
        (s := { s' with heap := s'.heap.upd s.heap.length fun x => { x with loc := (s'.heap.get i).invokeLoc } })
        (Nat.lt_of_lt_of_le hs h4.len)
      exact h4.next h5
    | _ => exact h2

theorem kept_incl (n i : Nat) (q : Str) : Kept i (incl W n i q) := by
  intro s hs
  simp only [incl, M.bind_run, M.bind]
  have h0 : Post i s (s.file (some i) q [0]) (s.heap.get i).invokeLoc := by
    have e : (s.file (some i) q [0]).heap.get i = s.heap.get i := Heap.get_append_lt _ _ hs
    exact ⟨by simp [St.file], by rw [e]; exact id, by rw [e]⟩
  have key : ∀ {s'}, Grow s.heap.length (s.file (some i) q [0]) s' → Post i s s' (s.heap.get i).invokeLoc := fun g => by
    have h1 := post_frame (i := i) (by simp [St.file]; omega) (by omega) g.1
    exact h0.next h1
  rcases keeps_file (Grow.inv W) n (some i) q [0] s with ⟨e, h⟩ | h | h | ⟨s', ⟨h1, h2⟩ | ⟨h1, h2, h3⟩⟩
  · rw [h]; exact .refl i s
  · rw [h]; exact .refl i s
  · rw [h]; exact .refl i s
  · rw [h1]
    have h4 := key h2
    have h5 := post_upd (i := i) (f := fun x => { x with children := x.children ++ [s.heap.length] }) (fun _ => rfl) (fun _ => id)
      (Nat.lt_of_lt_of_le hs h4.len)
    exact h4.next h5
  · cases hx : evalFile W n (some i) q [0] s with
    | mk r s1 =>
      rw [hx] at h1 h2
      dsimp only at h2
      subst h2
      cases r with
      | ok a => exact absurd rfl (h1 a)
      | _ => exact key h3

theorem kept_callBase {k i n : Nat} (b : Base) (args : List ArgV) (ha : ∀ a ∈ args, EvKeeps (fun _ => True) Grow a) :
    Kept i (callBase W k (incl W n) i b args) := by
  unfold callBase
  split
  · split
    · exact kept_pure _
    · refine kept_bind (kept_upd (fun _ => rfl) fun x h => ?_) fun _ => kept_pure _
      rw [Sec.usePlugin, List.head?_append, h]; rfl
  · exact kept_bind (kept_upd (fun _ => rfl) fun _ => id) fun _ => kept_pure _
  · next title tags =>
    refine kept_get fun s hs => ?_
    by_cases he : (s.heap.get i).title.isEmpty = true
    · rw [if_pos he, M.bind_run, M.bind]
      have e1 := titleNames_state (W := W) (k := k) title (strArgs tags) s
      cases hm : titleNames W k title (strArgs tags) s with
      | mk r s' =>
        rw [hm] at e1
        dsimp only at e1
        subst e1
        cases r with
        | ok names => exact kept_bind (m := setTitle i title (s'.heap.get i).invokeLoc names) (kept_upd (fun _ => rfl) fun _ => id) (fun _ => kept_pure _) s' hs
        | _ => exact .refl i s'
    · rw [if_neg he]
      exact kept_bind (m := filePathM i) (kept_const fun _ => rfl) (fun _ => kept_pure _) s hs
  · exact kept_pure _
  · next n ev =>
    refine kept_bind (kept_attempt (kept_inline W ?_)) fun _ => kept_pure _
    exact ha (.node n ev) (by simp)
  · exact kept_bind (m := filePathM i) (kept_const fun _ => rfl) fun f => kept_bind (kept_attempt (kept_incl n i _)) fun _ => kept_pure _
  · exact kept_bind (kept_upd (fun _ => rfl) fun _ => id) fun _ => kept_pure _
  · refine kept_bind (kept_upd (fun _ => rfl) fun _ => id) fun _ => kept_get fun s hs => ?_
    cases hp : s.heap.splitPrevented (s.heap.length + 1) i with
    | none => exact .refl i s
    | some b =>
      cases b with
      | true => exact .refl i s
      | false => exact post_upd (f := fun x => { x with split := true }) (fun _ => rfl) (fun _ => id) hs
  · exact kept_bind (kept_upd (fun _ => rfl) fun _ => id) fun _ => kept_pure _
  · exact kept_pure _
  · exact kept_pure _
  · exact kept_pure _
  · exact kept_const fun _ => rfl
  · exact kept_const fun _ => rfl
  · exact kept_pure _
  · exact kept_pure _
  · exact kept_pure _
  · exact kept_bind (kept_upd (fun _ => rfl) fun _ => id) fun _ => kept_pure _
  · split <;> exact kept_pure _
  · exact kept_pure _
  · split <;> exact kept_pure _
  · exact kept_pure _
  · exact kept_const fun _ => rfl

theorem kept_callMethod {k i n : Nat} (m : Method) (args : List ArgV) (ha : ∀ a ∈ args, EvKeeps (fun _ => True) Grow a) :
    Kept i (callMethod W k (incl W n) i m args) := by
  unfold callMethod
  split
  · exact kept_const fun _ => rfl
  · cases m with
    | base b => exact kept_callBase b args ha
    | foreign f => exact kept_const fun _ => rfl

theorem kept_finish {i : Nat} {fn path : Str} {loc : Location} {r : Content} (ret : Ret) : Kept i (finish fn path loc r ret) := by
  refine kept_const fun s => ?_
  rw [finish.eq_def]
  split <;> first | rfl | (split <;> rfl)

theorem base_section {name : Str} (h : baseMethods.lookup name = some .section) : name = q%"Section" := by
  obtain ⟨l₁, l₂, e, -⟩ := List.lookup_eq_some_iff.mp h
  have : (name, Base.section) ∈ baseMethods := by rw [e]; simp
  simpa [baseMethods] using this

theorem Base.sig_node {b : Base} (h : b ≠ .section) : Ty.node ∉ b.sig.1 ∧ b.sig.2 ≠ some .node := by
  cases b <;> simp_all [Base.sig]

theorem findMethod_section {ps : List Nat} (h0 : ps.head? = some 0) : findMethod W q%"Section" ps = some (.base .section) := by
  cases ps with
  | nil => cases h0
  | cons p ps => cases h0; rfl

theorem findMethod_sig (hW : W.NoNodes) {name : Str} : ∀ {ps : List Nat} {m : Method}, findMethod W name ps = some m → name ≠ q%"Section" →
    Ty.node ∉ m.sig.1 ∧ m.sig.2 ≠ some .node
  | [], _, h, _ => by cases h
  | p :: ps, m, h, hn => by
    rw [findMethod] at h
    cases p with
    | zero =>
      simp only [methodOf] at h
      cases hl : baseMethods.lookup name with
      | none => rw [hl] at h; exact findMethod_sig hW h hn
      | some b =>
        rw [hl] at h
        cases h
        exact Base.sig_node fun e => hn (base_section (e ▸ hl))
    | succ p =>
      simp only [methodOf] at h
      cases hl : W.foreign (p + 1) name with
      | none => rw [hl] at h; exact findMethod_sig hW h hn
      | some f => rw [hl] at h; cases h; exact hW _ _ _ hl

theorem evalArgs_ok {k n : Nat} (args : List Node) : ∀ a ∈ evalArgs W k (incl W n) args, EvOk (fun _ => True) Grow a.2 := by
  induction args with
  | nil => intro a h; rw [evalArgs] at h; cases h
  | cons x xs ih =>
    intro a h
    rw [evalArgs] at h
    rcases List.mem_cons.1 h with rfl | h
    · exact node_ok (Grow.inv W) (keeps_incl (Grow.inv W) n) x
    · exact ih a h

theorem length_evalArgs {k : Nat} {inc : Inc} (args : List Node) : (evalArgs W k inc args).length = args.length := by
  induction args with
  | nil => rw [evalArgs]; rfl
  | cons x xs ih => rw [evalArgs]; simp [ih]

/-- What evaluation of `ev` leaves remembered. -/
def Leaves (i : Nat) {α : Type} (m : M α) (f : Location → Location) : Prop := ∀ s a s', i < s.heap.length → (s.heap.get i).plugins.head? = some 0 →
  m s = (.ok a, s') → Post i s s' (f (s.heap.get i).invokeLoc)

theorem leaves_bind {i : Nat} {α β : Type} {m : M α} {g : α → M β} {f f' : Location → Location} (h : Leaves i m f) (h' : ∀ a, Leaves i (g a) f') :
    Leaves i (m >>= g) fun l => f' (f l) := by
  intro s b s' hi h0 e
  rw [M.bind_run, M.bind] at e
  cases hx : m s with
  | mk r s1 =>
    rw [hx] at e
    cases r with
    | ok a =>
      have p1 := h s a s1 hi h0 hx
      have p2 := h' a s1 b s' (Nat.lt_of_lt_of_le hi p1.len) (p1.head h0) e
      rw [p1.loc] at p2
      exact p1.trans p2
    | _ => cases e

theorem leaves_then {i : Nat} {α β : Type} {m : M α} {g : α → M β} {f f' f'' : Location → Location} (h : Leaves i m f) (h' : ∀ a, Leaves i (g a) f')
    (hf : ∀ l, f'' l = f' (f l)) : Leaves i (m >>= g) f'' := by
  rw [show f'' = fun l => f' (f l) from funext hf]
  exact leaves_bind h h'

theorem Kept.leaves {i : Nat} {α : Type} {m : M α} (h : Kept i m) : Leaves i m id := by
  intro s a s' hi _ e
  have := h s hi
  rw [e] at this
  exact this

theorem leaves_convert {k i : Nat} {t : Ty} {n : Node} {ev : Ev} {f : Location → Location} (ht : t ≠ .node) (h : ∀ r, Leaves i (ev i r) f) :
    Leaves i (convert W k i t (n, ev)) f := by
  cases t with
  | string =>
    refine leaves_then (h _) (fun c => Kept.leaves (kept_get fun s hs => ?_)) fun _ => rfl
    exact kept_bind (kept_const fun _ => rfl) (fun _ => kept_pure _) s hs
  | content => exact leaves_then (h _) (fun c => (kept_pure _).leaves) fun _ => rfl
  | node => exact absurd rfl ht
  | other => intro s a s' _ _ e; cases e

/-- A call that succeeds: the method runs in a state that remembers the last call written in the arguments. -/
theorem invoke_sees (hW : W.NoNodes) {k n i : Nat} {fn : Str} {args : List Node} {loc : Location} {r : Content}
    (ih : ∀ ts v, Ty.node ∉ ts → v ≠ some .node → (v = none → args.length ≤ ts.length) →
      Leaves i (convertAll W k i ts v (evalArgs W k (incl W n) args)) (lastCalls args))
    {s s' : St} {a : Content} (hi : i < s.heap.length) (h0 : (s.heap.get i).plugins.head? = some 0)
    (e : evalNode W k (incl W n) (.invoke fn args loc) i r s = (.ok a, s')) :
    ∃ path m vals s1, findMethod W (methodName fn) (s.heap.get i).plugins = some m ∧
      convertAll W k i m.sig.1 m.sig.2 (evalArgs W k (incl W n) args) (s.calling i loc) = (.ok vals, s1) ∧
      Post i s s1 ((Node.invoke fn args loc).lastCall (s.heap.get i).invokeLoc) ∧
      (callMethod W k (incl W n) i m vals >>= finish fn path loc r) s1 = (.ok a, s') := by
  rw [invoke_run] at e
  have hc : Post i s (s.calling i loc) loc := by
    refine ⟨by rw [St.length_calling]; exact Nat.le_refl _, fun h => ?_, ?_⟩
    · rw [show ((s.calling i loc).heap.get i).plugins = (s.heap.get i).plugins from
        Heap.get_field s.heap i i (fun x => { x with invokeLoc := loc }) Sec.plugins fun _ => rfl]
      exact h
    · rw [St.calling]
      show ((s.heap.upd i _).get i).invokeLoc = _
      rw [Heap.get_upd_eq _ _ hi]
  cases hp : s.heap.filePath (s.heap.length + 1) i with
  | none => rw [hp] at e; cases e
  | some path =>
    rw [hp] at e
    dsimp only at e
    cases hm : findMethod W (methodName fn) (s.heap.get i).plugins with
    | none => rw [hm] at e; cases e
    | some m =>
      rw [hm] at e
      dsimp only at e
      split at e
      · next har =>
        rw [M.bind_run, M.bind] at e
        cases hx : convertAll W k i m.sig.1 m.sig.2 (evalArgs W k (incl W n) args) (s.calling i loc) with
        | mk rv s1 =>
          rw [hx] at e
          cases rv with
          | ok vals =>
            dsimp only at e
            refine ⟨path, m, vals, s1, rfl, hx, hc.trans (s' := s.calling i loc) ?_, e⟩
            rw [Node.lastCall]
            by_cases hs : methodName fn = q%"Section"
            · rw [if_pos hs]
              rw [hs, findMethod_section h0] at hm
              cases hm
              have : s1 = s.calling i loc := by
                simp only [Method.sig, Base.sig] at hx har
                rcases args with _ | ⟨x, _ | ⟨y, ys⟩⟩
                · simp [arityOk] at har
                · rw [evalArgs, evalArgs] at hx
                  cases hx; rfl
                · simp [arityOk] at har
              subst this
              have := Post.refl i (s.calling i loc)
              rw [hc.loc] at this
              exact this
            · rw [if_neg hs]
              obtain ⟨t1, t2⟩ := findMethod_sig hW hm hs
              have := ih m.sig.1 m.sig.2 t1 t2 (fun hv => by
                rw [arityOk, hv] at har
                have : m.sig.1.length = args.length := by simpa using har
                omega) _ _ _ (Nat.lt_of_lt_of_le hi hc.len) (hc.head h0) hx
              rw [hc.loc] at this
              exact this
          | _ => cases e
      · cases e

theorem leaves_invoke (hW : W.NoNodes) {k n i : Nat} {fn : Str} {args : List Node} {loc : Location} {r : Content}
    (ih : ∀ ts v, Ty.node ∉ ts → v ≠ some .node → (v = none → args.length ≤ ts.length) →
      Leaves i (convertAll W k i ts v (evalArgs W k (incl W n) args)) (lastCalls args)) :
    Leaves i (evalNode W k (incl W n) (.invoke fn args loc) i r) ((Node.invoke fn args loc).lastCall) := by
  intro s a s' hi h0 e
  obtain ⟨path, m, vals, s1, -, hx, p2, e'⟩ := invoke_sees hW ih hi h0 e
  have hy := yields_convertAll (W := W) (P := fun _ => True) (R := Grow) (k := k) (i := i) m.sig.1 m.sig.2 (evalArgs W k (incl W n) args)
    (evalArgs_ok args)
  have p3 := (kept_bind (kept_callMethod (W := W) (k := k) (i := i) (n := n) m vals (hy _ _ _ hx)) fun ret =>
    kept_finish (fn := fn) (path := path) (loc := loc) (r := r) ret) s1 (Nat.lt_of_lt_of_le hi p2.len)
  rw [e'] at p3
  exact p2.next p3

mutual
theorem leaves_node (hW : W.NoNodes) {k n i : Nat} : ∀ (x : Node) (r : Content), Leaves i (evalNode W k (incl W n) x i r) x.lastCall
  | .str s, r => by
    rw [evalNode]
    exact (kept_pure _).leaves
  | .seq ns, r => by
    rw [evalNode]
    exact leaves_seq hW ns r
  | .para ls, r => by
    rw [evalNode]
    refine leaves_then (leaves_lines hW ls) (fun items => Kept.leaves (kept_const fun s => ?_)) fun l => by rw [Node.lastCall]; rfl
    rw [finishPara.eq_def]
    split
    · rfl
    · next x =>
      cases isFlow x with
      | none => rfl
      | some b => cases b <;> rfl
    · rfl
  | .pre ls, r => by
    rw [evalNode]
    exact leaves_then (leaves_lines hW ls) (fun items => (kept_pure _).leaves) fun l => by rw [Node.lastCall]; rfl
  | .invoke fn args loc, r => leaves_invoke hW fun ts v => leaves_args hW args ts v
theorem leaves_seq (hW : W.NoNodes) {k n i : Nat} : ∀ (ns : List Node) (r : Content), Leaves i (evalSeq W k (incl W n) ns i r) (lastCalls ns)
  | [], r => by
    rw [evalSeq]
    exact (kept_pure _).leaves
  | x :: ns, r => by
    rw [evalSeq]
    exact leaves_then (leaves_node hW x r) (fun r' => leaves_seq hW ns r') fun l => by rw [lastCalls]
theorem leaves_lines (hW : W.NoNodes) {k n i : Nat} : ∀ (ls : List (List Node)), Leaves i (evalLines W k (incl W n) ls i) (lastLines ls)
  | [] => by
    rw [evalLines]
    exact (kept_pure _).leaves
  | l :: ls => by
    rw [evalLines]
    exact leaves_then (leaves_seq hW l .nil) (fun x => leaves_then (leaves_lines hW ls) (fun xs => (kept_pure _).leaves) fun _ => rfl)
      fun l => by rw [lastLines]; rfl
theorem leaves_args (hW : W.NoNodes) {k n i : Nat} : ∀ (args : List Node) (ts : List Ty) (v : Option Ty), Ty.node ∉ ts → v ≠ some .node →
    (v = none → args.length ≤ ts.length) → Leaves i (convertAll W k i ts v (evalArgs W k (incl W n) args)) (lastCalls args)
  | [], ts, v, _, _, _ => by
    rw [evalArgs]
    cases ts <;> cases v <;> exact (kept_pure _).leaves
  | x :: xs, t :: ts, v, h1, h2, h3 => by
    rw [evalArgs, convertAll]
    refine leaves_then (leaves_convert (fun e => h1 (by simp [e])) fun r => leaves_node hW x r) (fun a => leaves_then
      (leaves_args hW xs ts v (fun h => h1 (List.mem_cons_of_mem _ h)) h2 fun hv => ?_) (fun as => (kept_pure _).leaves) fun _ => rfl)
      fun l => by rw [lastCalls]; rfl
    have := h3 hv
    simpa using this
  | x :: xs, [], some t, h1, h2, h3 => by
    rw [evalArgs, convertAll]
    exact leaves_then (leaves_convert (fun e => h2 (by rw [e])) fun r => leaves_node hW x r) (fun a => leaves_then
      (leaves_args hW xs [] (some t) h1 h2 fun hv => by cases hv) (fun as => (kept_pure _).leaves) fun _ => rfl)
      fun l => by rw [lastCalls]; rfl
  | x :: xs, [], none, _, _, h3 => by
    have := h3 rfl
    simp at this
end

mutual
theorem lastCall_free : ∀ (n : Node) (l : Location), n.callFree = true → n.lastCall l = l
  | .str _, l, _ => rfl
  | .seq ns, l, h => lastCalls_free ns l h
  | .para ls, l, h => lastLines_free ls l h
  | .pre ls, l, h => lastLines_free ls l h
  | .invoke _ _ _, _, h => by cases h
theorem lastCalls_free : ∀ (ns : List Node) (l : Location), callFreeL ns = true → lastCalls ns l = l
  | [], _, _ => rfl
  | n :: ns, l, h => by
    rw [callFreeL, Bool.and_eq_true] at h
    rw [lastCalls, lastCall_free n l h.1, lastCalls_free ns l h.2]
theorem lastLines_free : ∀ (ls : List (List Node)) (l : Location), callFreeLL ls = true → lastLines ls l = l
  | [], _, _ => rfl
  | ns :: ls, l, h => by
    rw [callFreeLL, Bool.and_eq_true] at h
    rw [lastLines, lastCalls_free ns l h.1, lastLines_free ls l h.2]
end

end Booklit
