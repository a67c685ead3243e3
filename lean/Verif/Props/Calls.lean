import Verif.Lemmas.CallsL
import Verif.Lemmas.ErrL

/-!
Calls of functions: C31, C33, C37, C38, C40, C41.
-/

namespace Booklit.Props

open Booklit

/-- One file `x.lit`, and a plugin `p` with some methods: `Hi` returns a text, `Where` the location it is called
from as a reference, `Bad` an error without location. -/
def oneFile (text : Str) : World where
  fs := fun p => if p = q%"x.lit" then some ⟨1, some text⟩ else none
  registry := fun n => if n = q%"p" then some 1 else none
  foreign := fun p n =>
    if p = 1 then
      if n = q%"Hi" then some ⟨[], none, fun _ _ _ => .content (.str q%"hi")⟩
      else if n = q%"Italic" then some ⟨[.content], none, fun _ _ _ => .content (.str q%"not italic")⟩
      else if n = q%"Where" then some ⟨[], some .content, fun h i _ => .content (.ref i [] .nil false (h.get i).invokeLoc)⟩
      else if n = q%"Bad" then some ⟨[], none, fun _ _ _ => .error (some (.plain q%"bad"))⟩
      else none
    else none
  brokenOk := false

/-- Loading it. -/
def loadText (text : Str) : Res Nat × St := loadFile (oneFile text) 5 none q%"x.lit" [0] ⟨[], []⟩

/-- The body of the loaded section satisfies a test. -/
def bodyIs (text : Str) (p : Content → Bool) : Bool :=
  match loadText text with
  | (.ok i, s) => p (s.heap.get i).body
  | _ => false

/-- Loading fails with such an error. -/
def errorIs (text : Str) (p : Err → Bool) : Bool :=
  match loadText text with
  | (.err e, _) => p e
  | _ => false

/-! ### C31 -/

/-- **C31**: a call runs the method of the first plugin, in order of use, that has it: here a method without
parameters of plugin `p`, when no plugin used before `p` has a method of that name. -/
theorem C31_first_plugin_runs (W : World) (k : Nat) (inc : Inc) (fn : Str) (loc : Location) (i : Nat) (r c : Content) (s : St)
    {path : Str} {pre post : List Nat} {p : Nat} {f : Foreign}
    (hp : s.heap.filePath (s.heap.length + 1) i = some path) (hps : (s.heap.get i).plugins = pre ++ p :: post)
    (hpre : ∀ q ∈ pre, methodOf W q (methodName fn) = none) (hf : methodOf W p (methodName fn) = some (.foreign f))
    (h0 : f.params = []) (hv : f.variadic = none) (hc : c.isNil = false)
    (hrun : ∀ h, f.run h i [] = .content c) :
    evalNode W k inc (.invoke fn [] loc) i r s = (.ok (append r [c]), s.calling i loc) := by
  rw [invoke_run, hp]
  rw [(findMethod_iff (methodName fn) (.foreign f) _).2 ⟨pre, p, post, hps, hpre, hf⟩]
  simp only [Method.sig, h0, hv, arityOk, List.length_nil, beq_self_eq_true, if_true, evalArgs, convertAll]
  simp only [M.bind_run, M.bind, M.pure_run, callMethod, List.any_nil, Bool.false_eq_true, if_false, List.map_nil, hrun, finish, hc]

/-- **C31**: which method a call finds. -/
theorem C31_lookup (W : World) (name : Str) (ps : List Nat) (m : Method) :
    findMethod W name ps = some m ↔
      ∃ pre p post, ps = pre ++ p :: post ∧ (∀ q ∈ pre, methodOf W q name = none) ∧ methodOf W p name = some m :=
  findMethod_iff name m ps

/-- **C31**: in every section of every state reached by loading documents, a base function runs the base method,
whatever plugins the section uses and whatever methods they have. -/
theorem C31_base_not_shadowed (W : World) {s : St} (h : Reach W s) {i : Nat} (hi : i < s.heap.length) {name : Str} {b : Base}
    (hb : baseMethods.lookup name = some b) : findMethod W name (s.heap.get i).plugins = some (.base b) :=
  findMethod_head hb (h.sound i hi).2

/-- **C31**: when no plugin of the section has the method the call is an undefined-function error that names the
function, the file and the location of the call; nothing is evaluated. -/
theorem C31_undefined (W : World) (k : Nat) (inc : Inc) (fn : Str) (args : List Node) (loc : Location) (i : Nat) (r : Content)
    (s : St) {path : Str} (hp : s.heap.filePath (s.heap.length + 1) i = some path)
    (h : ∀ p ∈ (s.heap.get i).plugins, methodOf W p (methodName fn) = none) :
    evalNode W k inc (.invoke fn args loc) i r s = (.err (.undefined fn path loc), s.calling i loc) := by
  rw [invoke_run, hp, (findMethod_none _ _).2 h]

example : bodyIs q%"\\use-plugin{p}\n\n\\hi\n" (fun c => match c with | .para [.str s] => s == q%"hi" | _ => false) = true := by
  decide +kernel

example : bodyIs q%"\\use-plugin{p}\n\n\\italic{x}\n" (fun c => match c with
    | .para [.styled s _ _ _] => s == q%"italic" | _ => false) = true := by decide +kernel

example : errorIs q%"\n\\section{\n  \\hi\n}\n" (fun e => match e with
    | .undefined fn path loc => fn == q%"hi" && path == q%"x.lit" && loc == ⟨3, 3, 13⟩ | _ => false) = true := by decide +kernel

/-! ### C33 -/

/-- **C33**: an error that has a location is reported unchanged by everything around: if evaluation from `p` comes to
evaluate from `q`, in any nesting of text, arguments, sections and files, and this gives a located error, then so
does the whole, and it is the same error. -/
theorem C33_located_unchanged (W : World) {p q : Point} (h : Inside W p q) {e : Err} {s' : St}
    (hq : q.run W = (.err e, s')) (he : e.pretty = true) : ∃ s'', p.run W = (.err e, s'') :=
  inside_err h he s' hq

/-- **C33**: no error is ever wrapped twice, provided the plugins do not return such errors themselves. -/
theorem C33_wrapped_at_most_once (W : World) (hW : ∀ p name f h i args e c, W.foreign p name = some f →
      f.run h i args = .error (some e) ∨ f.run h i args = .both c (some e) → e.onceWrapped = true)
    {n : Nat} {parent : Option Nat} {path : Str} {plugins : List Nat} {s s' : St} {e : Err}
    (h : evalFile W n parent path plugins s = (.err e, s')) : e.onceWrapped = true := by
  have E : ErrInv W fun e => e.onceWrapped = true := by
    constructor
    · intros; rfl
    · intros; rfl
    · intros; rfl
    · intros; rfl
    · intro e fn p l hp _; simp [Err.onceWrapped, hp]
    · intro p name f h i args e hf
      exact ⟨fun hr => hW p name f h i args e .nil hf (.inl hr), fun c hr => hW p name f h i args e c hf (.inr hr)⟩
  exact errs_file E n parent path plugins s e s' h

/-- **C33** (partial): an error without location that a method returns is reported with the function, the file and the
location of its own call. What is missing: an error about the number or types of the arguments, see `C33_false`. -/
theorem C33_own_location_partial (W : World) (k : Nat) (inc : Inc) (fn : Str) (loc : Location) (i : Nat) (r : Content) (s : St)
    {path : Str} {f : Foreign} {e : Err} (hp : s.heap.filePath (s.heap.length + 1) i = some path)
    (hf : findMethod W (methodName fn) (s.heap.get i).plugins = some (.foreign f))
    (h0 : f.params = []) (hv : f.variadic = none) (he : e.pretty = false)
    (hrun : ∀ h, f.run h i [] = .error (some e)) :
    evalNode W k inc (.invoke fn [] loc) i r s = (.err (.failed fn e path loc), s.calling i loc) := by
  rw [invoke_run, hp, hf]
  simp only [Method.sig, h0, hv, arityOk, List.length_nil, beq_self_eq_true, if_true, evalArgs, convertAll]
  simp only [M.bind_run, M.bind, M.pure_run, callMethod, List.any_nil, Bool.false_eq_true, if_false, List.map_nil, hrun, finish]
  simp [returnedError, he, M.lift]

/-- **C33**: as stated it does not hold: `\italic` without its argument fails without a location, and is reported
as the failure of the `\section` around it, at another line. -/
theorem C33_false : errorIs q%"\n\\section{\n  \\italic\n}\n" (fun e => match e with
    | .failed fn (.plain _) _ loc => fn == q%"section" && loc.line == 2 | _ => false) = true := by decide +kernel

example : errorIs q%"\\use-plugin{p}\n\n\\section{\n  \\section{\n  \\italic{\\bad}\n}\n}\n" (fun e => match e with
    | .failed fn (.plain _) _ loc => fn == q%"bad" && loc.line == 5 | _ => false) = true := by decide +kernel

/-! ### C37 -/

/-- **C37**: a call with a number of arguments the method does not accept is an error; no argument is evaluated and
the method does not run. -/
theorem C37_arity (W : World) (k : Nat) (inc : Inc) (fn : Str) (args : List Node) (loc : Location) (i : Nat) (r : Content)
    (s : St) {path : Str} {m : Method} (hp : s.heap.filePath (s.heap.length + 1) i = some path)
    (hm : findMethod W (methodName fn) (s.heap.get i).plugins = some m) (ha : ¬ Accepts m.sig args.length) :
    ∃ e, evalNode W k inc (.invoke fn args loc) i r s = (.err e, s.calling i loc) := by
  rw [invoke_run, hp, hm]
  dsimp only
  rw [if_neg (by rw [arityOk_iff]; exact ha)]
  exact ⟨_, rfl⟩

/-- **C37**: a method may rely on its arguments: if it returns `c` on all well-typed lists of arguments (and does
whatever else on others), every successful call returns `c`. -/
theorem C37_well_typed (W : World) (k : Nat) (inc : Inc) (fn : Str) (args : List Node) (loc : Location) (i : Nat) (r c : Content)
    (s : St) {f : Foreign} (hm : findMethod W (methodName fn) (s.heap.get i).plugins = some (.foreign f))
    (hf : ∀ h vals, WellTyped (f.params, f.variadic) args vals → f.run h i vals = .content c)
    {r' : Content} {s' : St} (h : evalNode W k inc (.invoke fn args loc) i r s = (.ok r', s')) :
    r' = append r [c] ∧ Accepts (f.params, f.variadic) args.length := by
  rw [invoke_run] at h
  cases hp : s.heap.filePath (s.heap.length + 1) i with
  | none => rw [hp] at h; cases h
  | some path =>
    rw [hp, hm] at h
    dsimp only at h
    split at h
    · next ha =>
      have hA := (arityOk_iff _ _).1 ha
      simp only [M.bind_run, M.bind] at h
      cases hc : convertAll W k i (Method.sig (.foreign f)).1 (Method.sig (.foreign f)).2 (evalArgs W k inc args) (s.calling i loc) with
      | mk x s1 =>
        rw [hc] at h
        cases x with
        | err _ => cases h
        | panic => cases h
        | more => cases h
        | ok vals =>
          dsimp only at h
          unfold callMethod at h
          by_cases hz : vals.any ArgV.isZero = true
          · rw [if_pos hz] at h; cases h
          · rw [if_neg hz] at h
            have hA' : Accepts (f.params, f.variadic) args.length := hA
            obtain ⟨l1, l2⟩ := convertAll_typed f.variadic args f.params (s.calling i loc) s1 vals
              (fun e => by rcases hA' with h | h
                           · exact h.2
                           · exact absurd e h.1)
              (fun e => by rcases hA' with h | h
                           · exact absurd h.1 e
                           · exact h.2) hc (by simpa using hz)
            have hw : WellTyped (f.params, f.variadic) args (vals.map ArgV.raw) := by
              refine ⟨by rw [List.length_map, l1]; exact hA', by rw [List.length_map, l1], fun j n v hn hv => ?_⟩
              rw [List.getElem?_map] at hv
              cases hj : vals[j]? with
              | none => rw [hj] at hv; cases hv
              | some y => rw [hj] at hv; cases hv; exact l2 j n y hn hj
            simp only [hf _ _ hw, finish] at h
            split at h
            · cases h
            · simp only [M.pure_run] at h
              injection h with h1 _
              injection h1 with h1
              exact ⟨h1.symm, hA'⟩
    · cases h

example : bodyIs q%"\\use-plugin{p}\n\n\\where{a}{b}\n" (fun c => match c with | .para [.ref _ _ _ _ _] => true | _ => false) = true := by
  decide +kernel

example : errorIs q%"\\link{a}\n" (fun e => match e with | .plain _ => true | _ => false) = true := by decide +kernel

/-! ### C38 -/

/-- **C38** (partial): a method of a plugin that answers with (something made from) the location it sees, called with
arguments that contain no calls, sees the location of its own call. What is missing: arguments with calls, see
`C38_false`. -/
theorem C38_own_location_partial (W : World) (k : Nat) (inc : Inc) (fn : Str) (args : List Node) (loc : Location) (i : Nat)
    (r : Content) (s : St) (hi : i < s.heap.length) (ha : ∀ a ∈ args, a.callFree = true) {f : Foreign}
    (hm : findMethod W (methodName fn) (s.heap.get i).plugins = some (.foreign f)) (answer : Location → Content)
    (hf : ∀ h vals, f.run h i vals = .content (answer (h.get i).invokeLoc))
    {r' : Content} {s' : St} (h : evalNode W k inc (.invoke fn args loc) i r s = (.ok r', s')) :
    r' = append r [answer loc] := by
  rw [invoke_run] at h
  cases hp : s.heap.filePath (s.heap.length + 1) i with
  | none => rw [hp] at h; cases h
  | some path =>
    rw [hp, hm] at h
    dsimp only at h
    split at h
    · simp only [M.bind_run, M.bind] at h
      have hst := convertAll_state (W := W) (k := k) (i := i) (Method.sig (.foreign f)).2 (evalArgs W k inc args)
        (Method.sig (.foreign f)).1 (s.calling i loc) (evalArgs_callFree args ha)
      revert h hst
      cases convertAll W k i (Method.sig (.foreign f)).1 (Method.sig (.foreign f)).2 (evalArgs W k inc args) (s.calling i loc) with
      | mk x s1 =>
        intro h hst
        dsimp only at hst
        subst hst
        cases x with
        | err _ => cases h
        | panic => cases h
        | more => cases h
        | ok vals =>
          dsimp only at h
          unfold callMethod at h
          by_cases hz : vals.any ArgV.isZero = true
          · rw [if_pos hz] at h; cases h
          · rw [if_neg hz] at h
            have hloc : ((s.calling i loc).heap.get i).invokeLoc = loc := by
              simp only [St.calling]; rw [Heap.get_upd_eq _ _ hi]
            simp only [hf, hloc, finish] at h
            split at h
            · cases h
            · simp only [M.pure_run] at h
              injection h with h1 _
              injection h1 with h1
              exact h1.symm
    · cases h

/-- **C38**: as stated it does not hold: with a call in an argument the method sees the location of that call. -/
theorem C38_false : bodyIs q%"\\use-plugin{p}\n\n\\where{a \\bold{b}}\n" (fun c => match c with
    | .para [.ref _ _ _ _ loc] => loc.line == 3 && loc.col == 10 | _ => false) = true := by decide +kernel

example : bodyIs q%"\\use-plugin{p}\n\n\\where{a}\n" (fun c => match c with
    | .para [.ref _ _ _ _ loc] => loc.line == 3 && loc.col == 1 | _ => false) = true := by decide +kernel

/-! ### C40 -/

/-- **C40**: canonical function names that differ call methods of different names. -/
theorem C40_distinct_methods {f g : Str} (hf : Canonical f) (hg : Canonical g) (h : f ≠ g) : methodName f ≠ methodName g := by
  obtain ⟨ws, w1, w2, rfl⟩ := hf
  obtain ⟨vs, v1, v2, rfl⟩ := hg
  intro e
  rw [methodName, methodName, splitDash_dashed w1 w2, splitDash_dashed v1 v2] at e
  exact h (by rw [titleCase_inj w2 v2 e])

/-- **C40**: the restriction to canonical names is needed. -/
theorem C40_double_dash : methodName q%"foo--bar" = methodName q%"foo-bar" := by decide

example : Canonical q%"table-of-contents" ∧ Canonical q%"table-ofcontents" ∧ methodName q%"table-of-contents" = q%"TableOfContents" ∧
    methodName q%"table-ofcontents" = q%"TableOfcontents" :=
  ⟨⟨[q%"table", q%"of", q%"contents"], by decide, by unfold IsWord; decide, by decide⟩,
   ⟨[q%"table", q%"ofcontents"], by decide, by unfold IsWord; decide, by decide⟩, by decide, by decide⟩

/-! ### C41 -/

theorem convertAll_contents {W : World} {k i : Nat} {inc : Inc} {args : List Node} {s s1 : St} {cs : List Content}
    (h : EvalsAll W k inc i args s cs s1) (hn : ∀ c ∈ cs, c.isNil = false) :
    convertAll W k i [] (some .content) (evalArgs W k inc args) s = (.ok (cs.map ArgV.content), s1) := by
  induction h with
  | nil s => rfl
  | @cons n ns s s1 s2 c cs he _ ih =>
    have := ih fun d hd => hn d (by simp [hd])
    simp only [evalArgs, convertAll, convert, M.bind_run, M.bind, he, this, M.pure_run, hn c (by simp), List.map_cons]
    rfl

theorem contentArgs_map (cs : List Content) : contentArgs (cs.map ArgV.content) = cs := by
  induction cs with
  | nil => rfl
  | cons c cs ih => simp [contentArgs, ih]

theorem noZero_map (cs : List Content) : (cs.map ArgV.content).any ArgV.isZero = false := by
  induction cs with
  | nil => rfl
  | cons c cs ih => simp [ArgV.isZero]

theorem variadic_run {W : World} (k : Nat) (inc : Inc) (fn : Str) (b : Base) (args : List Node) (loc : Location) (i : Nat)
    (r : Content) (s s1 : St) {path : Str} {cs : List Content} (hb : baseMethods.lookup (methodName fn) = some b)
    (hsig : b.sig = ([], some .content))
    (hp : s.heap.filePath (s.heap.length + 1) i = some path) (h0 : (s.heap.get i).plugins.head? = some 0)
    (he : EvalsAll W k inc i args (s.calling i loc) cs s1) (hn : ∀ c ∈ cs, c.isNil = false) :
    evalNode W k inc (.invoke fn args loc) i r s =
      (callBase W k inc i b (cs.map ArgV.content) >>= fun ret => finish fn path loc r ret) s1 := by
  rw [invoke_run, hp, findMethod_head hb h0]
  simp only [Method.sig, hsig, arityOk, List.length_nil, Nat.zero_le, decide_true, if_true]
  rw [M.bind_run, M.bind, convertAll_contents he hn]
  simp only [callMethod, noZero_map, Bool.false_eq_true, if_false]

/-- **C41**: `\table` gives the table whose rows are the items of its arguments, all of them and in order, when all of
them are lists (what `\table-row` makes), and otherwise an error; never anything else. -/
theorem C41_table (W : World) (k : Nat) (inc : Inc) (args : List Node) (loc : Location) (i : Nat) (r : Content) (s s1 : St)
    {path : Str} {cs : List Content} (hp : s.heap.filePath (s.heap.length + 1) i = some path)
    (h0 : (s.heap.get i).plugins.head? = some 0)
    (he : EvalsAll W k inc i args (s.calling i loc) cs s1) (hn : ∀ c ∈ cs, c.isNil = false) :
    (∃ rows ords, rows.length = ords.length ∧ cs = List.zipWith Content.list rows ords ∧
      evalNode W k inc (.invoke q%"table" args loc) i r s = (.ok (append r [.table rows]), s1)) ∨
    ((∃ c ∈ cs, ∀ xs o, c ≠ .list xs o) ∧
      ∃ w, evalNode W k inc (.invoke q%"table" args loc) i r s = (.err (.failed q%"table" (.plain w) path loc), s1)) := by
  have hrun := variadic_run k inc q%"table" .table args loc i r s s1 (by decide) rfl hp h0 he hn
  have hrows : (∃ rows ords, rows.length = ords.length ∧ cs = List.zipWith Content.list rows ords ∧ tableRows cs = some rows) ∨
      ((∃ c ∈ cs, ∀ xs o, c ≠ .list xs o) ∧ tableRows cs = none) := by
    clear hrun he hn
    induction cs with
    | nil => exact .inl ⟨[], [], rfl, rfl, rfl⟩
    | cons c cs ih =>
      by_cases hc : ∃ xs o, c = .list xs o
      · obtain ⟨xs, o, rfl⟩ := hc
        rcases ih with ⟨rows, ords, hl, rfl, e⟩ | ⟨⟨c, hc, hx⟩, e⟩
        · exact .inl ⟨xs :: rows, o :: ords, by simp [hl], rfl, by simp [tableRows, e]⟩
        · exact .inr ⟨⟨c, by simp [hc], hx⟩, by simp [tableRows, e]⟩
      · refine .inr ⟨⟨c, by simp, fun xs o e => hc ⟨xs, o, e⟩⟩, ?_⟩
        unfold tableRows
        split
        · next h => cases h
        · next h => cases h; exact absurd ⟨_, _, rfl⟩ hc
        · rfl
  rw [hrun]
  simp only [callBase, contentArgs_map]
  rcases hrows with ⟨rows, ords, hl, e1, e2⟩ | ⟨h1, e2⟩
  · refine .inl ⟨rows, ords, hl, e1, ?_⟩
    rw [e2]; rfl
  · refine .inr ⟨h1, q%"table row is not a list", ?_⟩
    rw [e2]; rfl

/-- **C41**: `\definitions` gives exactly the pairs of its arguments, in order, when each is a list of two (what
`\definition` makes), and otherwise an error. -/
theorem C41_definitions (W : World) (k : Nat) (inc : Inc) (args : List Node) (loc : Location) (i : Nat) (r : Content) (s s1 : St)
    {path : Str} {cs : List Content} (hp : s.heap.filePath (s.heap.length + 1) i = some path)
    (h0 : (s.heap.get i).plugins.head? = some 0)
    (he : EvalsAll W k inc i args (s.calling i loc) cs s1) (hn : ∀ c ∈ cs, c.isNil = false) :
    (∃ (ds : List (Content × Content)) (ords : List Bool), ds.length = ords.length ∧
      cs = List.zipWith (fun (d : Content × Content) o => Content.list [d.1, d.2] o) ds ords ∧
      evalNode W k inc (.invoke q%"definitions" args loc) i r s = (.ok (append r [.defs ds]), s1)) ∨
    ((∃ c ∈ cs, ∀ a b o, c ≠ .list [a, b] o) ∧
      ∃ w, evalNode W k inc (.invoke q%"definitions" args loc) i r s = (.err (.failed q%"definitions" (.plain w) path loc), s1)) := by
  have hrun := variadic_run k inc q%"definitions" .definitions args loc i r s s1 (by decide) rfl hp h0 he hn
  have hrows : (∃ (ds : List (Content × Content)) (ords : List Bool), ds.length = ords.length ∧
      cs = List.zipWith (fun (d : Content × Content) o => Content.list [d.1, d.2] o) ds ords ∧ definitionItems cs = some ds) ∨
      ((∃ c ∈ cs, ∀ a b o, c ≠ .list [a, b] o) ∧ definitionItems cs = none) := by
    clear hrun he hn
    induction cs with
    | nil => exact .inl ⟨[], [], rfl, rfl, rfl⟩
    | cons c cs ih =>
      by_cases hc : ∃ a b o, c = .list [a, b] o
      · obtain ⟨a, b, o, rfl⟩ := hc
        rcases ih with ⟨ds, ords, hl, rfl, e⟩ | ⟨⟨c, hc, hx⟩, e⟩
        · exact .inl ⟨(a, b) :: ds, o :: ords, by simp [hl], rfl, by simp [definitionItems, e]⟩
        · exact .inr ⟨⟨c, by simp [hc], hx⟩, by simp [definitionItems, e]⟩
      · refine .inr ⟨⟨c, by simp, fun a b o e => hc ⟨a, b, o, e⟩⟩, ?_⟩
        unfold definitionItems
        split
        · next h => cases h
        · next h => cases h; exact absurd ⟨_, _, _, rfl⟩ hc
        · rfl
  rw [hrun]
  simp only [callBase, contentArgs_map]
  rcases hrows with ⟨rows, ords, hl, e1, e2⟩ | ⟨h1, e2⟩
  · refine .inl ⟨rows, ords, hl, e1, ?_⟩
    rw [e2]; rfl
  · refine .inr ⟨h1, q%"definition item", ?_⟩
    rw [e2]; rfl

/-- **C41**: `\table-row`, `\list` and `\ordered-list` keep all their arguments in order. -/
theorem C41_lists (W : World) (k : Nat) (inc : Inc) (fn : Str) (o : Bool)
    (hfn : (fn, o) ∈ [(q%"table-row", false), (q%"list", false), (q%"ordered-list", true)])
    (args : List Node) (loc : Location) (i : Nat) (r : Content) (s s1 : St)
    {path : Str} {cs : List Content} (hp : s.heap.filePath (s.heap.length + 1) i = some path)
    (h0 : (s.heap.get i).plugins.head? = some 0)
    (he : EvalsAll W k inc i args (s.calling i loc) cs s1) (hn : ∀ c ∈ cs, c.isNil = false) :
    evalNode W k inc (.invoke fn args loc) i r s = (.ok (append r [.list cs o]), s1) := by
  simp only [List.mem_cons, Prod.mk.injEq, List.not_mem_nil, or_false] at hfn
  rcases hfn with ⟨rfl, rfl⟩ | ⟨rfl, rfl⟩ | ⟨rfl, rfl⟩
  · rw [variadic_run k inc _ .tableRow args loc i r s s1 (by decide) rfl hp h0 he hn]
    simp only [callBase, contentArgs_map]; rfl
  · rw [variadic_run k inc _ .list args loc i r s s1 (by decide) rfl hp h0 he hn]
    simp only [callBase, contentArgs_map]; rfl
  · rw [variadic_run k inc _ .orderedList args loc i r s s1 (by decide) rfl hp h0 he hn]
    simp only [callBase, contentArgs_map]; rfl

example : bodyIs q%"\\table{\n  \\table-row{a}{b}\n}{\n  \\table-row{c}{d}\n}\n" (fun c => match c with
    | .table [[_, .str b], [_, _]] => b == q%"b" | _ => false) = true := by decide +kernel

example : errorIs q%"\\table{\\table-row{a}}{b}\n" (fun e => match e with
    | .failed fn _ _ _ => fn == q%"table" | _ => false) = true := by decide +kernel

end Booklit.Props
