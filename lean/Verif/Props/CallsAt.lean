import Verif.Lemmas.LastCallL
import Verif.Props.Calls

/-!
Which location a method sees, exactly: C33, C38.
-/

namespace Booklit.Props

open Booklit

variable {W : World}

/-! ### C38 -/

/-- **C38**: exactly which location a method of a plugin sees: that of the last call written in its arguments, and its
own if there is none. A method that answers with (something made from) the location it sees answers with that one. -/
theorem C38_exact (hW : W.NoNodes) {k n i : Nat} {fn : Str} {args : List Node} {loc : Location} {r r' : Content} {s s' : St}
    (hi : i < s.heap.length) (h0 : (s.heap.get i).plugins.head? = some 0) {f : Foreign}
    (hm : findMethod W (methodName fn) (s.heap.get i).plugins = some (.foreign f)) (answer : Location → Content)
    (hf : ∀ h vals, f.run h i vals = .content (answer (h.get i).invokeLoc))
    (h : evalNode W k (incl W n) (.invoke fn args loc) i r s = (.ok r', s')) :
    r' = append r [answer (lastCalls args loc)] := by
  obtain ⟨path, m, vals, s1, hm', -, p, e⟩ := invoke_sees hW (fun ts v => leaves_args hW args ts v) hi h0 h
  rw [hm] at hm'
  cases hm'
  have hs : methodName fn ≠ q%"Section" := by
    intro hs
    rw [hs, findMethod_section h0] at hm
    cases hm
  have hl := p.loc
  rw [Node.lastCall, if_neg hs] at hl
  rw [M.bind_run, M.bind, callMethod] at e
  by_cases hz : vals.any ArgV.isZero = true
  · rw [if_pos hz] at e; cases e
  · rw [if_neg hz] at e
    simp only [hf, hl, finish] at e
    split at e
    · cases e
    · simp only [M.pure_run] at e
      injection e with h1 _
      injection h1 with h1
      exact h1.symm

/-- **C38**: the same for `\\reference`: the location in its reference, at which a broken reference is reported. -/
theorem C38_reference (hW : W.NoNodes) {k n i : Nat} {fn : Str} (hfn : methodName fn = q%"Reference") {args : List Node} {loc : Location}
    {r r' : Content} {s s' : St} (hi : i < s.heap.length) (h0 : (s.heap.get i).plugins.head? = some 0)
    (h : evalNode W k (incl W n) (.invoke fn args loc) i r s = (.ok r', s')) :
    ∃ tag text, r' = append r [.ref i tag text false (lastCalls args loc)] := by
  obtain ⟨path, m, vals, s1, hm, -, p, e⟩ := invoke_sees hW (fun ts v => leaves_args hW args ts v) hi h0 h
  have hb : baseMethods.lookup (methodName fn) = some .reference := by rw [hfn]; decide +kernel
  rw [findMethod_head hb h0] at hm
  cases hm
  have hl := p.loc
  rw [Node.lastCall, if_neg (by rw [hfn]; decide)] at hl
  rw [M.bind_run, M.bind, callMethod] at e
  by_cases hz : vals.any ArgV.isZero = true
  · rw [if_pos hz] at e; cases e
  · rw [if_neg hz] at e
    rcases vals with _ | ⟨v, cs⟩
    · cases e
    · cases v with
      | str tag =>
        simp only [callBase, M.bind_run, M.bind, M.get, M.pure_run, finish, hl, Content.isNil, Bool.false_eq_true, if_false] at e
        injection e with h1 _
        injection h1 with h1
        exact ⟨_, _, h1.symm⟩
      | _ => cases e

/-- **C38**: and for `\\title`: the location that a section remembers for its title, reported if there is a second one, and that of
the section's tags, reported if a reference is ambiguous. -/
theorem C38_title (hW : W.NoNodes) {k n i : Nat} {fn : Str} (hfn : methodName fn = q%"Title") {args : List Node} {loc : Location}
    {r r' : Content} {s s' : St} (hi : i < s.heap.length) (h0 : (s.heap.get i).plugins.head? = some 0)
    (h : evalNode W k (incl W n) (.invoke fn args loc) i r s = (.ok r', s')) :
    (s'.heap.get i).titleLoc = lastCalls args loc ∧ ∀ t ∈ (s'.heap.get i).tags, t.loc = lastCalls args loc := by
  obtain ⟨path, m, vals, s1, hm, -, p, e⟩ := invoke_sees hW (fun ts v => leaves_args hW args ts v) hi h0 h
  have hb : baseMethods.lookup (methodName fn) = some .title := by rw [hfn]; decide +kernel
  rw [findMethod_head hb h0] at hm
  cases hm
  have hl := p.loc
  rw [Node.lastCall, if_neg (by rw [hfn]; decide)] at hl
  rw [M.bind_run, M.bind, callMethod] at e
  by_cases hz : vals.any ArgV.isZero = true
  · rw [if_pos hz] at e; cases e
  · rw [if_neg hz] at e
    rcases vals with _ | ⟨v, cs⟩
    · cases e
    · cases v with
      | content title =>
        simp only [callBase, M.bind_run, M.bind, M.get, hl] at e
        by_cases he : (s1.heap.get i).title.isEmpty = true
        · rw [if_pos he, M.bind_run, M.bind] at e
          have e1 := titleNames_state (W := W) (k := k) title (strArgs cs) s1
          cases hm : titleNames W k title (strArgs cs) s1 with
          | mk rn s2 =>
            rw [hm] at e e1
            dsimp only at e1
            subst e1
            cases rn with
            | ok names =>
              simp only [setTitle, M.bind_run, M.bind, M.upd, M.pure_run, finish] at e
              cases e
              dsimp only
              rw [Heap.get_upd_eq _ _ (Nat.lt_of_lt_of_le hi p.len)]
              refine ⟨rfl, fun t ht => ?_⟩
              obtain ⟨nm, -, rfl⟩ := List.mem_map.1 ht
              rfl
            | _ => cases e
        · rw [if_neg he] at e
          simp only [M.bind_run, M.bind, filePathM] at e
          cases hp : s1.heap.filePath (s1.heap.length + 1) i with
          | none => rw [hp] at e; cases e
          | some path => rw [hp] at e; cases e
      | _ => cases e

/-- Without calls in the arguments it is the location of the call itself. -/
theorem C38_own {args : List Node} (ha : callFreeL args = true) (loc : Location) : lastCalls args loc = loc := lastCalls_free args loc ha

/-- A method of the plugin in the arguments of which there are calls in calls: it sees the last one, `\\larger` here. -/
example : bodyIs q%"\\use-plugin{p}\n\n\\where{a \\bold{b}}{c}{\n\\italic{x \\larger{d}} e}\n" (fun c => match c with
    | .para [.ref _ _ _ _ loc] => loc.line == 4 && loc.col == 11 | _ => false) = true := by decide +kernel

/-- A title with calls in it. -/
example : (match loadText q%"\n\\title{a \\bold{b}}\n" with
    | (.ok i, s) => (s.heap.get i).titleLoc.line == 2 && (s.heap.get i).titleLoc.col == 10
    | _ => false) = true := by decide +kernel

example : (oneFile q%"\\use-plugin{p}\n").NoNodes := by
  intro p name f h
  simp only [oneFile] at h
  split at h
  · split at h
    · cases h; simp
    · split at h
      · cases h; simp
      · split at h
        · cases h; simp
        · split at h
          · cases h; simp
          · cases h
  · cases h

/-! ### C33 -/

/-- **C33**: an error without location that a method returns, of a plugin or a base one, with whatever arguments it is called and
whatever calls they contain, is reported with the function, the file and the location of its own call. For an error about the number or
the types of the arguments see `C33_false`. -/
theorem C33_own_location {k : Nat} {inc : Inc} {fn : Str} {args : List Node} {loc : Location} {i : Nat} {r : Content} {s s1 s2 : St}
    {path : Str} {m : Method} {e : Err} {vals : List ArgV} {ret : Ret} (hp : s.heap.filePath (s.heap.length + 1) i = some path)
    (hf : findMethod W (methodName fn) (s.heap.get i).plugins = some m) (ha : Accepts m.sig args.length)
    (hv : convertAll W k i m.sig.1 m.sig.2 (evalArgs W k inc args) (s.calling i loc) = (.ok vals, s1))
    (hrun : callMethod W k inc i m vals s1 = (.ok ret, s2)) (hr : ret = .error (some e) ∨ ∃ c, ret = .both c (some e))
    (he : e.pretty = false) :
    evalNode W k inc (.invoke fn args loc) i r s = (.err (.failed fn e path loc), s2) := by
  rw [invoke_run, hp, hf]
  dsimp only
  rw [if_pos ((arityOk_iff _ _).2 ha), M.bind_run, M.bind, hv]
  dsimp only
  rw [M.bind_run, M.bind, hrun]
  dsimp only
  rcases hr with h | ⟨c, h⟩ <;> rw [h] <;> simp [finish, returnedError, he, M.lift]

example : errorIs q%"\\use-plugin{p}\n\n\\table{\n\\bold{a}}\n" (fun e => match e with
    | .failed fn (.plain _) _ loc => fn == q%"table" && loc.line == 3 | _ => false) = true := by decide +kernel

end Booklit.Props
