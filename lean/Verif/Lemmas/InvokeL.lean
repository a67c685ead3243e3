import Verif.Lemmas.CollectL

/-!
Running calls.
-/

namespace Booklit

variable {W : World}

/-- The state in which a call at `loc` in section `i` runs. -/
def St.calling (s : St) (i : Nat) (loc : Location) : St :=
  { s with heap := s.heap.upd i fun x => { x with invokeLoc := loc } }

theorem St.length_calling (s : St) (i : Nat) (loc : Location) : (s.calling i loc).heap.length = s.heap.length := by
  simp [St.calling, Heap.length_upd]

theorem Heap.get_field {α : Type} (h : Heap) (i j : Nat) (f : Sec → Sec) (g : Sec → α) (hg : ∀ x, g (f x) = g x) :
    g ((h.upd i f).get j) = g (h.get j) := by
  by_cases e : j = i
  · subst e
    by_cases hl : j < h.length
    · rw [Heap.get_upd_eq _ _ hl, hg]
    · rw [Heap.upd_out _ _ (by omega)]
  · rw [Heap.get_upd_ne _ _ e]

theorem filePath_congr {h h' : Heap} (hp : ∀ j, (h'.get j).path = (h.get j).path ∧ (h'.get j).parent = (h.get j).parent) :
    ∀ n i, h'.filePath n i = h.filePath n i
  | 0, i => rfl
  | n + 1, i => by
    rw [Heap.filePath, Heap.filePath, (hp i).1, (hp i).2]
    split
    · rfl
    · cases (h.get i).parent with
      | none => rfl
      | some p => exact filePath_congr hp n p

theorem St.filePath_calling (s : St) (i : Nat) (loc : Location) (n j : Nat) :
    (s.calling i loc).heap.filePath n j = s.heap.filePath n j :=
  filePath_congr (fun j => ⟨Heap.get_field s.heap i j (fun x => { x with invokeLoc := loc }) Sec.path fun _ => rfl,
    Heap.get_field s.heap i j (fun x => { x with invokeLoc := loc }) Sec.parent fun _ => rfl⟩) n j

theorem invoke_run (k : Nat) (inc : Inc) (fn : Str) (args : List Node) (loc : Location) (i : Nat) (r : Content) (s : St) :
    evalNode W k inc (.invoke fn args loc) i r s =
      match s.heap.filePath (s.heap.length + 1) i with
      | none => (.more, s.calling i loc)
      | some path =>
        match findMethod W (methodName fn) (s.heap.get i).plugins with
        | none => (.err (.undefined fn path loc), s.calling i loc)
        | some m =>
          if arityOk m.sig args.length then
            (convertAll W k i m.sig.1 m.sig.2 (evalArgs W k inc args) >>= fun vals =>
              callMethod W k inc i m vals >>= fun ret => finish fn path loc r ret) (s.calling i loc)
          else (.err (.plain q%"argument count mismatch"), s.calling i loc) := by
  rw [evalNode, invokeFn]
  simp only [M.bind_run, M.bind, M.upd, filePathM, M.get]
  rw [show St.mk (s.heap.upd i fun x => { x with invokeLoc := loc }) s.cache = s.calling i loc from rfl]
  rw [show (s.heap.upd i fun x => { x with invokeLoc := loc }) = (s.calling i loc).heap from rfl]
  rw [St.length_calling, St.filePath_calling]
  cases s.heap.filePath (s.heap.length + 1) i with
  | none => rfl
  | some path =>
    simp only [Res.ofFuel]
    have e : ((s.calling i loc).heap.get i).plugins = (s.heap.get i).plugins :=
      Heap.get_field s.heap i i (fun x => { x with invokeLoc := loc }) Sec.plugins fun _ => rfl
    rw [e]
    cases findMethod W (methodName fn) (s.heap.get i).plugins with
    | none => rfl
    | some m =>
      have el : ∀ ns : List Node, (evalArgs W k inc ns).length = ns.length := by
        intro ns
        induction ns with
        | nil => rfl
        | cons n ns ih => simp [evalArgs, ih]
      simp only [el]
      split <;> rfl

theorem evalArgs_length (k : Nat) (inc : Inc) (ns : List Node) : (evalArgs W k inc ns).length = ns.length := by
  induction ns with
  | nil => rfl
  | cons n ns ih => simp [evalArgs, ih]

/-- `\section{...}` in a section whose first plugin is baselit. -/
theorem section_run (k : Nat) (inc : Inc) (n : Node) (loc : Location) (i : Nat) (r : Content) (s : St) {path : Str}
    (hp : s.heap.filePath (s.heap.length + 1) i = some path) (h0 : (s.heap.get i).plugins.head? = some 0) :
    evalNode W k inc (.invoke q%"section" [n] loc) i r s =
      match evalInline i (evalNode W k inc n) (s.calling i loc) with
      | (.ok _, s') => (.ok r, s')
      | (.err e, s') => (.err (returnedError q%"section" path loc e), s')
      | (.panic, s') => (.panic, s')
      | (.more, s') => (.more, s') := by
  rw [invoke_run, hp]
  obtain ⟨ps, hps⟩ : ∃ ps, (s.heap.get i).plugins = 0 :: ps := by
    cases hx : (s.heap.get i).plugins with
    | nil => rw [hx] at h0; cases h0
    | cons p ps => rw [hx] at h0; cases h0; exact ⟨ps, rfl⟩
  have hm : findMethod W (methodName q%"section") (s.heap.get i).plugins = some (.base .section) := by
    rw [hps]; rfl
  rw [hm]
  simp only [Method.sig, Base.sig, arityOk, List.length_singleton, beq_self_eq_true, if_true, evalArgs, convertAll, convert]
  have e1 : (([ArgV.node n (evalNode W k inc n)]).any ArgV.isZero) = false := rfl
  simp only [M.bind_run, M.bind, M.pure_run, callMethod, e1, callBase, M.attempt, Bool.false_eq_true, if_false]
  cases evalInline i (evalNode W k inc n) (s.calling i loc) with
  | mk x s' => cases x <;> rfl

end Booklit
