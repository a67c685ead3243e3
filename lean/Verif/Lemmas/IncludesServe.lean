import Verif.Lemmas.IncludesBuild
import Verif.Model.Answer

/-!
What the development server answers for books that differ only in what is in which file.
-/

namespace Booklit

theorem Heap.Apart.requested {h h' : Heap} (H : h.Apart h') (ext : Str) (k i : Nat) (path : Str) :
    h'.requested ext k i path = h.requested ext k i path := by
  rw [Heap.requested, Heap.requested]
  cases requestTag ext path with
  | none => rfl
  | some name =>
    dsimp only
    have a := h.same_erased.findTag k i name
    have b := h'.same_erased.findTag k i name
    rw [findTag_twin H.parted.twin, a] at b
    cases hf : h.findTag k i name with
    | none =>
      cases hf' : h'.findTag k i name with
      | none => rfl
      | some l => rw [hf, hf'] at b; simp at b
    | some l =>
      cases hf' : h'.findTag k i name with
      | none => rw [hf, hf'] at b; simp at b
      | some l' =>
        rw [hf, hf'] at b
        cases l with
        | nil => cases l' with | nil => rfl | cons => simp at b
        | cons g gs =>
          cases l' with
          | nil => simp at b
          | cons g' gs' =>
            simp only [Option.map_some, List.map_cons, Option.some.injEq, List.cons.injEq] at b
            dsimp only
            rw [(Tag.same_fields b.1).2.1]

/-- The server for the one book answers like the one for the other. -/
theorem answer_apart {W W' : World} {E : Nat} {B : Str → Prop} (hr : W'.registry = W.registry) (hb : W'.brokenOk = W.brokenOk)
    (hW : ∀ p n, W.foreign p n = none) (hW' : ∀ p n, W'.foreign p n = none) (hF : FilesSplit E B (treesOf W.fs) (treesOf W'.fs))
    {input path : Str} (hne : input ≠ []) (hB : B input) {S : Site} (hS : ∀ i, S.force i = none) {n N k : Nat} (hN : (E + 1) * n ≤ N) {a : Answer}
    (e : (answer W (htmlEngine S) n k input path ⟨[], []⟩).1 = .ok a) : (answer W' (htmlEngine S) N k input path ⟨[], []⟩).1 = .ok a := by
  revert e
  unfold answer
  cases requestTag (htmlEngine S).ext path with
  | none => exact id
  | some name =>
    dsimp only
    cases hl : loadFile W n none input [0] ⟨[], []⟩ with
    | mk r s =>
      cases r with
      | ok i =>
        obtain ⟨s', h1, h2, -⟩ := load_apart hr hb hW hW' hF hne hB hN (s := ⟨[], []⟩) (s' := ⟨[], []⟩) .nil (Fits.empty _) (Fits.empty _)
          (o := none) (fun p e => by cases e) hl
        rw [h1]
        dsimp only
        rw [h2.requested]
        cases s.heap.requested (htmlEngine S).ext k i path with
        | none => intro e; cases e
        | some r =>
          cases r with
          | none => exact id
          | some j =>
            intro e
            obtain ⟨txt, hx, rfl⟩ := Res.ok_of_map e
            have hx : s.heap.page S k j = .ok txt := hx
            have := h2.page (S := S) (fun i c e => by rw [hS] at e; cases e) k j _ hx
            show (s'.heap.page S k j).map _ = _
            rw [this]
            rfl
      | _ => intro e; cases e

end Booklit
