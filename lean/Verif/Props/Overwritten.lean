import Verif.Props.Output

/-!
C26, exactly: which pages are overwritten.
-/

namespace Booklit.Props

open Booklit Tree

theorem lastWritten_last {f : Nat → Str} {path : Str} : ∀ ps : List Nat,
    lastWritten path (ps.map fun p => (f p, p)) = (ps.filter fun p => f p = path).getLast?
  | [] => rfl
  | p :: ps => by
    rw [List.map_cons, lastWritten, lastWritten_last ps]
    by_cases hp : f p = path
    · rw [List.filter_cons_of_pos (by simpa using hp), List.getLast?_cons]
      cases (ps.filter fun p => decide (f p = path)).getLast? <;> simp [hp]
    · rw [List.filter_cons_of_neg (by simpa using hp)]
      cases (ps.filter fun p => decide (f p = path)).getLast? <;> simp [hp]

/-- **C26, exactly** for pages whose primary tags contain no slash: at the end, the file of a page holds the last page, in
the order of the document, that has the same primary tag. So no page is overwritten if and only if the primary tags of the
pages differ. -/
theorem C26_iff {h : Heap} {t : Tree} (b : Book h t) {dest ext : Str} (hd : dest ≠ []) (he : goodExt ext) :
    ∃ ps ws, Ends (fun n => h.written n t.root) ps ∧ Ends (fun n => h.outputs dest ext n t.root) ws ∧
      ((∀ p ∈ ps, '/' ∉ (h.get p).primaryTag.name) →
        (∀ p ∈ ps, lastWritten (h.filePathOf dest ext p) ws =
          (ps.filter fun q => (h.get q).primaryTag.name = (h.get p).primaryTag.name).getLast?) ∧
        ((∀ p ∈ ps, lastWritten (h.filePathOf dest ext p) ws = some p) ↔
          ∀ p ∈ ps, ∀ q ∈ ps, (h.get p).primaryTag.name = (h.get q).primaryTag.name → p = q)) := by
  obtain ⟨ps, ws, hp, hw, hne, hall⟩ := C26_different_files_partial b hd he
  refine ⟨ps, ws, hp, hw, fun hs => ?_⟩
  have hws : ws = ps.map fun p => (h.filePathOf dest ext p, p) := by
    refine hw.unique (hp.congr fun n hn => ?_)
    simp only [Heap.outputs, hn, Option.map_some]
  have file : ∀ p ∈ ps, ∀ q ∈ ps, h.filePathOf dest ext q = h.filePathOf dest ext p ↔
      (h.get q).primaryTag.name = (h.get p).primaryTag.name := by
    intro p hp q hq
    constructor
    · intro e
      by_cases hn : (h.get q).primaryTag.name = (h.get p).primaryTag.name
      · exact hn
      · exact absurd e (hne q hq p hp (hs q hq) (hs p hp) hn)
    · intro e
      simp only [Heap.filePathOf, Heap.fileName, e]
  have last : ∀ p ∈ ps, lastWritten (h.filePathOf dest ext p) ws =
      (ps.filter fun q => (h.get q).primaryTag.name = (h.get p).primaryTag.name).getLast? := by
    intro p hp
    rw [hws, lastWritten_last]
    congr 1
    exact List.filter_congr fun q hq => by simp only [file p hp q hq]
  refine ⟨last, fun hk p hp q hq e => ?_, fun hd => hall hs fun p hp q hq hpq e => hpq (hd p hp q hq e)⟩
  have h1 := hk p hp
  have h2 := hk q hq
  rw [(file q hq p hp).2 e, h2] at h1
  exact (Option.some.inj h1).symm

/-- The hypotheses are met; of two pages with the tag `c` the second remains. -/
example : (match loadText q%"\\title{A}\n\n\\split-sections\n\n\\section{\\title{C}}\n\n\\section{\\title{C}}\n" with
    | (.ok i, s) => (s.heap.written 20 i).map fun ps => (ps, ps.all (fun p => !(s.heap.get p).primaryTag.name.contains '/'),
        (s.heap.outputs q%"o" q%"html" 20 i).map (lastWritten q%"o/c.html"))
    | _ => none) = some ([0, 1, 2], true, some (some 2)) := by
  decide +kernel

end Booklit.Props
