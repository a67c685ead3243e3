import Verif.Lemmas.SplitCallsL
import Verif.Props.Load

/-!
C27, exactly: when a section is split.
-/

namespace Booklit.Props

open Booklit

/-- **C27, exactly**: evaluating a node in a section makes it split if and only if it was split before, or neither it nor
one above it was a single page and some `\split-sections` in the node comes before every `\single-page`. It is a single
page afterwards if and only if it was one before or a `\single-page` is in the node. What is in `\section` counts for the
new section, and so do included files. -/
theorem C27_exact {W : World} (hW : W.Plain) (k n i : Nat) (node : Node) (r c : Content) (s s' : St) (hs : Sound s.heap)
    (hi : i < s.heap.length) (h : evalNode W k (incl W n) node i r s = (.ok c, s')) :
    ((s'.heap.get i).split = true ↔
      (s.heap.get i).split = true ∨ (¬ OnSinglePage s.heap i ∧ SplitFirst node.pageCalls)) ∧
    (OnSinglePage s'.heap i ↔ OnSinglePage s.heap i ∨ .single ∈ node.pageCalls) := by
  have t := obeys_node hW (k := k) (keeps_incl (Unsplit.inv W) n) (same_incl n) node i r s c s' hs hi h
  exact ⟨t.2.1, t.on hs hi⟩

/-- **C27, exactly, for documents**: the top section of a document that loads is split if and only if some
`\split-sections` in the document comes before every `\single-page`. So `\single-page` wins if and only if it comes first. -/
theorem C27_document {W : World} (hW : W.Plain) {n : Nat} {path : Str} {plugins : List Nat} {s s' : St} {i : Nat}
    {info : FileInfo} {node : Node} (hs : Sound s.heap) (hf : W.fs path = some info)
    (hc : cached s.cache path info.mtime = none) (hn : parseFile path info = .ok node)
    (h0 : plugins.head? = some 0) (h : loadFile W n none path plugins s = (.ok i, s')) :
    (s'.heap.get i).split = true ↔ SplitFirst node.pageCalls := by
  obtain ⟨m, rfl⟩ : ∃ m, n = m + 1 := by
    cases n with
    | zero => rw [loadFile_run] at h; cases h
    | succ m => exact ⟨m, rfl⟩
  rw [loadFile_run, evalFile_run, hf] at h
  simp only [nodeOf, hc, hn, evalBody_run] at h
  have hs1 : Sound (s.file none path plugins).heap := hs.add _ (by intro p e; cases e) h0
  have hl1 : s.heap.length < (s.file none path plugins).heap.length := by simp [St.file]
  have hget : (s.file none path plugins).heap.get s.heap.length = { Sec.fresh none path with plugins := plugins } :=
    Heap.get_append_eq _ _
  have hoff : ¬ OnSinglePage (s.file none path plugins).heap s.heap.length := by
    rw [onSinglePage_iff]
    rintro (h | ⟨p, h, _⟩)
    · rw [hget] at h; cases h
    · rw [hget] at h; cases h
  revert h
  cases he : evalNode W m (incl W m) node s.heap.length .nil (s.file none path plugins) with
  | mk r s3 =>
    cases r with
    | err _ => intro h; cases h
    | panic => intro h; cases h
    | more => intro h; cases h
    | ok r =>
      have key := (C27_exact hW m m s.heap.length node .nil r _ s3 hs1 hl1 he).1
      rw [hget] at key
      dsimp only
      intro h
      cases hcol : (remember path node info.mtime (setBody r s3 s.heap.length)).2.heap.collect (m + 1) s.heap.length with
      | err _ => rw [hcol] at h; cases h
      | panic => rw [hcol] at h; cases h
      | more => rw [hcol] at h; cases h
      | ok h4 =>
        rw [hcol] at h
        cases h
        have mt := collect_more _ _ _ _ hcol
        have hb : ((setBody r s3 s.heap.length).heap.get s.heap.length).split = (s3.heap.get s.heap.length).split := by
          rw [setBody]
          split
          · rfl
          · rw [Heap.get_field (g := Sec.split) (hg := ?_)]; exact fun _ => rfl
        obtain ⟨gs, hgs⟩ := mt.2 s.heap.length
        dsimp only
        rw [show (h4.get s.heap.length).split = (s3.heap.get s.heap.length).split from ?_, key]
        · exact ⟨fun h => h.elim (fun h => by cases h) (·.2), fun h => .inr ⟨hoff, h⟩⟩
        · rw [← hb, hgs]
          rfl

/-- A world with a plugin without such arguments. -/
example : sampleWorld.Plain := by
  intro p name f h
  simp only [sampleWorld] at h
  split at h
  · cases h
    exact ⟨by simp, by simp⟩
  · cases h

/-- `\single-page` that comes first wins; one that comes after `\split-sections` does not. Both documents load. -/
example : okAnd (sampleLoad q%"one.lit") (fun i s => !(s.heap.get i).split) = true ∧
    okAnd (sampleLoad q%"late.lit") (fun i s => (s.heap.get i).split) = true := by
  decide +kernel

/-- The calls of a document; those in a section are not counted. -/
example : (Node.seq [.para [[.invoke q%"bold" [.invoke q%"split-sections" [] .zero] .zero]],
    .invoke q%"section" [.invoke q%"single-page" [] .zero] .zero, .invoke q%"single-page" [] .zero]).pageCalls = [.split, .single] := by
  decide

end Booklit.Props
