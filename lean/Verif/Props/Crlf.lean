import Verif.Lemmas.CrlfSim
import Verif.Props.Parser

/-!
C06: line endings do not matter.
-/

namespace Booklit.Props

open Booklit Booklit.Peg

/-- **C06.** Writing every LF of a document as CRLF changes neither whether it parses nor, apart from source
positions, the syntax tree. -/
theorem C06_crlf_equivalent (s : Str) (h : '\r' ∉ s) :
    (∀ t, parseDoc s = some (.ok (.node t)) → ∃ t', parseDoc (crlf s) = some (.ok (.node t')) ∧ t'.erase = t.erase) ∧
    (∀ t', parseDoc (crlf s) = some (.ok (.node t')) → ∃ t, parseDoc s = some (.ok (.node t)) ∧ t'.erase = t.erase) ∧
    ((∃ p, parseDoc s = some (.err p)) ↔ ∃ p, parseDoc (crlf s) = some (.err p)) := by
  obtain ⟨h1, h2⟩ := crlf_doc s h
  obtain ⟨o, ho, ho'⟩ := C01_parse_terminates s
  have ho : parseDoc s = some o := ho _ (Nat.le_refl _)
  refine ⟨h1, fun t' ht' => ?_, fun ⟨p, hp⟩ => h2 p hp, fun ⟨p', hp'⟩ => ?_⟩
  · rcases ho' with ⟨t, rfl⟩ | ⟨p, rfl⟩
    · obtain ⟨u, hu, he⟩ := h1 t ho
      rw [ht'] at hu; cases hu
      exact ⟨t, ho, he⟩
    · obtain ⟨p', hp'⟩ := h2 p ho
      rw [ht'] at hp'; cases hp'
  · rcases ho' with ⟨t, rfl⟩ | ⟨p, rfl⟩
    · obtain ⟨u, hu, he⟩ := h1 t ho
      rw [hp'] at hu; cases hu
    · exact ⟨p, ho⟩

-- Applies to real documents, and the two texts differ.
example : '\r' ∉ sampleDoc ∧ crlf sampleDoc ≠ sampleDoc ∧ crlf q%"a\n{-\n-}b" = q%"a\r\n{-\r\n-}b" := by decide +kernel

end Booklit.Props
