import Verif.Model.Reload
import Verif.Spec.Templates

/-! Specification of loading templates while the directory is edited. -/

namespace Booklit.Reload

open Booklit Booklit.Templates

/-- Every version of a file is newer than the versions before it. -/
def Rising (versions : List TFile) : Prop := versions.Pairwise fun newer older => older.mtime < newer.mtime

/-- The template of that name in `ts` is the one of this version of the file; an empty file is only used if there is no
built-in template of that name. -/
def Shown (L : Lang) (builtin ts : TSet) (name : Str) (w : TFile) : Prop :=
  ∃ t, Trimmed w.text t ∧ ts name = if L.blank t = true ∧ (builtin name).isSome = true then builtin name else some t

/-- No load fails on the way. -/
def Untroubled (L : Lang) (builtin : TSet) : Sys → List Action → Prop
  | s, [] => s.phase ≠ .failed
  | s, a :: as => s.phase ≠ .failed ∧ ∀ s', step L builtin s a = some s' → Untroubled L builtin s' as

end Booklit.Reload
