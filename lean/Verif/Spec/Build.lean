import Verif.Model.Build
import Verif.Spec.Visible

/-!
What is expected of a build.
-/

namespace Booklit

/-- The operating system has nothing against it. -/
def Outside.Fine (O : Outside) : Prop := ∀ p, O.mkdir p = true ∧ O.opens p = true ∧ O.writes p = true

/-- The whole book is to be written to a directory. -/
structure Job.Whole (J : Job) : Prop where
  out : J.out ≠ []
  tag : J.sectionTag = []
  path : J.sectionPath = []

/-- The sections from which a job renders pages, if loading is given the fuel `n`. -/
def Job.Loads (J : Job) (W : World) (n : Nat) (s : St) : Prop :=
  ∃ k i s0 j, loadFile W n none J.input [0] ⟨[], []⟩ = (.ok i, s0) ∧ J.choose W n k i s0 = (.ok j, s)

/-- A browser that is shown a page of the directory and follows the link `v` gets to a file of the directory that is a
page and has the place that is asked for. -/
def OnDisk (d : Disk) (dest v : Str) : Prop :=
  ∃ name frag txt ds, whereTo v = some (utf8 name, frag.map utf8) ∧ '/' ∉ name ∧ d (joinPath dest name) = some txt ∧
    readHtml txt = some ds ∧ ∀ a, frag = some a → HasAnchor ds a

end Booklit
