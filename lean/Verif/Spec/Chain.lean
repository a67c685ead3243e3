import Verif.Spec.Tame

/-!
Specification vocabulary for C36: files that include one another.
-/

namespace Booklit

/-- File `p` includes file `q`: it says so, by name, somewhere in it. -/
def World.Includes (W : World) (p q : Str) : Prop :=
  ∃ n, W.Wrote p n ∧ ∃ a ∈ n.includes, ∃ t, a.literal = some t ∧ q = joinPath (dirPath p) t

/-- Going from file to file along includes. -/
inductive World.IncludedBy (W : World) (p : Str) : Str → Prop
  | self : W.IncludedBy p p
  | step {q r : Str} : W.IncludedBy p q → W.Includes q r → W.IncludedBy p r

end Booklit
