import Verif.Model.Str

/-!
Going down from a directory along the parts of a path.
-/

namespace Booklit

/-- Where one is after following the parts of a path from some directory, as the names of the directories on the way,
innermost first; `none` if this leads above the directory one started from. -/
def wander (at' : List Str) : List Str → Option (List Str)
  | [] => some at'
  | p :: ps =>
    if p = [] ∨ p = q%"." then wander at' ps
    else if p = q%".." then
      match at' with
      | [] => none
      | _ :: up => wander up ps
    else wander (p :: at') ps

/-- A path, as its parts with slashes between them, leads from a directory to the place `ps` below it without leaving it
on the way. -/
def Below (path : Str) (ps : List Str) : Prop :=
  ∃ cs : List Str, cs ≠ [] ∧ (∀ c ∈ cs, '/' ∉ c) ∧ path = ['/'].intercalate cs ∧ wander [] cs = some ps.reverse

end Booklit
