import Verif.Model.Amid
import Verif.Spec.Versions

/-!
What a request can find in the cache and in the files while it is being served.
-/

namespace Booklit.Cache

open Booklit

/-- The files as they are. -/
def Sys.files (s : Sys) (path : Str) : Option FileInfo :=
  if s.present path then (s.disk path).head? else none

/-- Whether files are changed. -/
def Action.changes : Action → Bool
  | .edit _ _ | .remove _ => true
  | _ => false

/-- While `as` happen after `s`, there is a time when the state is `t`. -/
def Passes (s : Sys) (as : List Action) (t : Sys) : Prop := ∃ bs cs, as = bs ++ cs ∧ run s bs = some t

/-- While `as` happen after `s`, there is a time when the file has this version, or is missing. -/
def Has (s : Sys) (as : List Action) (path : Str) (v : Option FileInfo) : Prop := ∃ t, Passes s as t ∧ t.files path = v

/-- While `as` happen after `s`, a call of `EvaluateFile` can find this: first it asks for the modification time, then it looks into
the cache, then it reads. -/
def Meets (s : Sys) (as : List Action) (m : Moment) : Prop :=
  ∃ bs cs ds es t u v, as = bs ++ cs ++ ds ++ es ∧ run s bs = some t ∧ run t cs = some u ∧ run u ds = some v ∧
    m = ⟨t.files, u.cache, v.files⟩

end Booklit.Cache
