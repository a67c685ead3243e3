import Verif.Model.Answer

/-!
The life of a development server: requests and changes of files.
-/

namespace Booklit

/-- A state of the files: what is under each path. -/
abbrev Files := Str → Option FileInfo

/-- The plugins with these files. -/
def World.on (W : World) (fs : Files) : World := { W with fs := fs }

/-- A file that is not as it was has a later modification time than it had. -/
def Later (old new : Files) : Prop :=
  ∀ path i i', old path = some i → new path = some i' → i'.data = i.data ∨ i.mtime < i'.mtime

/-- The server has been started, has answered requests, and meanwhile the files have been changed: `past` are the states of the
files since the start, the last one first, `s` what the server remembers. -/
inductive Served (W : World) (E : Engine) (input : Str) : List Files → St → Prop
  | start (fs : Files) : Served W E input [fs] ⟨[], []⟩
  | request {fs : Files} {past : List Files} {s : St} (n k : Nat) (path : Str) : Served W E input (fs :: past) s →
      Served W E input (fs :: past) (answer (W.on fs) E n k input path s).2
  | edit {past : List Files} {s : St} (fs : Files) : Served W E input past s → (∀ old ∈ past, Later old fs) →
      Served W E input (fs :: past) s

end Booklit
