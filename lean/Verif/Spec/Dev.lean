import Verif.Model.Dev
import Verif.Spec.Served
import Verif.Spec.Templates

/-!
The life of a development server with templates: requests and changes of files and templates.
-/

namespace Booklit

open Templates

/-- The server has been started, has answered requests, and meanwhile the files and the templates have been changed: `past` are their
states since the start, the last one first, `s` what the server remembers. Templates are added or changed, with later modification times,
and not removed. `own`: a directory of templates was named when the server was started. -/
inductive Developed (W : World) (S : Site) (input : Str) (own : Bool) : List (Files × Dir) → DevState → Prop
  | start (fs : Files) (d : Dir) : (d.map (·.1)).Nodup → Developed W S input own [(fs, d)] .new
  | request {fs : Files} {d : Dir} {past : List (Files × Dir)} {s : DevState} (n k : Nat) (path : Str) :
      Developed W S input own ((fs, d) :: past) s →
      Developed W S input own ((fs, d) :: past) (devAnswer (W.on fs) S (if own then some d else none) n k input path s).2
  | edit {past : List (Files × Dir)} {s : DevState} (fs : Files) (d : Dir) : Developed W S input own past s →
      (∀ old ∈ past, Later old.1 fs ∧ Evolves old.2 d) → (d.map (·.1)).Nodup → Developed W S input own ((fs, d) :: past) s

end Booklit
