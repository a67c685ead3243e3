import Verif.Model.Command

/-!
What is asked of a command by its flags.
-/

namespace Booklit

open Templates Tmpl

/-- What deferred contents are, and whether broken references are allowed. -/
def Options.site (F : Options) (m : Machine) : Site := ⟨F.brokenOk, m.force⟩

/-- The directory of the templates for the engine that is used. -/
def Options.dir (F : Options) : Str := if F.textExt ≠ [] then F.textTemplates else F.htmlTemplates

/-- The engine that is used. -/
def Options.engine (F : Options) (m : Machine) : Res Engine :=
  if F.textExt ≠ [] then m.engine (textMode F.textExt) builtinText F.dir (F.site m)
  else m.engine htmlMode builtinHtml F.dir (F.site m)

/-- The text engine with the pages of the model. -/
def plainEngine (ext : Str) (S : Site) : Engine := ⟨ext, fun h n i => h.txtPage S n i⟩

end Booklit
