import Verif.Model.Section

/-!
The registry of plugins: `/repo/plugin.go`.
-/

namespace Booklit

/-- The map `plugins` (plugin.go:19): names and factories (numbers), at most one for each name. -/
abbrev Registry := List (Str × Nat)

/-- `RegisterPlugin` (plugin.go:25-28), an assignment to a map entry. -/
def Registry.register (r : Registry) (name : Str) (p : Nat) : Registry := (name, p) :: r.filter fun e => e.1 ≠ name

/-- `LookupPlugin` (plugin.go:31-34). -/
def Registry.find (r : Registry) (name : Str) : Option Nat := r.lookup name

end Booklit
