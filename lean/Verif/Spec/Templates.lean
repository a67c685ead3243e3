import Verif.Model.Templates

/-! Specification of loading templates. -/

namespace Booklit.Templates

/-- `t` is `s` without the newlines at its end. -/
def Trimmed (s t : Str) : Prop := (∃ k, s = t ++ List.replicate k '\n') ∧ t.getLast? ≠ some '\n'

/-- The templates `ts` are the built-in ones with those in the directory put over them; a file that is empty is only used
if there is no built-in template of that name. -/
def InUse (L : Lang) (builtin : TSet) (d : Dir) (ts : TSet) : Prop :=
  ∀ name, match d.lookup name with
    | none => ts name = builtin name
    | some f => ∃ t, Trimmed f.text t ∧ ts name = if L.blank t = true ∧ (builtin name).isSome = true then builtin name else some t

/-- All files in the directory parse. -/
def AllParse (L : Lang) (d : Dir) : Prop := ∀ f ∈ d, ∀ t, Trimmed f.2.text t → L.parses t = true

/-- What a directory may become: files are added or changed, not removed, and a changed file has a later
modification time. -/
def Evolves (d d' : Dir) : Prop :=
  ∀ name f, d.lookup name = some f → ∃ f', d'.lookup name = some f' ∧ f.mtime ≤ f'.mtime ∧ (f'.mtime ≤ f.mtime → f' = f)

/-- A history of the directory, the latest state first. -/
def History : List Dir → Prop
  | [] => True
  | [d] => (d.map (·.1)).Nodup
  | d :: d0 :: ds => (d.map (·.1)).Nodup ∧ Evolves d0 d ∧ History (d0 :: ds)

/-- The engine after loading templates at each of the states of the directory. -/
def after (L : Lang) (builtin : TSet) : List Dir → Eng
  | [] => Eng.new builtin
  | d :: ds => (L.loadTemplates builtin d (after L builtin ds)).2

end Booklit.Templates
