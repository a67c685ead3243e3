import Verif.Spec.Erased

/-!
Specification vocabulary for C89: books that differ only in which sections have files of their own.
-/

namespace Booklit

/-- The syntax trees of the files of a book. -/
abbrev Trees := Str → Option (Res Node)

/-- The argument of `\include-section` names a file. -/
def NamesFile (a : Node) (g : Str) : Prop := a = .str g ∨ a = .seq [.str g]

/-- An invocation of `\include-section`, in one of the ways to write it. -/
def Includes (fn : Str) : Prop := methodName fn = q%"IncludeSection"

mutual
/-- Two trees, in files of the directories `D.1` and `D.2`, that differ only in that some sections are written down inline on the one side
and included from a file on the other. `P` and `P'` are the files of the two sides, `B` says which files are used by both, and `e` bounds how
deep inclusions that are on one side only are nested. The names of files are relative to the directory of the file they are written in, so
that a section that is moved to another directory has to name its own files anew. -/
inductive Splits (B : Str → Prop) (P P' : Trees) : Str × Str → Nat → Node → Node → Prop
  | str {D : Str × Str} {e : Nat} {s : Str} : Splits B P P' D e (.str s) (.str s)
  | seq {D : Str × Str} {e : Nat} {ns ns' : List Node} : SplitsL B P P' D e ns ns' → Splits B P P' D e (.seq ns) (.seq ns')
  | para {D : Str × Str} {e : Nat} {ls ls' : List (List Node)} : SplitsR B P P' D e ls ls' → Splits B P P' D e (.para ls) (.para ls')
  | pre {D : Str × Str} {e : Nat} {ls ls' : List (List Node)} : SplitsR B P P' D e ls ls' → Splits B P P' D e (.pre ls) (.pre ls')
  | invoke {D : Str × Str} {e : Nat} {fn : Str} {as as' : List Node} {l : Location} : (Includes fn → D.1 = D.2 ∧ ∀ path, B path) →
      SplitsL B P P' D e as as' → Splits B P P' D e (.invoke fn as l) (.invoke fn as' l)
  /-- a file is included on both sides -/
  | shared {D : Str × Str} {e : Nat} {a a' : Node} {g g' : Str} {l : Location} : NamesFile a g → NamesFile a' g' →
      joinPath D.2 g' = joinPath D.1 g → B (joinPath D.1 g) →
      Splits B P P' D e (.invoke q%"include-section" [a] l) (.invoke q%"include-section" [a'] l)
  /-- a section is moved to a file -/
  | moved {D : Str × Str} {e : Nat} {a b b' : Node} {g : Str} {l : Location} : NamesFile a g → P' (joinPath D.2 g) = some (.ok b') →
      Splits B P P' (D.1, dirPath (joinPath D.2 g)) e b b' →
      Splits B P P' D (e + 1) (.invoke q%"section" [b] l) (.invoke q%"include-section" [a] l)
  /-- a file becomes a section -/
  | joined {D : Str × Str} {e : Nat} {a b b' : Node} {g : Str} {l : Location} : NamesFile a g → P (joinPath D.1 g) = some (.ok b) →
      Splits B P P' (dirPath (joinPath D.1 g), D.2) e b b' →
      Splits B P P' D (e + 1) (.invoke q%"include-section" [a] l) (.invoke q%"section" [b'] l)
/-- Several trees. -/
inductive SplitsL (B : Str → Prop) (P P' : Trees) : Str × Str → Nat → List Node → List Node → Prop
  | nil {D : Str × Str} {e : Nat} : SplitsL B P P' D e [] []
  | cons {D : Str × Str} {e : Nat} {n n' : Node} {ns ns' : List Node} : Splits B P P' D e n n' → SplitsL B P P' D e ns ns' →
      SplitsL B P P' D e (n :: ns) (n' :: ns')
/-- Several lines. -/
inductive SplitsR (B : Str → Prop) (P P' : Trees) : Str × Str → Nat → List (List Node) → List (List Node) → Prop
  | nil {D : Str × Str} {e : Nat} : SplitsR B P P' D e [] []
  | cons {D : Str × Str} {e : Nat} {ns ns' : List Node} {ls ls' : List (List Node)} : SplitsL B P P' D e ns ns' → SplitsR B P P' D e ls ls' →
      SplitsR B P P' D e (ns :: ls) (ns' :: ls')
end

mutual
/-- All inclusions in the tree are written as `\include-section{g}`, with a file `g` that is `ok`. -/
def Node.includesOnly (ok : Str → Bool) : Node → Bool
  | .str _ => true
  | .seq ns => includesOnlyL ok ns
  | .para ls => includesOnlyR ok ls
  | .pre ls => includesOnlyR ok ls
  | .invoke fn as _ =>
    if methodName fn = q%"IncludeSection" then
      match as with
      | [.str g] => fn == q%"include-section" && ok g
      | [.seq [.str g]] => fn == q%"include-section" && ok g
      | _ => false
    else includesOnlyL ok as
/-- Several trees. -/
def includesOnlyL (ok : Str → Bool) : List Node → Bool
  | [] => true
  | n :: ns => n.includesOnly ok && includesOnlyL ok ns
/-- Several lines. -/
def includesOnlyR (ok : Str → Bool) : List (List Node) → Bool
  | [] => true
  | l :: ls => includesOnlyL ok l && includesOnlyR ok ls
end

/-- A paragraph that is nothing but `\section{…}`. -/
def inlineSection (b : Node) : Node := .para [[.invoke q%"section" [b] Location.zero]]

/-- A paragraph that is nothing but `\include-section{g}`. -/
def includedSection (g : Str) : Node := .para [[.invoke q%"include-section" [.seq [.str g]] Location.zero]]

/-- Two sets of files. Those that are used by both have the same trees, except that some sections are inline in the one and included in
the other. -/
def FilesSplit (E : Nat) (B : Str → Prop) (P P' : Trees) : Prop :=
  ∀ path t, B path → P path = some (.ok t) → ∃ t', P' path = some (.ok t') ∧ Splits B P P' (dirPath path, dirPath path) E t t'

end Booklit
