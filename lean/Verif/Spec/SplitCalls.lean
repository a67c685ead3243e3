import Verif.Model.Eval

/-!
The calls of `\single-page` and `\split-sections` in a document, in the order in which they are made.
-/

namespace Booklit

/-- The calls that decide whether a section is split. -/
inductive PageCall where
  | single | split
deriving DecidableEq

/-- The calls of `\single-page` and `\split-sections` that evaluating a node makes in the section it belongs to:
arguments come before the call they are given to, and what is in a `\section` belongs to another section. -/
def Node.pageCalls : Node → List PageCall
  | .str _ => []
  | .seq ns => seq ns
  | .para ls => lines ls
  | .pre ls => lines ls
  | .invoke fn args _ =>
    if methodName fn = q%"Section" then []
    else seq args ++ (if methodName fn = q%"SinglePage" then [.single] else
      if methodName fn = q%"SplitSections" then [.split] else [])
where
  seq : List Node → List PageCall
    | [] => []
    | n :: ns => n.pageCalls ++ seq ns
  lines : List (List Node) → List PageCall
    | [] => []
    | l :: ls => seq l ++ lines ls

/-- Some `\split-sections` comes before every `\single-page`. -/
def SplitFirst (cs : List PageCall) : Prop := ∃ a b, cs = a ++ .split :: b ∧ .single ∉ a

end Booklit
