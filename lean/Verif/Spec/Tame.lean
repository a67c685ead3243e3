import Verif.Lemmas.EvalInv

/-!
Specification vocabulary for C35 and C36: documents that cannot crash the evaluator, and files without include cycles.
All of this is decidable from the parsed documents.
-/

namespace Booklit

/-- The base function a call names. -/
def baseOf (fn : Str) : Option Base := baseMethods.lookup (methodName fn)

/-- Functions that return content when they succeed. -/
def Base.makes : Base → Bool
  | .aux | .tableOfContents | .style _ | .link | .reference | .target | .list | .orderedList | .image | .table
  | .tableRow | .definitions | .definition => true
  | _ => false

mutual
/-- If evaluating the node succeeds it gives some content. -/
def Node.yields : Node → Bool
  | .str _ => true
  | .seq ns => yieldsAny ns
  | .para ls => yieldsLines ls
  | .pre _ => true
  | .invoke fn _ _ => match baseOf fn with
    | some b => b.makes
    | none => true
def yieldsAny : List Node → Bool
  | [] => false
  | n :: ns => n.yields || yieldsAny ns
def yieldsLines : List (List Node) → Bool
  | [] => false
  | l :: ls => yieldsAny l || yieldsLines ls
end

mutual
/-- The content of the node does not depend on other sections: every `\reference` has its text, and every `\target` its
title and content. -/
def Node.closed : Node → Bool
  | .str _ => true
  | .seq ns => closedAll ns
  | .para ls => closedLines ls
  | .pre ls => closedLines ls
  | .invoke fn args _ => (match baseOf fn with
    | some .reference => decide (2 ≤ args.length)
    | some .target => args.length == 3
    | _ => true) && closedAll args
def closedAll : List Node → Bool
  | [] => true
  | n :: ns => n.closed && closedAll ns
def closedLines : List (List Node) → Bool
  | [] => true
  | l :: ls => closedAll l && closedLines ls
end

/-- An argument for a parameter of some type: for a content one, something that gives content; for a string one, also
without bare references. -/
def Node.fits (a : Node) : Ty → Bool
  | .string => a.yields && a.closed
  | .content => a.yields
  | .node => true
  | .other => true

/-- Arguments for the parameters of a function. -/
def argsFit : List Ty → Option Ty → List Node → Bool
  | _, _, [] => true
  | t :: ts, v, a :: as => a.fits t && argsFit ts v as
  | [], some v, a :: as => a.fits v && argsFit [] (some v) as
  | [], none, _ :: _ => true

/-- The arguments of a call of a base function. A title without explicit tags must be closed, as its tag is made from
its text. -/
def Base.argsOk (b : Base) (args : List Node) : Bool :=
  argsFit b.sig.1 b.sig.2 args && (decide (b ≠ .title) || args.length != 1 || closedAll args)

mutual
/-- All calls have fitting arguments. -/
def Node.tame : Node → Bool
  | .str _ => true
  | .seq ns => tameAll ns
  | .para ls => tameLines ls
  | .pre ls => tameLines ls
  | .invoke fn args _ => match baseOf fn with
    | some b => b.argsOk args && tameAll args
    | none => true
def tameAll : List Node → Bool
  | [] => true
  | n :: ns => n.tame && tameAll ns
def tameLines : List (List Node) → Bool
  | [] => true
  | l :: ls => tameAll l && tameLines ls
end

mutual
/-- The arguments of all calls of `\include-section` in the node. -/
def Node.includes : Node → List Node
  | .str _ => []
  | .seq ns => includesAll ns
  | .para ls => includesLines ls
  | .pre ls => includesLines ls
  | .invoke fn args _ => (if baseOf fn = some .includeSection then args else []) ++ includesAll args
def includesAll : List Node → List Node
  | [] => []
  | n :: ns => n.includes ++ includesAll ns
def includesLines : List (List Node) → List Node
  | [] => []
  | l :: ls => includesAll l ++ includesLines ls
end

mutual
/-- The text of a node made of texts only. -/
def Node.literal : Node → Option Str
  | .str s => some s
  | .seq ns => literalAll ns
  | _ => none
def literalAll : List Node → Option Str
  | [] => some []
  | n :: ns => match n.literal, literalAll ns with
    | some a, some b => some (a ++ b)
    | _, _ => none
end

/-- Only baselit: no other plugin has methods. -/
def World.baseOnly (W : World) : Prop := ∀ p name, W.foreign p name = none

/-- What is written in file `p`. -/
def World.Wrote (W : World) (p : Str) (n : Node) : Prop := ∃ info, W.fs p = some info ∧ parseFile p info = .ok n

/-- Every file that parses is tame. -/
def World.tame (W : World) : Prop := ∀ p n, W.Wrote p n → n.tame = true

/-- Every file includes only files of lower rank, which it names literally. -/
def World.acyclic (W : World) (rank : Str → Nat) : Prop :=
  ∀ p n, W.Wrote p n → ∀ a ∈ n.includes, ∃ t, a.literal = some t ∧ rank (joinPath (dirPath p) t) < rank p

end Booklit
