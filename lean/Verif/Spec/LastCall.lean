import Verif.Model.Eval

/-!
Which call is the last one written in a text (C38).
-/

namespace Booklit

mutual
/-- The location of the last call written in a node, `l` if there is none. What is in the argument of `\section` is not looked at. -/
def Node.lastCall : Node → Location → Location
  | .str _, l => l
  | .seq ns, l => lastCalls ns l
  | .para ls, l => lastLines ls l
  | .pre ls, l => lastLines ls l
  | .invoke fn args loc, _ => if methodName fn = q%"Section" then loc else lastCalls args loc
def lastCalls : List Node → Location → Location
  | [], l => l
  | n :: ns, l => lastCalls ns (n.lastCall l)
def lastLines : List (List Node) → Location → Location
  | [], l => l
  | ns :: ls, l => lastLines ls (lastCalls ns l)
end

/-- The methods of plugins evaluate their arguments first. -/
def World.NoNodes (W : World) : Prop := ∀ p name f, W.foreign p name = some f → Ty.node ∉ f.params ∧ f.variadic ≠ some .node

end Booklit
