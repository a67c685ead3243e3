import Verif.Model.Peg

/-! Decidable equality of syntax trees and parser outcomes (used to evaluate concrete examples only). -/

namespace Booklit

mutual
def Node.decEq : (a b : Node) → Decidable (a = b)
  | .str s, .str t => if h : s = t then isTrue (by rw [h]) else isFalse (by simpa using h)
  | .invoke f a l, .invoke g b m =>
    if h : f = g then
      if h' : l = m then
        match decEqL a b with
        | isTrue h'' => isTrue (by rw [h, h', h''])
        | isFalse h'' => isFalse (by intro e; cases e; exact h'' rfl)
      else isFalse (by intro e; cases e; exact h' rfl)
    else isFalse (by intro e; cases e; exact h rfl)
  | .seq a, .seq b =>
    match decEqL a b with
    | isTrue h => isTrue (by rw [h])
    | isFalse h => isFalse (by intro e; cases e; exact h rfl)
  | .para a, .para b =>
    match decEqLL a b with
    | isTrue h => isTrue (by rw [h])
    | isFalse h => isFalse (by intro e; cases e; exact h rfl)
  | .pre a, .pre b =>
    match decEqLL a b with
    | isTrue h => isTrue (by rw [h])
    | isFalse h => isFalse (by intro e; cases e; exact h rfl)
  | .str _, .invoke .. | .str _, .seq _ | .str _, .para _ | .str _, .pre _
  | .invoke .., .str _ | .invoke .., .seq _ | .invoke .., .para _ | .invoke .., .pre _
  | .seq _, .str _ | .seq _, .invoke .. | .seq _, .para _ | .seq _, .pre _
  | .para _, .str _ | .para _, .invoke .. | .para _, .seq _ | .para _, .pre _
  | .pre _, .str _ | .pre _, .invoke .. | .pre _, .seq _ | .pre _, .para _ => isFalse (by intro e; cases e)
def decEqL : (a b : List Node) → Decidable (a = b)
  | [], [] => isTrue rfl
  | [], _ :: _ => isFalse (by simp)
  | _ :: _, [] => isFalse (by simp)
  | a :: as, b :: bs =>
    match Node.decEq a b with
    | isTrue h =>
      match decEqL as bs with
      | isTrue h' => isTrue (by rw [h, h'])
      | isFalse h' => isFalse (by intro e; cases e; exact h' rfl)
    | isFalse h => isFalse (by intro e; cases e; exact h rfl)
def decEqLL : (a b : List (List Node)) → Decidable (a = b)
  | [], [] => isTrue rfl
  | [], _ :: _ => isFalse (by simp)
  | _ :: _, [] => isFalse (by simp)
  | a :: as, b :: bs =>
    match decEqL a b with
    | isTrue h =>
      match decEqLL as bs with
      | isTrue h' => isTrue (by rw [h, h'])
      | isFalse h' => isFalse (by intro e; cases e; exact h' rfl)
    | isFalse h => isFalse (by intro e; cases e; exact h rfl)
end

instance : DecidableEq Node := Node.decEq

namespace Peg

mutual
def Val.decEq : (a b : Val) → Decidable (a = b)
  | .nil, .nil => isTrue rfl
  | .bytes a, .bytes b => if h : a = b then isTrue (by rw [h]) else isFalse (by simpa using h)
  | .str a, .str b => if h : a = b then isTrue (by rw [h]) else isFalse (by simpa using h)
  | .node a, .node b => if h : a = b then isTrue (by rw [h]) else isFalse (by simpa using h)
  | .list a, .list b =>
    match decEqVs a b with
    | isTrue h => isTrue (by rw [h])
    | isFalse h => isFalse (by intro e; cases e; exact h rfl)
  | .nil, .bytes _ | .nil, .str _ | .nil, .node _ | .nil, .list _
  | .bytes _, .nil | .bytes _, .str _ | .bytes _, .node _ | .bytes _, .list _
  | .str _, .nil | .str _, .bytes _ | .str _, .node _ | .str _, .list _
  | .node _, .nil | .node _, .bytes _ | .node _, .str _ | .node _, .list _
  | .list _, .nil | .list _, .bytes _ | .list _, .str _ | .list _, .node _ => isFalse (by intro e; cases e)
def decEqVs : (a b : List Val) → Decidable (a = b)
  | [], [] => isTrue rfl
  | [], _ :: _ => isFalse (by simp)
  | _ :: _, [] => isFalse (by simp)
  | a :: as, b :: bs =>
    match Val.decEq a b with
    | isTrue h =>
      match decEqVs as bs with
      | isTrue h' => isTrue (by rw [h, h'])
      | isFalse h' => isFalse (by intro e; cases e; exact h' rfl)
    | isFalse h => isFalse (by intro e; cases e; exact h rfl)
end

instance : DecidableEq Val := Val.decEq

deriving instance DecidableEq for Outcome

end Peg

end Booklit
