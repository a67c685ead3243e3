import Verif.Spec.Tree
import Verif.Spec.Parts

/-!
Specification for C82: a section that is loaded apart from the book, in the place of a section of it.
-/

namespace Booklit

/-- The heap holds the section tree `u`, of which the top has the parent `p`. Nothing is said about the children of `p`. -/
structure Fragment (h : Heap) (p : Nat) (u : Tree) : Prop where
  nodup : u.ids.Nodup
  children : ∀ s, u.Sub s → (h.get s.root).children = s.kids.map Tree.root
  parent : ∀ s, u.Sub s → ∀ k ∈ s.kids, (h.get k.root).parent = some s.root
  top : (h.get u.root).parent = some p

/-- A book and a section loaded apart from it, for its top. -/
structure Apart (h : Heap) (t u : Tree) : Prop where
  book : Book h t
  frag : Fragment h t.root u
  disj : ∀ j ∈ u.ids, j ∉ t.ids
  len : t.root < h.length

/-- The heap in which section `c` is the last child of `p`. -/
def Heap.joined (h : Heap) (p c : Nat) : Heap := h.upd p fun x => { x with children := x.children ++ [c] }

/-- The tree `t` with `u` as the last part of it. -/
def Tree.joined (t u : Tree) : Tree := .node t.root (t.kids ++ [u])

/-- Contents that only stand for something in the sections of `u`: references look for tags from there, tables of contents are
of sections from there. -/
def Content.belongs (u : Tree) : Content → Bool
  | .ref s _ _ _ _ => u.ids.contains s
  | .sect i => u.ids.contains i
  | .toc i => u.ids.contains i
  | .lazy _ _ => false
  | _ => true

/-- Contents that do not stand for something in sections. -/
def Content.alone : Content → Bool
  | .ref _ _ _ _ _ => false
  | .sect _ => false
  | .toc _ => false
  | .lazy _ _ => false
  | _ => true

end Booklit
