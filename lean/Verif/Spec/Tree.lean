import Verif.Model.Section

/-!
Section trees as a specification: what it means for a heap to hold a tree of sections, and positions in it.
-/

namespace Booklit

/-- A finite tree of sections. -/
inductive Tree where
  | node (id : Nat) (kids : List Tree)

namespace Tree

/-- The section at the root. -/
def root : Tree → Nat
  | .node i _ => i

/-- The subtrees directly below. -/
def kids : Tree → List Tree
  | .node _ ks => ks

mutual
/-- All sections in document order (each before the ones below it). -/
def ids : Tree → List Nat
  | .node i ks => i :: idsL ks
def idsL : List Tree → List Nat
  | [] => []
  | k :: ks => k.ids ++ idsL ks
end

/-- `At t ks s`: `s` is the subtree of `t` reached by descending to the child number `ks[0]`, then `ks[1]`,
... (counting from 0). -/
inductive At (t : Tree) : List Nat → Tree → Prop
  | here : At t [] t
  | step {ks p k s} : At t ks p → p.kids[k]? = some s → At t (ks ++ [k]) s

/-- `s` occurs in `t`. -/
def Sub (t s : Tree) : Prop := ∃ ks, At t ks s

end Tree

/-- The recursion `f`, given as a function of fuel, comes to an end with the value `v`. -/
def Ends {α : Type} (f : Nat → Option α) (v : α) : Prop := ∃ N, ∀ n, N ≤ n → f n = some v

/-- The heap holds the section tree `t`: sections in it are distinct, children lists and parent pointers
agree with it, and its top has no parent. -/
structure Book (h : Heap) (t : Tree) : Prop where
  nodup : t.ids.Nodup
  children : ∀ s, t.Sub s → (h.get s.root).children = s.kids.map Tree.root
  parent : ∀ s, t.Sub s → ∀ k ∈ s.kids, (h.get k.root).parent = some s.root
  top : (h.get t.root).parent = none

/-- Numbers written in decimal and separated by dots, e.g. `3.2.10`. -/
def dotted : List Nat → Str
  | [] => []
  | [n] => Nat.toDigits 10 n
  | n :: m :: r => Nat.toDigits 10 n ++ '.' :: dotted (m :: r)

/-- The sections all of whose ancestors are split, in document order. -/
def Tree.visible (h : Heap) : Tree → List Nat
  | .node i ks => i :: (if (h.get i).split then visibleL h ks else [])
where
  visibleL (h : Heap) : List Tree → List Nat
    | [] => []
    | k :: ks => k.visible h ++ visibleL h ks

/-- The ancestors of the position `ks` in `t`, nearest first. -/
def Tree.ancestors (t : Tree) : List Nat → List Nat
  | [] => []
  | k :: ks => (match t.kids[k]? with
    | some c => c.ancestors ks
    | none => []) ++ [t.root]

/-- All tags of a book with a given name, in document order. -/
def Tree.tagsNamed (h : Heap) (t : Tree) (name : Str) : List Tag :=
  t.ids.flatMap fun i => (h.get i).tags.filter fun g => g.name = name

end Booklit
