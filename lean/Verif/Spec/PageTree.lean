import Verif.Spec.Tree

/-! Specification of how a section tree is divided into pages and listed. -/

namespace Booklit

/-- The sections on the page of the top of the tree: going down as long as sections are not split. -/
def Tree.inlined (h : Heap) : Tree → List Nat
  | .node i ks => i :: (if (h.get i).split then [] else inlinedL h ks)
where
  inlinedL (h : Heap) : List Tree → List Nat
    | [] => []
    | k :: ks => k.inlined h ++ inlinedL h ks

/-- The subtrees, other than the tree itself, that start a new page: those directly below a split section. -/
def Tree.pages (h : Heap) : Tree → List Tree
  | .node i ks => pagesL h (h.get i).split ks
where
  pagesL (h : Heap) (split : Bool) : List Tree → List Tree
    | [] => []
    | k :: ks => (if split then [k] else []) ++ k.pages h ++ pagesL h split ks

/-- What a table of contents lists: all sections below, leaving out those below a section that omits its
children. -/
def Tree.listed (h : Heap) : Tree → List Nat
  | .node i ks => if (h.get i).omitToc then [] else listedL h ks
where
  listedL (h : Heap) : List Tree → List Nat
    | [] => []
    | k :: ks => k.root :: k.listed h ++ listedL h ks

end Booklit
