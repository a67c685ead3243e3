import Verif.Model.Command
import Verif.Spec.Syntax

/-!
Everything without the places in source files. What is left says all that a reader of the book can see.
-/

namespace Booklit

mutual
/-- Content without places. -/
def Content.erased : Content → Content
  | .nil => .nil
  | .str s => .str s
  | .seq cs => .seq (erasedL cs)
  | .para cs => .para (erasedL cs)
  | .pre cs => .pre (erasedL cs)
  | .ref s t c o _ => .ref s t c.erased o Location.zero
  | .sect i => .sect i
  | .toc i => .toc i
  | .styled st b c ps => .styled st b c.erased (erasedP ps)
  | .target t _ ti c => .target t Location.zero ti.erased c.erased
  | .image p s => .image p s
  | .list cs o => .list (erasedL cs) o
  | .link c u => .link c.erased u
  | .table rs => .table (erasedR rs)
  | .defs ds => .defs (erasedD ds)
  | .lazy b i => .lazy b i
  | .aux c => .aux c.erased
/-- Several contents. -/
def erasedL : List Content → List Content
  | [] => []
  | c :: cs => c.erased :: erasedL cs
/-- Partials. -/
def erasedP : List (Str × Content) → List (Str × Content)
  | [] => []
  | (k, c) :: ps => (k, c.erased) :: erasedP ps
/-- Rows. -/
def erasedR : List (List Content) → List (List Content)
  | [] => []
  | r :: rs => erasedL r :: erasedR rs
/-- Definitions. -/
def erasedD : List (Content × Content) → List (Content × Content)
  | [] => []
  | (a, b) :: ds => (a.erased, b.erased) :: erasedD ds
end

/-- A tag. -/
def Tag.erased (g : Tag) : Tag :=
  { g with title := g.title.erased, content := g.content.erased, loc := Location.zero }

/-- A section. -/
def Sec.erased (x : Sec) : Sec :=
  { x with
    title := x.title.erased
    body := x.body.erased
    titleLoc := Location.zero
    primaryTag := x.primaryTag.erased
    tags := x.tags.map Tag.erased
    partials := x.partials.map fun p => (p.1, p.2.erased)
    loc := Location.zero
    invokeLoc := Location.zero }

/-- All sections. -/
def Heap.erased (h : Heap) : Heap := h.map Sec.erased

/-- An argument. -/
def Raw.erased : Raw → Raw
  | .str s => .str s
  | .content c => .content c.erased
  | .node n => .node n.erase

/-- An error: which one it is, about what and in which file, but not where in the file. -/
def Err.erased : Err → Err
  | .plain w => .plain w
  | .parse p _ => .parse p Location.zero
  | .undefined fn p _ => .undefined fn p Location.zero
  | .failed fn e p _ => .failed fn e.erased p Location.zero
  | .titleTwice p _ _ => .titleTwice p Location.zero Location.zero
  | .unknownTag t known p _ => .unknownTag t known p Location.zero
  | .ambiguous t ds p _ => .ambiguous t (ds.map fun d => (d.1, Location.zero)) p Location.zero

/-- A result. -/
def Res.erased {α β : Type} (f : α → β) : Res α → Res β
  | .ok a => .ok (f a)
  | .err e => .err e.erased
  | .panic => .panic
  | .more => .more

/-- A returned value. -/
def Ret.erased : Ret → Ret
  | .nothing => .nothing
  | .content c => .content c.erased
  | .error e => .error (e.map Err.erased)
  | .both c e => .both c.erased (e.map Err.erased)
  | .other => .other

/-- Plugins that do not look at places: what they return is the same, up to places, wherever in the source files things are
written. -/
def Blind (foreign : Nat → Str → Option Foreign) : Prop :=
  ∀ p name f, foreign p name = some f → ∀ (h : Heap) (i : Nat) (args : List Raw),
    f.run h.erased i (args.map Raw.erased) = (f.run h i args).erased

/-- The syntax trees of the files, without places. -/
def treesOf (fs : Str → Option FileInfo) (path : Str) : Option (Res Node) :=
  (fs path).map fun info => (parseFile path info).erased Node.erase

/-- Two files that parse alike: both are read and have the same syntax tree up to places, or both fail in the same way. -/
def ReadAlike (path : Str) (a b : FileInfo) : Prop :=
  (parseFile path a).erased Node.erase = (parseFile path b).erased Node.erase

/-- Two sets of files, with the same names and all parsing alike. -/
def FilesAlike (fs fs' : Str → Option FileInfo) : Prop :=
  ∀ path, match fs path, fs' path with
    | none, none => True
    | some a, some b => ReadAlike path a b
    | _, _ => False

end Booklit
