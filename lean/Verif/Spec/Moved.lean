import Verif.Model.Html
import Verif.Model.Eval

/-!
The same sections in another place of the heap: all section numbers are greater by `d`.
-/

namespace Booklit

mutual
/-- Content with the sections it points to moved by `d`. -/
def Content.moved (d : Nat) : Content → Content
  | .nil => .nil
  | .str s => .str s
  | .seq cs => .seq (movedL d cs)
  | .para cs => .para (movedL d cs)
  | .pre cs => .pre (movedL d cs)
  | .ref s t c o l => .ref (s + d) t (c.moved d) o l
  | .sect i => .sect (i + d)
  | .toc i => .toc (i + d)
  | .styled st b c ps => .styled st b (c.moved d) (movedP d ps)
  | .target t l ti c => .target t l (ti.moved d) (c.moved d)
  | .image p s => .image p s
  | .list cs o => .list (movedL d cs) o
  | .link c u => .link (c.moved d) u
  | .table rs => .table (movedR d rs)
  | .defs ds => .defs (movedD d ds)
  | .lazy b i => .lazy b i
  | .aux c => .aux (c.moved d)
/-- Several contents. -/
def movedL (d : Nat) : List Content → List Content
  | [] => []
  | c :: cs => c.moved d :: movedL d cs
/-- Partials. -/
def movedP (d : Nat) : List (Str × Content) → List (Str × Content)
  | [] => []
  | (k, c) :: ps => (k, c.moved d) :: movedP d ps
/-- Rows. -/
def movedR (d : Nat) : List (List Content) → List (List Content)
  | [] => []
  | r :: rs => movedL d r :: movedR d rs
/-- Definitions. -/
def movedD (d : Nat) : List (Content × Content) → List (Content × Content)
  | [] => []
  | (a, b) :: ds => (a.moved d, b.moved d) :: movedD d ds
end

/-- A tag. -/
def Tag.moved (d : Nat) (g : Tag) : Tag :=
  { g with title := g.title.moved d, sec := g.sec.map (· + d), content := g.content.moved d }

/-- A section. -/
def Sec.moved (d : Nat) (x : Sec) : Sec :=
  { x with
    title := x.title.moved d
    body := x.body.moved d
    primaryTag := x.primaryTag.moved d
    tags := x.tags.map (Tag.moved d)
    parent := x.parent.map (· + d)
    children := x.children.map (· + d)
    partials := x.partials.map fun p => (p.1, p.2.moved d) }

/-- The sections `h` behind the sections `old`. -/
def Heap.behind (old h : Heap) : Heap := old ++ h.map (Sec.moved old.length)

/-- An argument. -/
def Raw.moved (d : Nat) : Raw → Raw
  | .str s => .str s
  | .content c => .content (c.moved d)
  | .node n => .node n

/-- A returned value. -/
def Ret.moved (d : Nat) : Ret → Ret
  | .nothing => .nothing
  | .content c => .content (c.moved d)
  | .error e => .error e
  | .both c e => .both (c.moved d) e
  | .other => .other

/-- Plugins that see only the sections they are given: what they return does not depend on sections of books that were loaded
before, nor on where in memory the sections are. Here for the sections `old` that were loaded before. -/
def World.LocalAt (W : World) (old : Heap) : Prop :=
  ∀ p name f, W.foreign p name = some f → ∀ (h : Heap) (i : Nat) (args : List Raw),
    f.run (old.behind h) (i + old.length) (args.map (Raw.moved old.length)) = (f.run h i args).moved old.length

/-- The same for all sections that could have been loaded before. -/
def World.Local (W : World) : Prop := ∀ old, W.LocalAt old

end Booklit
