import Verif.Model.Eval

/-!
Collection of targets (`/repo/stages/collect.go`) and `LoadFile` (`/repo/load/processor.go`).
-/

namespace Booklit

/-- What `VisitTarget` passes on (collect.go:123-126): tag name, location, title and content. -/
structure Target where
  name : Str
  loc : Location
  title : Content
  content : Content

/-- Two steps in a row, either of which may dereference nil. -/
def andThen (a b : Option (List Target)) : Option (List Target) :=
  match a, b with
  | some x, some y => some (x ++ y)
  | _, _ => none

mutual
/-- The calls of `VisitTarget` made by visiting content with a `Collect` (collect.go), in order. `none`: a nil
content is visited, which panics. Sections as content are dealt with by their own visit (`collect.go:59-89`); no
content made by booklit itself contains one, and here they count as having no targets. Auxiliary content passes the
visit on to its content (aux_.go:9-11). -/
def targets : Content → Option (List Target)
  | .nil => none
  | .str _ => some []                                     -- collect.go:12-14
  | .seq cs => targetsL cs                                -- collect.go:17-26
  | .para cs => targetsL cs                               -- collect.go:29-38
  | .pre cs => targetsL cs                                -- collect.go:41-50
  | .ref _ _ _ _ _ => some []                             -- collect.go:53-55
  | .sect _ => some []
  | .toc _ => some []                                     -- collect.go:92-94
  | .styled _ _ c ps => andThen (targets c) (targetsP ps) -- collect.go:97-115
  | .target n l ti c => some [⟨n, l, ti, c⟩]              -- collect.go:123-126
  | .image _ _ => some []                                 -- collect.go:118-120
  | .list cs _ => targetsL cs                             -- collect.go:129-138
  | .link c _ => targets c                                -- collect.go:141-143
  | .table rs => targetsR rs                              -- collect.go:146-157
  | .defs ds => targetsD ds                               -- collect.go:160-174
  | .lazy _ _ => some []                                  -- collect.go:177-179
  | .aux c => targets c
/-- Several contents, in order. -/
def targetsL : List Content → Option (List Target)
  | [] => some []
  | c :: cs => andThen (targets c) (targetsL cs)
/-- The partials of styled content; nil ones are skipped (collect.go:103-112). -/
def targetsP : List (Str × Content) → Option (List Target)
  | [] => some []
  | (_, c) :: ps => andThen (if c.isNil then some [] else targets c) (targetsP ps)
/-- Rows of a table. -/
def targetsR : List (List Content) → Option (List Target)
  | [] => some []
  | r :: rs => andThen (targetsL r) (targetsR rs)
/-- Definitions. -/
def targetsD : List (Content × Content) → Option (List Target)
  | [] => some []
  | (a, b) :: ds => andThen (andThen (targets a) (targets b)) (targetsD ds)
end

/-- The title, body and partials of a section (collect.go:60-75). Partials are visited in the order of the
association list that stands for the Go map. A nil partial is visited too. -/
def Sec.targets (x : Sec) : Option (List Target) :=
  andThen (Booklit.targets x.title) (andThen (Booklit.targets x.body) (targetsL (x.partials.map (·.2))))

/-- `SetTagAnchored` for each target (collect.go:124). -/
def Heap.addTargets (h : Heap) (i : Nat) : List Target → Heap
  | [] => h
  | t :: ts => (h.setTagAnchored i t.name t.title t.loc t.content t.name).addTargets i ts

/-- The loop over the children (collect.go:77-86), given how a child is visited. -/
def collectLoop (visit : Heap → Nat → Res Heap) : Heap → List Nat → Res Heap
  | h, [] => .ok h
  | h, c :: cs => (visit h c).bind fun h' => collectLoop visit h' cs

/-- `VisitSection` (collect.go:59-89) of section `i`, with fuel for the depth of nesting. -/
def collectSection : Nat → Heap → Nat → Res Heap
  | 0, _, _ => .more
  | n + 1, h, i =>
    match (h.get i).targets with
    | none => .panic
    | some ts => collectLoop (collectSection n) (h.addTargets i ts) (h.get i).children

/-- `VisitSection` of section `i`. -/
def Heap.collect (h : Heap) (n : Nat) (i : Nat) : Res Heap := collectSection n h i

/-- `LoadFileIn` (processor.go:46-53, 185-196). -/
def loadFile (W : World) (n : Nat) (parent : Option Nat) (path : Str) (plugins : List Nat) : M Nat := do
  let i ← evalFile W n parent path plugins
  fun s =>
    match s.heap.collect n i with
    | .ok h => (.ok i, { s with heap := h })
    | .err e => (.err e, s)
    | .panic => (.panic, s)
    | .more => (.more, s)

end Booklit
