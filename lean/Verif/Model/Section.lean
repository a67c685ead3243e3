import Verif.Model.Content

/-!
Sections: `/repo/section.go`. Pointers to sections are indices into a heap (a list of section records).

Functions that follow parent or child pointers recurse with fuel; `none` means that the fuel did not suffice
(an endless recursion when it is `none` for every fuel). The theorems show how much fuel suffices.
-/

namespace Booklit

/-- `Tag` (section.go:103-128). `sec` is `none` for a nil section pointer (the zero `Tag`). -/
structure Tag where
  name : Str
  title : Content
  sec : Option Nat
  anchor : Str
  content : Content
  loc : Location
deriving Inhabited

/-- The zero `Tag`. -/
def Tag.zero : Tag := ⟨[], .nil, none, [], .nil, Location.zero⟩

/-- `Section` (section.go:12-87). `PluginFactories` and `Plugins` are only ever extended together
(`UsePlugin`, section.go:394-397), so one list of plugin names stands for both. `Processor` is left out: the
evaluator takes its place. -/
structure Sec where
  path : Str
  title : Content
  body : Content
  titleLoc : Location
  primaryTag : Tag
  tags : List Tag
  parent : Option Nat
  children : List Nat
  style : Str
  partials : List (Str × Content)
  split : Bool
  preventSplit : Bool
  resetDepth : Bool
  omitToc : Bool
  plugins : List Nat
  loc : Location
  invokeLoc : Location
deriving Inhabited

/-- A freshly allocated section (load/processor.go:111-120 and 146-153): given parent and path, empty title
and body, everything else zero. -/
def Sec.fresh (parent : Option Nat) (path : Str) : Sec :=
  ⟨path, .str [], .str [], Location.zero, Tag.zero, [], parent, [], [], [], false, false, false, false, [],
    Location.zero, Location.zero⟩

abbrev Heap := List Sec

/-- Dereference. Indices used by the program are always in range; the default value is never looked at in the
theorems' hypotheses. -/
def Heap.get (h : Heap) (i : Nat) : Sec := h.getD i (Sec.fresh none [])

/-- Write through a pointer. -/
def Heap.upd (h : Heap) (i : Nat) (f : Sec → Sec) : Heap := h.modify i f

/-- `FilePath` (section.go:134-144). -/
def Heap.filePath (h : Heap) : Nat → Nat → Option Str
  | 0, _ => none
  | n + 1, i =>
    if (h.get i).path ≠ [] then some (h.get i).path
    else match (h.get i).parent with
      | some p => h.filePath n p
      | none => some []

/-- The loop of `Number` (section.go:213-220): 1 + the number of children before `i`. -/
def indexIn (i : Nat) : List Nat → Nat
  | [] => 1
  | c :: cs => if c = i then 1 else indexIn i cs + 1

/-- `fmt.Sprintf("%d", n)` for a natural number. -/
def decimal (n : Nat) : Str := Nat.toDigits 10 n

/-- `Number` (section.go:207-227). -/
def Heap.number (h : Heap) : Nat → Nat → Option Str
  | 0, _ => none
  | n + 1, i =>
    match (h.get i).parent with
    | none => some []
    | some p =>
      match h.number n p with
      | none => none
      | some pn =>
        let self := indexIn i (h.get p).children
        if pn = [] then some (decimal self) else some (pn ++ ['.'] ++ decimal self)

/-- `Tag.Anchor != ""` for some tag. -/
def hasAnchor (ts : List Tag) : Bool := ts.any fun t => t.anchor ≠ []

mutual
/-- `HasAnchors` (section.go:231-249). -/
def Heap.hasAnchors (h : Heap) : Nat → Nat → Option Bool
  | 0, _ => none
  | n + 1, i =>
    if hasAnchor (h.get i).tags then some true
    else if (h.get i).split then some false
    else h.hasAnchorsAny n (h.get i).children
/-- Its loop over the children (section.go:242-246). -/
def Heap.hasAnchorsAny (h : Heap) : Nat → List Nat → Option Bool
  | _, [] => some false
  | 0, _ => none
  | n + 1, c :: cs =>
    match h.hasAnchors n c with
    | none => none
    | some true => some true
    | some false => h.hasAnchorsAny n cs
end

/-- `AnchorTags` (section.go:252-264). -/
def Heap.anchorTags (h : Heap) (i : Nat) : List Tag := (h.get i).tags.filter fun t => t.anchor ≠ []

/-- `Top` (section.go:267-273). -/
def Heap.top (h : Heap) : Nat → Nat → Option Nat
  | 0, _ => none
  | n + 1, i =>
    match (h.get i).parent with
    | some p => h.top n p
    | none => some i

mutual
/-- `Contains` (section.go:277-289). -/
def Heap.contains (h : Heap) : Nat → Nat → Nat → Option Bool
  | 0, _, _ => none
  | n + 1, i, sub => if i = sub then some true else h.containsAny n (h.get i).children sub
/-- Its loop over the children (section.go:282-286). -/
def Heap.containsAny (h : Heap) : Nat → List Nat → Nat → Option Bool
  | _, [], _ => some false
  | 0, _, _ => none
  | n + 1, c :: cs, sub =>
    match h.contains n c sub with
    | none => none
    | some true => some true
    | some false => h.containsAny n cs sub
end

/-- `IsOrHasChild` (section.go:293-305). -/
def Heap.isOrHasChild (h : Heap) (i sub : Nat) : Bool := i = sub || (h.get i).children.contains sub

/-- The loop of `Prev` (section.go:316-323): the child before `i`, if `i` is not the first child. -/
def prevIn (i : Nat) : Option Nat → List Nat → Option Nat
  | _, [] => none
  | last, c :: cs =>
    match last with
    | some l => if c = i then some l else prevIn i (some c) cs
    | none => prevIn i (some c) cs

/-- `Prev` (section.go:311-326). `none` is nil. -/
def Heap.prev (h : Heap) (i : Nat) : Option Nat :=
  match (h.get i).parent with
  | none => none
  | some p =>
    match prevIn i none (h.get p).children with
    | some l => some l
    | none => some p

/-- The loop of `NextSibling` (section.go:350-359): the child after `i`. -/
def nextIn (i : Nat) : Bool → List Nat → Option Nat
  | _, [] => none
  | true, c :: _ => some c
  | false, c :: cs => nextIn i (c == i) cs

/-- `NextSibling` (section.go:345-362). The inner `none` is nil. -/
def Heap.nextSibling (h : Heap) : Nat → Nat → Option (Option Nat)
  | 0, _ => none
  | n + 1, i =>
    match (h.get i).parent with
    | none => some none
    | some p =>
      match nextIn i false (h.get p).children with
      | some c => some (some c)
      | none => h.nextSibling n p

/-- `Next` (section.go:330-338). -/
def Heap.next (h : Heap) (n : Nat) (i : Nat) : Option (Option Nat) :=
  if (h.get i).split then
    match (h.get i).children with
    | c :: _ => some (some c)
    | [] => h.nextSibling n i
  else h.nextSibling n i

mutual
/-- `filterTags` with `up = false` (section.go:432-452): own tags, then those of the children. -/
def Heap.tagsDown (h : Heap) (m : Str → Bool) : Nat → Nat → Option (List Tag)
  | 0, _ => none
  | n + 1, i => do
    let below ← h.tagsDownAll m n none (h.get i).children
    some ((h.get i).tags.filter (fun t => m t.name) ++ below)
/-- Its loop over the children other than `exclude` (section.go:441-445). -/
def Heap.tagsDownAll (h : Heap) (m : Str → Bool) : Nat → Option Nat → List Nat → Option (List Tag)
  | _, _, [] => some []
  | 0, _, _ => none
  | n + 1, exclude, c :: cs =>
    if exclude = some c then h.tagsDownAll m n exclude cs
    else do
      let a ← h.tagsDown m n c
      let b ← h.tagsDownAll m n exclude cs
      some (a ++ b)
end

/-- `filterTags` with `up = true` (section.go:432-452). -/
def Heap.tagsUp (h : Heap) (m : Str → Bool) : Nat → Option Nat → Nat → Option (List Tag)
  | 0, _, _ => none
  | n + 1, exclude, i => do
    let below ← h.tagsDownAll m n exclude (h.get i).children
    let own := (h.get i).tags.filter fun t => m t.name
    match (h.get i).parent with
    | none => some (own ++ below)
    | some p =>
      let above ← h.tagsUp m n (some i) p
      some (own ++ below ++ above)

/-- `FindTag` (section.go:365-369). -/
def Heap.findTag (h : Heap) (n : Nat) (i : Nat) (name : Str) : Option (List Tag) :=
  h.tagsUp (fun o => o == name) n none i

/-- `SetPartial` (section.go:380-386). -/
def Sec.setPartial (s : Sec) (name : Str) (c : Content) : Sec :=
  { s with partials := (name, c) :: s.partials.filter fun p => p.1 ≠ name }

/-- `Partial` (section.go:389-391): nil if absent. -/
def Sec.partialOf (s : Sec) (name : Str) : Content :=
  match s.partials.lookup name with
  | some c => c
  | none => .nil

/-- `UsePlugin` (section.go:394-397). -/
def Sec.usePlugin (s : Sec) (p : Nat) : Sec := { s with plugins := s.plugins ++ [p] }

/-- `Depth` (section.go:400-406). -/
def Heap.depth (h : Heap) : Nat → Nat → Option Nat
  | 0, _ => none
  | n + 1, i =>
    match (h.get i).parent with
    | none => some 0
    | some p => (h.depth n p).map (· + 1)

/-- `PageDepth` (section.go:410-416). -/
def Heap.pageDepth (h : Heap) : Nat → Nat → Option Nat
  | 0, _ => none
  | n + 1, i =>
    match (h.get i).parent with
    | none => some 0
    | some p => if (h.get p).resetDepth then some 0 else (h.pageDepth n p).map (· + 1)

/-- The template function `headerDepth` (render/html.go:51-58). -/
def Heap.headerDepth (h : Heap) (n i : Nat) : Option Nat :=
  (h.pageDepth n i).map fun d => if d + 1 > 6 then 6 else d + 1

/-- `SplitSectionsPrevented` (section.go:420-430). -/
def Heap.splitPrevented (h : Heap) : Nat → Nat → Option Bool
  | 0, _ => none
  | n + 1, i =>
    if (h.get i).preventSplit then some true
    else match (h.get i).parent with
      | none => some false
      | some p => h.splitPrevented n p

/-- `SetTag` (section.go:174-188), without anchor. -/
def Heap.setTag (h : Heap) (i : Nat) (name : Str) (title : Content) (loc : Location) : Heap :=
  h.upd i fun s => { s with tags := s.tags ++ [⟨name, title, some i, [], .nil, loc⟩] }

/-- `SetTagAnchored` (section.go:192-203). -/
def Heap.setTagAnchored (h : Heap) (i : Nat) (name : Str) (title : Content) (loc : Location) (content : Content)
    (anchor : Str) : Heap :=
  h.upd i fun s => { s with tags := s.tags ++ [⟨name, title, some i, anchor, content, loc⟩] }

end Booklit
