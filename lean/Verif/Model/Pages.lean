import Verif.Model.Section

/-!
References to tags (`/repo/reference.go`), page ownership and URLs (`/repo/render/common.go`), the pages written
(`/repo/render/writer.go`) and the sections a page shows (`/repo/render/html/section.tmpl`).
-/

namespace Booklit

/-- Result of resolving a reference: a tag, no tag (the nil tag of an optional reference), or one of the errors. -/
inductive Resolved where
  | tag (t : Tag)
  | nothing
  | unknown
  | ambiguous (locs : List (Option Nat × Location))

/-- `Reference.resolve` (reference.go:116-158), reference in section `i`. The errors' file paths are represented
by the sections (`FilePath` of each), their other fields are left out. `SimilarTags` (section.go:373-377) is left
out: it only adds suggestions to the message. -/
def Heap.resolve (h : Heap) (n : Nat) (i : Nat) (name : Str) (optional : Bool) : Option Resolved :=
  (h.findTag n i name).map fun
    | [t] => .tag t
    | [] => if optional then .nothing else .unknown
    | ts => .ambiguous (ts.map fun t => (t.sec, t.loc))

/-- `Reference.Tag` (reference.go:86-112) without the cached tag. With `AllowBrokenReferences` an error becomes a
made-up tag. -/
def Heap.refTag (h : Heap) (n : Nat) (allowBroken : Bool) (i : Nat) (name : Str) (optional : Bool) (loc : Location) :
    Option Resolved :=
  (h.resolve n i name optional).map fun r =>
    match r, allowBroken with
    | .unknown, true | .ambiguous _, true =>
      .tag ⟨name, .str (q%"{broken reference: " ++ name ++ q%"}"), some i, q%"broken", .nil, loc⟩
    | r, _ => r

/-- `sectionPageOwner` (render/common.go:12-22). -/
def Heap.pageOwner (h : Heap) : Nat → Nat → Option Nat
  | 0, _ => none
  | n + 1, i =>
    match (h.get i).parent with
    | none => some i
    | some p => if (h.get p).split then some i else h.pageOwner n p

/-- The file name of a page (render/common.go:35, render/writer.go:119). -/
def Heap.fileName (h : Heap) (ext : Str) (i : Nat) : Str := (h.get i).primaryTag.name ++ ['.'] ++ ext

/-- `sectionURL` (render/common.go:24-43). -/
def Heap.sectionURL (h : Heap) (ext : Str) : Nat → Nat → Str → Option Str
  | 0, _, _ => none
  | n + 1, i, anchor =>
    match h.pageOwner n i with
    | none => none
    | some o =>
      if o ≠ i then
        h.sectionURL ext n o (if anchor = [] then (h.get i).primaryTag.name else anchor)
      else
        some (if anchor ≠ [] then h.fileName ext i ++ ['#'] ++ anchor else h.fileName ext i)

/-- `HTMLEngine.URL` (render/html.go:160-162). A tag without section (nil pointer) crashes: `none` outside. -/
def Heap.url (h : Heap) (ext : Str) (n : Nat) (t : Tag) : Option Str :=
  match t.sec with
  | none => none
  | some i => h.sectionURL ext n i t.anchor

/-- The condition in `WriteSection` (render/writer.go:51). -/
def Heap.isPage (h : Heap) (i : Nat) : Bool :=
  match (h.get i).parent with
  | none => true
  | some p => (h.get p).split

mutual
/-- `WriteSection` (render/writer.go:50-66): the sections rendered to a file of their own, in order. -/
def Heap.written (h : Heap) : Nat → Nat → Option (List Nat)
  | 0, _ => none
  | n + 1, i => do
    let below ← h.writtenAll n (h.get i).children
    some ((if h.isPage i then [i] else []) ++ below)
/-- Its loop over the children (render/writer.go:58-63). -/
def Heap.writtenAll (h : Heap) : Nat → List Nat → Option (List Nat)
  | _, [] => some []
  | 0, _ => none
  | n + 1, c :: cs => do
    let a ← h.written n c
    let b ← h.writtenAll n cs
    some (a ++ b)
end

mutual
/-- The sections whose header and body a rendered section shows, in order (render/html/section.tmpl and
render/text/section.tmpl, which agree in this): itself, and its children unless it is split. -/
def Heap.shown (h : Heap) : Nat → Nat → Option (List Nat)
  | 0, _ => none
  | n + 1, i =>
    if (h.get i).split then some [i]
    else do
      let below ← h.shownAll n (h.get i).children
      some (i :: below)
/-- Its `range` over the children (section.tmpl:11). -/
def Heap.shownAll (h : Heap) : Nat → List Nat → Option (List Nat)
  | _, [] => some []
  | 0, _ => none
  | n + 1, c :: cs => do
    let a ← h.shown n c
    let b ← h.shownAll n cs
    some (a ++ b)
end

mutual
/-- The sections listed by a table of contents, in order (render/html/toc.tmpl, render/text/toc.tmpl): the
children, each followed by its own table of contents, unless omitted. -/
def Heap.toc (h : Heap) : Nat → Nat → Option (List Nat)
  | 0, _ => none
  | n + 1, i => if (h.get i).omitToc then some [] else h.tocAll n (h.get i).children
/-- Its `range` over the children (toc.tmpl:4). -/
def Heap.tocAll (h : Heap) : Nat → List Nat → Option (List Nat)
  | _, [] => some []
  | 0, _ => none
  | n + 1, c :: cs => do
    let a ← h.toc n c
    let b ← h.tocAll n cs
    some (c :: a ++ b)
end

end Booklit
