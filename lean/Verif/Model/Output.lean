import Verif.Model.Pages
import Verif.Model.Text
import Verif.Model.Path

/-!
Writing a book: `/repo/render/writer.go`. The engine's output for a section is not modelled here, only which file
it goes to and what the search index says.
-/

namespace Booklit

/-- The path of the file a section is written to (render/writer.go:119-120). -/
def Heap.filePathOf (h : Heap) (dest ext : Str) (i : Nat) : Str := joinPath dest (h.fileName ext i)

/-- `WriteSection` (render/writer.go:50-66, 118-141): the files written, in order, each with the section rendered
to it. Rendering is taken to succeed. -/
def Heap.outputs (h : Heap) (dest ext : Str) (n : Nat) (i : Nat) : Option (List (Str × Nat)) :=
  (h.written n i).map fun ps => ps.map fun p => (h.filePathOf dest ext p, p)

/-- What a file holds after some writes, which replace its contents (`O_TRUNC`, render/writer.go:122). -/
def lastWritten (path : Str) : List (Str × Nat) → Option Nat
  | [] => none
  | w :: ws =>
    match lastWritten path ws with
    | some i => some i
    | none => if w.1 = path then some w.2 else none

/-- `SearchDocument` (render/writer.go:27-43). -/
structure SearchDoc where
  location : Str
  title : Str
  text : Str
  depth : Nat
  sectionTag : Str
deriving DecidableEq

/-- `SearchIndex` (render/writer.go:23), a map: at most one entry for each name. -/
abbrev SearchIndex := List (Str × SearchDoc)

/-- Assignment to an entry of the map (render/writer.go:104). -/
def SearchIndex.put (ix : SearchIndex) (name : Str) (d : SearchDoc) : SearchIndex :=
  (name, d) :: ix.filter fun e => e.1 ≠ name

/-- The entry for a tag (render/writer.go:97-110). A tag without section is a nil pointer. -/
def Heap.searchDoc (h : Heap) (brokenOk : Bool) (ext : Str) (k : Nat) (g : Tag) : Res SearchDoc :=
  match g.sec with
  | none => .panic
  | some i =>
    (h.text brokenOk k (if g.content.isNil then (h.get i).body else g.content)).bind fun text =>
    (Res.ofFuel (h.sectionURL ext k i g.anchor)).bind fun url =>
    (h.text brokenOk k g.title).bind fun title =>
    (Res.ofFuel (h.depth k i)).bind fun d =>
    .ok ⟨url, title, text, d, (h.get i).primaryTag.name⟩

/-- The loop over the tags of a section (render/writer.go:96-111). -/
def Heap.indexTags (h : Heap) (brokenOk : Bool) (ext : Str) (k : Nat) : SearchIndex → List Tag → Res SearchIndex
  | ix, [] => .ok ix
  | ix, g :: gs => (h.searchDoc brokenOk ext k g).bind fun d => h.indexTags brokenOk ext k (ix.put g.name d) gs

/-- The loop over the children (render/writer.go:113-115), given how a child is visited. -/
def indexLoop (visit : SearchIndex → Nat → Res SearchIndex) : SearchIndex → List Nat → Res SearchIndex
  | ix, [] => .ok ix
  | ix, c :: cs => (visit ix c).bind fun ix' => indexLoop visit ix' cs

/-- `loadTags` (render/writer.go:95-116), with fuel for the depth of nesting. -/
def Heap.loadTags (h : Heap) (brokenOk : Bool) (ext : Str) (k : Nat) : Nat → SearchIndex → Nat → Res SearchIndex
  | 0, _, _ => .more
  | n + 1, ix, i =>
    (h.indexTags brokenOk ext k ix (h.get i).tags).bind fun ix' =>
      indexLoop (h.loadTags brokenOk ext k n) ix' (h.get i).children

/-- The index that `WriteSearchIndex` encodes (render/writer.go:77-78). -/
def Heap.searchIndex (h : Heap) (brokenOk : Bool) (ext : Str) (n : Nat) (i : Nat) : Res SearchIndex :=
  h.loadTags brokenOk ext n n [] i

end Booklit
