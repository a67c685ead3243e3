import Verif.Model.Ast

/-!
Content: `/repo/content.go` and the content types of `/repo/*.go`.
-/

namespace Booklit

/-- `booklit.Content` (content.go:5-19) with every implementation in the repository. `nil` is the nil
interface value, which Go code can hold wherever it holds a `Content`. Sections are referred to by their
index in the heap of sections (`Model/Section.lean`).

* `str` string.go:6; `seq` sequence.go:5; `para` paragraph.go:7; `pre` preformatted.go:5;
* `ref` reference.go:16-38, without the cached `tag` (resolving is modelled by `Model/Reference.lean`);
* `sect` a `*Section` used as content (section.go:12); `toc` toc.go:5-7;
* `styled` styled.go:4-17, partials being a Go map: an association list, in some order;
* `target` target.go:7-12; `image` image.go:6-12; `list` list.go:10-16; `link` link.go:5-11;
* `table` table.go:4-6; `defs` definitions.go:6-12;
* `lazy` lazy.go:5-12: only its kind and an identity, the function is opaque; `aux` aux_.go:9-11. -/
inductive Content where
  | nil
  | str (s : Str)
  | seq (cs : List Content)
  | para (cs : List Content)
  | pre (cs : List Content)
  | ref (sec : Nat) (tag : Str) (content : Content) (optional : Bool) (loc : Location)
  | sect (id : Nat)
  | toc (sec : Nat)
  | styled (style : Str) (block : Bool) (content : Content) (partials : List (Str × Content))
  | target (tag : Str) (loc : Location) (title : Content) (content : Content)
  | image (path : Str) (description : Str)
  | list (items : List Content) (ordered : Bool)
  | link (content : Content) (url : Str)
  | table (rows : List (List Content))
  | defs (ds : List (Content × Content))
  | lazy (block : Bool) (id : Nat)
  | aux (content : Content)
deriving Inhabited

/-- Comparison with nil (`content == nil`). -/
def Content.isNil : Content → Bool
  | .nil => true
  | _ => false

/-- The type test `c.(Aux)` (aux_.go:138). -/
def Content.isAux : Content → Bool
  | .aux _ => true
  | _ => false

/-- `Append` (append.go:7-26), including its early return inside the loop. -/
def append (first : Content) : List Content → Content
  | [] => first
  | c :: rest =>
    if c.isNil then append first rest
    else match first with
      | .nil => append c rest
      | .seq v => .seq (v ++ [c])
      | d => .seq [d, c]

mutual
/-- `StripAux` (aux_.go:15-132). `none` is the nil pointer panic of calling `Visit` on nil content.
`Aux` embeds its content, so visiting one visits the content itself (`Visit` is promoted). -/
def stripAux : Content → Option Content
  | .nil => none
  | .str s => some (.str s)
  | .seq cs => (stripAuxSeq cs).map .seq
  | .para cs => (stripAuxSeq cs).map .para
  | .pre cs => (stripAuxSeq cs).map .pre
  | .ref s t c o l => (stripAux c).map fun c' => .ref s t c' o l
  | .sect i => some (.sect i)
  | .toc i => some (.toc i)
  | .styled st b c ps => do
    let c' ← stripAux c
    let ps' ← stripAuxPartials ps
    some (.styled st b c' ps')
  | .target t l ti c => do
    let ti' ← stripAux ti
    let c' ← stripAux c
    some (.target t l ti' c')
  | .image p d => some (.image p d)
  | .list cs o => (stripAuxSeq cs).map fun cs' => .list cs' o
  | .link c u => (stripAux c).map fun c' => .link c' u
  | .table rs => (stripAuxRows rs).map .table
  | .defs ds => (stripAuxDefs ds).map .defs
  | .lazy b i => some (.lazy b i)
  | .aux c => stripAux c
/-- `stripAuxSeq` (aux_.go:134-144). -/
def stripAuxSeq : List Content → Option (List Content)
  | [] => some []
  | c :: cs =>
    if c.isAux then stripAuxSeq cs
    else do
      let c' ← stripAux c
      let cs' ← stripAuxSeq cs
      some (c' :: cs')
/-- The partials of styled content (aux_.go:67-76): nil ones are dropped. -/
def stripAuxPartials : List (Str × Content) → Option (List (Str × Content))
  | [] => some []
  | (k, v) :: ps =>
    if v.isNil then stripAuxPartials ps
    else do
      let v' ← stripAux v
      let ps' ← stripAuxPartials ps
      some ((k, v') :: ps')
/-- The rows of a table (aux_.go:106-114). -/
def stripAuxRows : List (List Content) → Option (List (List Content))
  | [] => some []
  | r :: rs => do
    let r' ← stripAuxSeq r
    let rs' ← stripAuxRows rs
    some (r' :: rs')
/-- Definitions (aux_.go:116-127). -/
def stripAuxDefs : List (Content × Content) → Option (List (Content × Content))
  | [] => some []
  | (a, b) :: ds => do
    let a' ← stripAux a
    let b' ← stripAux b
    let ds' ← stripAuxDefs ds
    some ((a', b') :: ds')
end

mutual
/-- `IsFlow` of every content type (sequence.go:8-16, styled.go:48-54, lazy.go:33-35, `Aux` and `Link`
delegate to the embedded content; the others are constants). `none` is the panic on nil content. -/
def isFlow : Content → Option Bool
  | .nil => none
  | .str _ => some true
  | .seq cs => isFlowSeq cs
  | .para _ => some false
  | .pre _ => some false
  | .ref _ _ _ _ _ => some true
  | .sect _ => some false
  | .toc _ => some false
  | .styled _ b c _ => if b then some false else isFlow c
  | .target _ _ _ _ => some true
  | .image _ _ => some true
  | .list _ _ => some false
  | .link c _ => isFlow c
  | .table _ => some false
  | .defs _ => some false
  | .lazy b _ => some (!b)
  | .aux c => isFlow c
/-- The loop of `Sequence.IsFlow` (sequence.go:9-13): stops at the first non-flow element. -/
def isFlowSeq : List Content → Option Bool
  | [] => some true
  | c :: cs =>
    match isFlow c with
    | none => none
    | some false => some false
    | some true => isFlowSeq cs
end

end Booklit
