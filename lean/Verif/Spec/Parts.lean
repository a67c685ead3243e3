import Verif.Spec.AuxText
import Verif.Model.Section

/-!
Specification vocabulary for C42: the parts of a content in document order, and the targets among them.
-/

namespace Booklit

mutual
/-- The content itself and all its parts, in document order. With `deep = false`, what is inside references and
targets is left out. -/
def Content.parts (deep : Bool) : Content → List Content
  | .nil => [.nil]
  | .str s => [.str s]
  | .seq cs => .seq cs :: partsL deep cs
  | .para cs => .para cs :: partsL deep cs
  | .pre cs => .pre cs :: partsL deep cs
  | .ref s t c o l => .ref s t c o l :: if deep then c.parts deep else []
  | .sect i => [.sect i]
  | .toc i => [.toc i]
  | .styled s b c ps => .styled s b c ps :: (c.parts deep ++ partsP deep ps)
  | .target t l a b => .target t l a b :: if deep then a.parts deep ++ b.parts deep else []
  | .image p d => [.image p d]
  | .list cs o => .list cs o :: partsL deep cs
  | .link c u => .link c u :: c.parts deep
  | .table rs => .table rs :: partsR deep rs
  | .defs ds => .defs ds :: partsD deep ds
  | .lazy b i => [.lazy b i]
  | .aux c => .aux c :: c.parts deep
def partsL (deep : Bool) : List Content → List Content
  | [] => []
  | c :: cs => c.parts deep ++ partsL deep cs
def partsP (deep : Bool) : List (Str × Content) → List Content
  | [] => []
  | (_, c) :: cs => c.parts deep ++ partsP deep cs
def partsR (deep : Bool) : List (List Content) → List Content
  | [] => []
  | r :: rs => partsL deep r ++ partsR deep rs
def partsD (deep : Bool) : List (Content × Content) → List Content
  | [] => []
  | (a, b) :: ds => a.parts deep ++ b.parts deep ++ partsD deep ds
end

/-- The tag that a target in section `i` stands for: named and anchored by the name of the target. -/
def Content.anchor (i : Nat) : Content → Option Tag
  | .target name loc title content => some ⟨name, title, some i, name, content, loc⟩
  | _ => none

/-- The tags of the targets in a content, in document order. -/
def Content.anchors (deep : Bool) (i : Nat) (c : Content) : List Tag := (c.parts deep).filterMap (Content.anchor i)

/-- The contents of a section. -/
def Sec.contents (x : Sec) : List Content := x.title :: x.body :: x.partials.map (·.2)

/-- Nothing is missing in the direct parts of a content, except the optional ones: the content of a reference or of a
target, and partials. Sections used as content are excluded. -/
def Content.noHoles : Content → Bool
  | .seq cs => cs.all (!·.isNil)
  | .para cs => cs.all (!·.isNil)
  | .pre cs => cs.all (!·.isNil)
  | .styled _ _ c _ => !c.isNil
  | .target _ _ a _ => !a.isNil
  | .list cs _ => cs.all (!·.isNil)
  | .link c _ => !c.isNil
  | .table rs => rs.all (·.all (!·.isNil))
  | .defs ds => ds.all fun d => !d.1.isNil && !d.2.isNil
  | .aux c => !c.isNil
  | .sect _ => false
  | _ => true

/-- A content without holes. -/
def Content.solid (c : Content) : Bool := !c.isNil && c.all Content.noHoles

/-- A reference or target without targets inside. -/
def Content.plainInside : Content → Bool
  | .ref _ _ c _ _ => (c.anchors true 0).isEmpty
  | .target _ _ a b => (a.anchors true 0).isEmpty && (b.anchors true 0).isEmpty
  | _ => true

end Booklit
