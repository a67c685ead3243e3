import Verif.Model.Content

/-!
Specification vocabulary for C13-C16, independent of `append` and `stripAux`.
-/

namespace Booklit

/-- The elements a content stands for when contents are joined: none for nil, the elements of a sequence,
otherwise the content itself. -/
def Content.elems : Content → List Content
  | .nil => []
  | .seq cs => cs
  | c => [c]

mutual
/-- The texts in a content, in order; `aux` says whether texts inside auxiliary content count. The content of
lazy content and of sections used as content is not looked at. -/
def Content.texts (aux : Bool) : Content → List Str
  | .nil => []
  | .str s => [s]
  | .seq cs => textsL aux cs
  | .para cs => textsL aux cs
  | .pre cs => textsL aux cs
  | .ref _ _ c _ _ => c.texts aux
  | .sect _ => []
  | .toc _ => []
  | .styled _ _ c ps => c.texts aux ++ textsP aux ps
  | .target _ _ ti c => ti.texts aux ++ c.texts aux
  | .image _ _ => []
  | .list cs _ => textsL aux cs
  | .link c _ => c.texts aux
  | .table rs => textsR aux rs
  | .defs ds => textsD aux ds
  | .lazy _ _ => []
  | .aux c => if aux then c.texts aux else []
def textsL (aux : Bool) : List Content → List Str
  | [] => []
  | c :: cs => c.texts aux ++ textsL aux cs
def textsP (aux : Bool) : List (Str × Content) → List Str
  | [] => []
  | (_, c) :: cs => c.texts aux ++ textsP aux cs
def textsR (aux : Bool) : List (List Content) → List Str
  | [] => []
  | r :: rs => textsL aux r ++ textsR aux rs
def textsD (aux : Bool) : List (Content × Content) → List Str
  | [] => []
  | (a, b) :: ds => a.texts aux ++ b.texts aux ++ textsD aux ds
end

mutual
/-- All contents satisfy `p`, looking everywhere but into lazy content and sections used as content. -/
def Content.all (p : Content → Bool) : Content → Bool
  | .nil => p .nil
  | .str s => p (.str s)
  | .seq cs => p (.seq cs) && allL p cs
  | .para cs => p (.para cs) && allL p cs
  | .pre cs => p (.pre cs) && allL p cs
  | .ref s t c o l => p (.ref s t c o l) && c.all p
  | .sect i => p (.sect i)
  | .toc i => p (.toc i)
  | .styled s b c ps => p (.styled s b c ps) && c.all p && allP p ps
  | .target t l ti c => p (.target t l ti c) && ti.all p && c.all p
  | .image a d => p (.image a d)
  | .list cs o => p (.list cs o) && allL p cs
  | .link c u => p (.link c u) && c.all p
  | .table rs => p (.table rs) && allR p rs
  | .defs ds => p (.defs ds) && allD p ds
  | .lazy b i => p (.lazy b i)
  | .aux c => p (.aux c) && c.all p
def allL (p : Content → Bool) : List Content → Bool
  | [] => true
  | c :: cs => c.all p && allL p cs
def allP (p : Content → Bool) : List (Str × Content) → Bool
  | [] => true
  | (_, c) :: cs => c.all p && allP p cs
def allR (p : Content → Bool) : List (List Content) → Bool
  | [] => true
  | r :: rs => allL p r && allR p rs
def allD (p : Content → Bool) : List (Content × Content) → Bool
  | [] => true
  | (a, b) :: ds => a.all p && b.all p && allD p ds
end

/-- No auxiliary content anywhere. -/
def Content.auxFree (c : Content) : Bool := c.all fun d => !d.isAux

/-- No nil content anywhere. -/
def Content.nilFree (c : Content) : Bool := c.all fun d => !d.isNil

/-- Auxiliary content stands only directly in sequences, paragraphs, preformatted blocks, list items and table
cells: it is not the whole argument of another element. -/
def Content.auxInside (c : Content) : Bool := c.all fun
  | .ref _ _ c _ _ => !c.isAux
  | .styled _ _ c ps => !c.isAux && ps.all fun p => !p.2.isAux
  | .target _ _ ti c => !ti.isAux && !c.isAux
  | .link c _ => !c.isAux
  | .defs ds => ds.all fun d => !d.1.isAux && !d.2.isAux
  | .aux c => !c.isAux
  | _ => true

end Booklit
