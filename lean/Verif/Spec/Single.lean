import Verif.Model.Section

/-!
Specification vocabulary for `\single-page` and for paragraphs.
-/

namespace Booklit

/-- The section, or one above it, is declared to be a single page. -/
inductive OnSinglePage (h : Heap) : Nat → Prop
  | here {i : Nat} : (h.get i).preventSplit = true → OnSinglePage h i
  | above {i p : Nat} : (h.get i).parent = some p → OnSinglePage h p → OnSinglePage h i

/-- Not a paragraph that is empty or consists of one block. -/
def goodPara : Content → Bool
  | .para [] => false
  | .para [x] => isFlow x == some true
  | _ => true

end Booklit
