import Verif.Spec.Parts
import Verif.Spec.Tree
import Verif.Spec.Harmless
import Verif.Model.Annotate

/-!
Specification of what a page shows: anchors and texts.
-/

namespace Booklit

mutual
/-- The parts of a content that are rendered with it, in order: not what is inside references, targets and raw HTML, nor
partials. -/
def Content.surface : Content → List Content
  | .seq cs => .seq cs :: surfaceL cs
  | .para cs => .para cs :: surfaceL cs
  | .pre cs => .pre cs :: surfaceL cs
  | .styled s b c ps => .styled s b c ps :: if s = q%"raw-html" then [] else c.surface
  | .list cs o => .list cs o :: surfaceL cs
  | .link c u => .link c u :: c.surface
  | .table rs => .table rs :: surfaceR rs
  | .defs ds => .defs ds :: surfaceD ds
  | .aux c => .aux c :: c.surface
  | c => [c]
def surfaceL : List Content → List Content
  | [] => []
  | c :: cs => c.surface ++ surfaceL cs
def surfaceR : List (List Content) → List Content
  | [] => []
  | r :: rs => surfaceL r ++ surfaceR rs
def surfaceD : List (Content × Content) → List Content
  | [] => []
  | (a, b) :: ds => a.surface ++ b.surface ++ surfaceD ds
end

/-- A page has an anchor for this fragment. -/
def HasAnchor (ds : List Dom) (a : Str) : Prop := ∃ ks, Within (.elem q%"a" [(q%"id", a)] ks) ds

/-- Section `j` is shown by section `i`: below it, with nothing split in between. -/
inductive ShownIn (h : Heap) : Nat → Nat → Prop
  | self {i : Nat} : ShownIn h i i
  | child {i c j : Nat} : (h.get i).split = false → c ∈ (h.get i).children → ShownIn h c j → ShownIn h i j

/-- The bytes that a percent-encoded text stands for (RFC 3986, 2.1). -/
def unpercent : Str → List Byte
  | [] => []
  | c :: r =>
    if c = '%' then
      match r with
      | x :: y :: r' =>
        match digitValue x, digitValue y with
        | some a, some b => (16 * a + b) :: unpercent r'
        | _, _ => 37 :: unpercent (x :: y :: r')
      | r => 37 :: unpercent r
    else c.toNat :: unpercent r

/-- Where a relative link leads (RFC 3986, 3 and 5): the path before `#` and `?`, and the fragment after `#`, decoded.
There is no answer for links with a scheme. -/
def whereTo (href : Str) : Option (List Byte × Option (List Byte)) :=
  if (schemeOf href).isSome then none
  else some (unpercent ((href.takeWhile (· ≠ '#')).takeWhile (· ≠ '?')),
    if href.contains '#' then some (unpercent ((href.dropWhile (· ≠ '#')).drop 1)) else none)

/-- No raw HTML. -/
def Content.noRaw : Content → Bool
  | .styled s _ _ _ => s ≠ q%"raw-html"
  | _ => true

/-- The contents of a section that can be shown. -/
def Sec.shown (x : Sec) : List Content := x.title :: x.body :: x.tags.map (·.title)

/-- Contents that are rendered from what they are made of: no raw HTML, no partials, and nothing that stands for
something elsewhere. -/
def Content.modest : Content → Bool
  | .styled s _ _ ps => s ≠ q%"raw-html" && ps.isEmpty
  | .ref _ _ _ _ _ => false
  | .sect _ => false
  | .toc _ => false
  | .lazy _ _ => false
  | _ => true

/-- The URL of a link. -/
def Content.linkUrl : Content → Option Str
  | .link _ u => some u
  | _ => none

/-- The URLs of all links written in the book. -/
def Tree.links (h : Heap) (t : Tree) : List Str := t.ids.flatMap fun j =>
  (((h.get j).title :: (h.get j).body :: (h.get j).tags.map (·.title)).flatMap (Content.parts true)).filterMap Content.linkUrl

end Booklit
