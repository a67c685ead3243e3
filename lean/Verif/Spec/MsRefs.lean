import Verif.Spec.Manuscript

/-!
Specification of the reference that a build of a manuscript fails at.
-/

namespace Booklit.Ms

open Booklit

mutual
/-- The names that the text shown together with a section refers to, in reading order: on the page of a section are also the sections
below it, unless they have pages of their own. -/
def Part.shownRefs : Part → List Str
  | .mk _ _ split _ body subs => refsBlks body ++ if split then [] else shownRefsParts subs
def shownRefsParts : List Part → List Str
  | [] => []
  | p :: ps => p.shownRefs ++ shownRefsParts ps
end

mutual
/-- The names referred to, page by page: first those on the page that starts with the section, if one does, and then those on the
pages of the sections below it. -/
def Part.siteRefs (starts : Bool) : Part → List Str
  | .mk title tags split hide body subs =>
    (if starts then (Part.mk title tags split hide body subs).shownRefs else []) ++ siteRefsParts split subs
def siteRefsParts (starts : Bool) : List Part → List Str
  | [] => []
  | p :: ps => p.siteRefs starts ++ siteRefsParts starts ps
end

/-- The first name, page by page, that is not the name of exactly one thing. -/
def Part.broken (b : Part) : Option Str := (b.siteRefs true).find? fun name => b.names.count name ≠ 1

/-- The error is about this name: either nothing has it, and the names that there are are known, or several things have it, and there
is a place for each of them. -/
def Blames (b : Part) (name : Str) : Err → Prop
  | .unknownTag t known _ _ => t = name ∧ b.names.count name = 0 ∧ known.Perm b.names
  | .ambiguous t places _ _ => t = name ∧ 2 ≤ b.names.count name ∧ places.length = b.names.count name
  | _ => False

end Booklit.Ms
