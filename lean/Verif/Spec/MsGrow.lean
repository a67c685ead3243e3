import Verif.Spec.Manuscript

/-!
Manuscripts with further sections written at the end of one. Nothing here refers to the parser, the evaluator, sections in memory, or
templates.
-/

namespace Booklit.Ms

open Booklit

/-- The book with the sections `qs` after the last of the sections below the one at `ks`. -/
def Part.add (qs : List Part) : List Nat → Part → Part
  | [], .mk title tags split hide body subs => .mk title tags split hide body (subs ++ qs)
  | k :: ks, .mk title tags split hide body subs => .mk title tags split hide body (subs.modify k (Part.add qs ks))

mutual
/-- Whether there is a table of contents. -/
def Blk.lists : Blk → Bool
  | .para _ => false
  | .code _ => false
  | .list _ _ => false
  | .table _ => false
  | .defs _ => false
  | .box _ bs => listsBlks bs
  | .toc => true
def listsBlks : List Blk → Bool
  | [] => false
  | x :: xs => x.lists || listsBlks xs
end

/-- Tables of contents of the section at `js` go down to the sections below the one at `ks`: nothing on the way is left out. -/
def GoesTo (b : Part) (ks js : List Nat) : Prop :=
  ∀ is n os o p, Place b is n os o p → js <+: is → is <+: ks → p.hide = false

/-- The page that starts with the section at `os` shows what sections are below the one at `ks`: on it is that one, and it is not
split, or on it is that one or one that it is in, with a table of contents that goes down to them. -/
def Tells (b : Part) (ks os : List Nat) : Prop :=
  ∃ js n o p, Place b js n os o p ∧ js <+: ks ∧ (listsBlks p.body = true ∧ GoesTo b ks js ∨ js = ks ∧ p.split = false)

/-- Nothing in the book refers to a name that is given in `qs`. -/
def Unasked (b : Part) (qs : List Part) : Prop :=
  ∀ ks n os o p, Place b ks n os o p → ∀ name ∈ refsBlks p.body, name ∉ namesParts qs

end Booklit.Ms
