import Verif.Spec.MsGrow

/-!
Manuscripts in which a section gets another title. Nothing here refers to the parser, the evaluator, sections in memory, or templates.
-/

namespace Booklit.Ms

open Booklit

/-- The book with another title for the section at `ks`. -/
def Part.retitle (title : List Span) : List Nat → Part → Part
  | [], .mk _ tags split hide body subs => .mk title tags split hide body subs
  | k :: ks, .mk t tags split hide body subs => .mk t tags split hide body (subs.modify k (Part.retitle title ks))

mutual
/-- The names that running text refers to by the title of what they stand for. -/
def Span.cites : Span → List Str
  | .text _ => []
  | .code _ => []
  | .styled _ ss => citesSpans ss
  | .link ss _ => citesSpans ss
  | .ref name => [name]
  | .see _ ss => citesSpans ss
  | .image _ _ => []
  | .target _ _ => []
  | .aux ss => citesSpans ss
def citesSpans : List Span → List Str
  | [] => []
  | s :: ss => s.cites ++ citesSpans ss
end

mutual
def Blk.cites : Blk → List Str
  | .para ls => ls.flatMap citesSpans
  | .code _ => []
  | .list _ items => items.flatMap citesSpans
  | .table rows => rows.flatMap (·.flatMap citesSpans)
  | .defs ds => ds.flatMap fun d => citesSpans d.1 ++ citesSpans d.2
  | .box _ bs => citesBlks bs
  | .toc => []
def citesBlks : List Blk → List Str
  | [] => []
  | b :: bs => b.cites ++ citesBlks bs
end

/-- Tables of contents of the section at `js` have an entry for the one at `ks`: it is below, and nothing on the way is left out. -/
def Enters (b : Part) (ks js : List Nat) : Prop :=
  js <+: ks ∧ js ≠ ks ∧ ∀ is n os o p, Place b is n os o p → js <+: is → is <+: ks → is ≠ ks → p.hide = false

/-- The page that starts with the section at `os` shows the title of the section `p`, at `ks`, or would show it if it were `title`: on it is
that section; or there is, unless the difference is in auxiliary text only, a table of contents with an entry for it, or a reference to it without
a text of its own. -/
def Mentions (b : Part) (ks : List Nat) (p : Part) (title : List Span) (os : List Nat) : Prop :=
  ∃ js n o q, Place b js n os o q ∧ (js = ks ∨ essence title ≠ essence p.title ∧
    (listsBlks q.body = true ∧ Enters b ks js ∨ ∃ name ∈ citesBlks q.body, name ∈ p.tags))

end Booklit.Ms
