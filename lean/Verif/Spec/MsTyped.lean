import Verif.Spec.Manuscript
import Verif.Spec.TextLooks

/-!
What a manuscript (`Verif.Spec.Manuscript`) is as plain text, where it can be shown so: text, auxiliary text, paragraphs,
insets and tables of contents can, and nothing else. Nothing here refers to the parser, the evaluator, sections in memory, or
templates.

Taken from elsewhere: `dotted` (numbers of sections) and `srcLines` (the lines of a text).
-/

namespace Booklit.Ms

open Booklit

mutual
/-- Running text. -/
def Span.typed : Span → Option Str
  | .text s => some s
  | .aux ss => typedSpans ss
  | .code _ => none
  | .styled _ _ => none
  | .link _ _ => none
  | .ref _ => none
  | .see _ _ => none
  | .image _ _ => none
  | .target _ _ => none
def typedSpans : List Span → Option Str
  | [] => some []
  | s :: ss => do
    let x ← s.typed
    let xs ← typedSpans ss
    some (x ++ xs)
end

/-- Lines of running text. -/
def typedLines : List (List Span) → Option (List Str)
  | [] => some []
  | l :: ls => do
    let x ← typedSpans l
    let xs ← typedLines ls
    some (x :: xs)

/-- The number of a section. -/
def numeral (ks : List Nat) : Str := dotted (ks.map (· + 1))

mutual
/-- The table of contents of the section at `ks`: nothing if there are no sections below it or they are left out. -/
def Part.typedToc (ks : List Nat) : Part → Option Str
  | .mk _ _ _ hide _ subs =>
    if subs.isEmpty || hide then some []
    else do
      let es ← typedEntries ks 0 subs
      some (q%"\n" ++ es ++ q%"\n")
/-- The entries for the sections below, from the one number `k` on: number, title without what is auxiliary, and the table
of contents of what is below. -/
def typedEntries (ks : List Nat) : Nat → List Part → Option Str
  | _, [] => some []
  | k, p :: ps => do
    let title ← typedSpans (essence p.title)
    let below ← p.typedToc (ks ++ [k])
    let es ← typedEntries ks (k + 1) ps
    some (q%"\n" ++ numeral (ks ++ [k]) ++ q%" " ++ title ++ q%"\n\n" ++ below ++ q%"\n" ++ es)
end

mutual
/-- A block of a section with the table of contents `toc`: the lines of a paragraph are in one line, the lines of an inset
are indented. -/
def Blk.typed (toc : Option Str) : Blk → Option Str
  | .para ls => do
    let xs ← typedLines ls
    some (q%" ".intercalate xs ++ q%"\n\n")
  | .box false bs => do
    let x ← typedBlks toc bs
    some (q%"\n".intercalate ((srcLines x).map (q%"    " ++ ·)))
  | .toc => toc
  | .box true _ => none
  | .code _ => none
  | .list _ _ => none
  | .table _ => none
  | .defs _ => none
def typedBlks (toc : Option Str) : List Blk → Option Str
  | [] => some []
  | b :: bs => do
    let x ← b.typed toc
    let xs ← typedBlks toc bs
    some (x ++ xs)
end

mutual
/-- The section at `ks`: its number (unless it is the whole book), its title, its text, and the sections below, unless they
have pages of their own. -/
def Part.typed (ks : List Nat) : Part → Option Str
  | .mk title tags split hide body subs => do
    let t ← typedSpans title
    let x ← typedBlks ((Part.mk title tags split hide body subs).typedToc ks) body
    let below ← if split then some [] else do
      let xs ← typedParts ks 0 subs
      some (q%"\n" ++ xs ++ q%"\n")
    some ((if ks = [] then [] else numeral ks ++ q%" ") ++ t ++ x ++ q%"\n\n" ++ below)
def typedParts (ks : List Nat) : Nat → List Part → Option Str
  | _, [] => some []
  | k, p :: ps => do
    let x ← p.typed (ks ++ [k])
    let xs ← typedParts ks (k + 1) ps
    some (q%"\n" ++ x ++ q%"\n" ++ xs)
end

/-- The page of section `p`, at `ks`. -/
def typedPage (ks : List Nat) (p : Part) : Option Str := do
  let x ← p.typed ks
  some (plainSpans p.title ++ q%"\n\n" ++ x)

end Booklit.Ms
