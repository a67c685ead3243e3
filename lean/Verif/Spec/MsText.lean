import Verif.Spec.Manuscript

/-!
The plain text of manuscripts, for the search index.
-/

namespace Booklit.Ms

open Booklit

mutual
/-- The plain text of running text: without styles and links; references stand for the title of what they refer to
or for their own text, images for where they are; targets have none. -/
inductive SpanText (b : Part) : Span → Str → Prop
  | text {s : Str} : SpanText b (.text s) s
  | code {s : Str} : SpanText b (.code s) s
  | styled {f : Face} {ss : List Span} {x : Str} : SpansText b ss x → SpanText b (.styled f ss) x
  | link {ss : List Span} {u x : Str} : SpansText b ss x → SpanText b (.link ss u) x
  | ref {name : Str} {ks : List Nat} {p : Part} {u : Str} {title : List Span} : Aim b name ks p u title →
      SpanText b (.ref name) (plainSpans title)
  | see {name : Str} {ss : List Span} {x : Str} : SpansText b ss x → SpanText b (.see name ss) x
  | image {path alt : Str} : SpanText b (.image path alt) (q%"{image: " ++ path ++ q%"}")
  | target {name : Str} {title : Option Str} : SpanText b (.target name title) []
  | aux {ss : List Span} {x : Str} : SpansText b ss x → SpanText b (.aux ss) x
inductive SpansText (b : Part) : List Span → Str → Prop
  | nil : SpansText b [] []
  | cons {s : Span} {ss : List Span} {x y : Str} : SpanText b s x → SpansText b ss y → SpansText b (s :: ss) (x ++ y)
end

/-- Lines as one, with blanks between; lines without text at the beginning do not count. -/
def flowed (xs : List Str) : Str :=
  match xs.dropWhile List.isEmpty with
  | [] => []
  | x :: ys => [' '].intercalate (x :: ys) ++ q%"\n\n"

/-- What stands before an item of a list. -/
def bullet (ordered : Bool) (i : Nat) : Str := if ordered then Nat.toDigits 10 i ++ q%". " else q%"* "

mutual
/-- The plain text of a block: the lines of a paragraph in one; lines of code; items with bullets or with numbers from
1 on; rows of cells; lines with term and definition; nothing for tables of contents. -/
inductive BlkText (b : Part) : Blk → Str → Prop
  | para {ls : List (List Span)} {xs : List Str} : All2 (SpansText b) ls xs → BlkText b (.para ls) (flowed xs)
  | code {c : Block} : BlkText b (.code c) (c.dedented.flatMap (· ++ ['\n']))
  | list {o : Bool} {items : List (List Span)} {xs : List Str} : All2 (SpansText b) items xs →
      BlkText b (.list o items) ((xs.zipIdx 1).flatMap fun x => bullet o x.2 ++ x.1 ++ q%"\n\n")
  | table {rows : List (List (List Span))} {cells : List (List Str)} : All2 (All2 (SpansText b)) rows cells →
      BlkText b (.table rows) ((cells.flatMap fun r => q%"| " ++ q%" | ".intercalate r ++ q%" |\n") ++ ['\n'])
  | defs {ds : List (List Span × List Span)} {xs : List (Str × Str)} :
      All2 (fun d x => SpansText b d.1 x.1 ∧ SpansText b d.2 x.2) ds xs →
      BlkText b (.defs ds) ((xs.flatMap fun x => x.1 ++ q%": " ++ x.2 ++ ['\n']) ++ ['\n'])
  | box {a : Bool} {bs : List Blk} {x : Str} : BlksText b bs x → BlkText b (.box a bs) x
  | toc : BlkText b .toc []
inductive BlksText (b : Part) : List Blk → Str → Prop
  | nil : BlksText b [] []
  | cons {x : Blk} {xs : List Blk} {s t : Str} : BlkText b x s → BlksText b xs t → BlksText b (x :: xs) (s ++ t)
end

/-- What a list makes of the text of an item: all lines but the first are indented, except empty ones. -/
def hanging : Str → Str
  | [] => []
  | c :: s => if c = '\n' ∧ s.head? ≠ some '\n' then '\n' :: ' ' :: ' ' :: hanging s else c :: hanging s

end Booklit.Ms
