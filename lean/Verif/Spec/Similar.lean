import Verif.Model.Str

/-!
Spelling mistakes: what it means for a name to be a few edits away from another one.
-/

namespace Booklit

/-- One mistake: a letter too much, a letter missing, or a wrong letter. -/
inductive Slip : Str → Str → Prop
  | more (u : Str) (c : Char) (v : Str) : Slip (u ++ v) (u ++ c :: v)
  | less (u : Str) (c : Char) (v : Str) : Slip (u ++ c :: v) (u ++ v)
  | wrong (u : Str) (c d : Char) (v : Str) : Slip (u ++ c :: v) (u ++ d :: v)

/-- A number of mistakes, one after the other. -/
inductive Slips : Nat → Str → Str → Prop
  | none (a : Str) : Slips 0 a a
  | one {n : Nat} {a b c : Str} : Slip a b → Slips n b c → Slips (n + 1) a c

/-- Names that are similar: fewer mistakes than half the length of the longer one. -/
def Near (a b : Str) : Prop := ∃ n, Slips n a b ∧ 2 * n < max a.length b.length

end Booklit
