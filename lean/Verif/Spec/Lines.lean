import Verif.Spec.Syntax

/-!
Specification for C50: the lines of a text.
-/

namespace Booklit

/-- `t` is the line number `l` of `d`, without what ends it: a line feed, a carriage return and a line feed, or the end
of the text. -/
def LineAt (d : Str) (l : Nat) (t : Str) : Prop :=
  ∃ pre post, d = pre ++ t ++ post ∧ l = lineOf pre ∧ (pre = [] ∨ pre.getLast? = some '\n') ∧ '\n' ∉ t ∧
    (post = [] ∨ (post.head? = some '\n' ∧ t.getLast? ≠ some '\r') ∨ post.take 2 = ['\r', '\n'])

/-- The lines of a text, by line feeds. -/
def srcLines : Str → List Str
  | [] => [[]]
  | c :: s =>
    if c = '\n' then [] :: srcLines s
    else match srcLines s with
      | [] => [[c]]
      | l :: ls => (c :: l) :: ls

/-- Every line is shorter than `n` bytes. -/
def ShortLines (n : Nat) (d : Str) : Prop := ∀ l ∈ srcLines d, byteLen l < n

/-- All characters are ASCII. -/
def Ascii (t : Str) : Prop := ∀ c ∈ t, c.toNat < 128

end Booklit
