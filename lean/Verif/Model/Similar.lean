import Verif.Model.Str

/-!
Which tag names count as similar (section.go:371-377). The library `agext/levenshtein` is not in /repo; it is modelled after its documentation.
-/

namespace Booklit

/-- The next row of the table: `row` has the distances of some `a` to each end of `b`, the whole of it first, and the result those of `x :: a`. -/
def levStep (x : Char) : Str → List Nat → List Nat
  | [], row => [row.headD 0 + 1]
  | y :: b, row =>
    let rest := levStep x b row.tail
    min (min (row.headD 0 + 1) (rest.headD 0 + 1)) (row.tail.headD 0 + if x = y then 0 else 1) :: rest

/-- The distances to nothing. -/
def levStart : Str → List Nat
  | [] => [0]
  | y :: b => (b.length + 1) :: levStart b

/-- A row of the table. -/
def levRow (b : Str) : Str → List Nat
  | [] => levStart b
  | x :: a => levStep x b (levRow b a)

/-- `levenshtein.Distance` with the default parameters: insertions, deletions and substitutions of one character (`[]rune`) cost 1 each. The
library fills a table of the distances of all beginnings, row by row; here it is those of all ends. -/
def lev (a b : Str) : Nat := (levRow b a).headD 0

/-- `levenshtein.Match(a, b, nil) > 0.5` (section.go:375). The score is 1 for two empty strings, and 1 minus the distance divided by the largest
distance possible, the length of the longer string, otherwise; from 0.7 on there is a bonus for a common beginning, which does not
matter here. Simplified: fractions instead of floating point numbers. -/
def similarTags (a b : Str) : Bool := (a.isEmpty && b.isEmpty) || decide (2 * lev a b < max a.length b.length)

end Booklit
