import Verif.Model.Content

/-!
Specification for C51: a text cut into pieces.
-/

namespace Booklit

/-- A piece of a text: kept, or a hit. -/
structure Piece where
  hit : Bool
  text : Str

/-- The text the pieces make up. -/
def piecesText : List Piece → Str
  | [] => []
  | p :: ps => p.text ++ piecesText ps

/-- Where the hits start and end, the first piece starting at `n`. -/
def hitsAt (n : Nat) : List Piece → List (Nat × Nat)
  | [] => []
  | p :: ps => (if p.hit then [(n, n + p.text.length)] else []) ++ hitsAt (n + p.text.length) ps

/-- Kept pieces are not empty, and no two follow each other: nothing is cut without need. -/
def Tidy : List Piece → Prop
  | [] => True
  | [p] => p.hit = false → p.text ≠ []
  | p :: q :: ps => (p.hit = false → p.text ≠ [] ∧ q.hit = true) ∧ Tidy (q :: ps)

/-- What a match finder promises: matches in order, without overlap, within the text. -/
def Matches (s : Str) : Nat → List (Nat × Nat) → Prop
  | _, [] => True
  | n, (a, b) :: ms => n ≤ a ∧ a ≤ b ∧ b ≤ s.length ∧ Matches s b ms

/-- A content made of text only. -/
def Content.isStr : Content → Bool
  | .str _ => true
  | _ => false

end Booklit
