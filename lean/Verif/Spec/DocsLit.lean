import Verif.Spec.Pieces
import Verif.Spec.Syntax

/-!
Specification for C103: where calls and arguments stand in a text.
-/

namespace Booklit

/-- A text cut into pieces: the hits are those of `hit` (given also what follows), and none begins within a piece that is kept. -/
inductive Cut (hit : Str → Str → Prop) : Str → List Piece → Prop
  | done : Cut hit [] []
  | hit {m r : Str} {ps : List Piece} : hit m r → Cut hit r ps → Cut hit (m ++ r) (⟨true, m⟩ :: ps)
  | keep {u r : Str} {ps : List Piece} : u ≠ [] → (∀ v w m x, u = v ++ w → w ≠ [] → w ++ r = m ++ x → ¬ hit m x) →
      Cut hit r ps → Cut hit (u ++ r) (⟨false, u⟩ :: ps)

/-- A call: a backslash and the whole of a name. -/
def CallHit (m r : Str) : Prop :=
  ∃ name, m = '\\' :: name ∧ name ≠ [] ∧ (∀ c ∈ name, isFnChar c = true) ∧ ∀ c ∈ r.head?, isFnChar c = false

/-- An argument: something in braces. -/
def ArgHit (m _r : Str) : Prop := ∃ arg, m = '{' :: arg ++ ['}'] ∧ arg ≠ [] ∧ '}' ∉ arg

/-- One text for each piece, in order. -/
inductive Each (R : Piece → Str → Prop) : List Piece → List Str → Prop
  | nil : Each R [] []
  | cons {p : Piece} {x : Str} {ps : List Piece} {xs : List Str} : R p x → Each R ps xs → Each R (p :: ps) (x :: xs)

end Booklit
