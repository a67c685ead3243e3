import Verif.Spec.AuxText

/-!
Specification vocabulary for titles, tags and histories of writes: C17, C56, C57.
-/

namespace Booklit

mutual
/-- Titles made of text, styled text and links; auxiliary content stands as an element of a sequence. -/
def Content.inlineText : Content → Bool
  | .str _ => true
  | .seq cs => inlineTextL cs
  | .styled _ _ c ps => ps.isEmpty && c.inlineText
  | .link c _ => c.inlineText
  | _ => false
def inlineTextL : List Content → Bool
  | [] => true
  | .aux _ :: cs => inlineTextL cs
  | c :: cs => c.inlineText && inlineTextL cs
end

/-- The characters of tags. -/
def IsSlugChar (c : Char) : Prop := ('a' ≤ c ∧ c ≤ 'z') ∨ ('0' ≤ c ∧ c ≤ '9') ∨ c = '-' ∨ c = '_'

/-- What remains of a word in a tag: capital letters become small, other characters are dropped. -/
def tagOfWord (w : Str) : Str :=
  w.filterMap fun c =>
    if ('a' ≤ c ∧ c ≤ 'z') ∨ ('0' ≤ c ∧ c ≤ '9') ∨ c = '-' ∨ c = '_' then some c
    else if 'A' ≤ c ∧ c ≤ 'Z' then some (Char.ofNat (c.toNat + 32))
    else none

/-- A non-empty run of blanks. -/
def IsBlanks (b : Str) : Prop := b ≠ [] ∧ ∀ c ∈ b, c ∈ q%" \t\n\r\x0c"

/-- Text without blanks and ampersands. -/
def IsPlainWord (w : Str) : Prop := ∀ c ∈ w, c ∉ q%" \t\n\r\x0c&"

/-- The value most recently written under `name` in a history of writes, oldest first. -/
def lastWrite {α : Type} (name : Str) : List (Str × α) → Option α
  | [] => none
  | (n, a) :: ws => (lastWrite name ws).or (if n = name then some a else none)

end Booklit
