import Verif.Model.PegLog
import Verif.Model.Annotate

/-!
The parser on the bytes of a file: `/repo/ast/booklit.peg.go`, functions `read` (1891-1907), `parse` (2005-2069) and `errList` (1598-1620),
with `/repo/ast/errors.go` (`UnpackError`). The model of the parser in `Model/Peg` works on characters; here is what it does with bytes that
are not UTF-8: `read` takes each for the character U+FFFD and records an error, and goes on. If any error is recorded, the parse
fails, whatever the rules say, and the first recorded error is the one that is shown.
-/

namespace Booklit.Peg

open Booklit

/-- The least second byte after the first one (`acceptRanges` of the Go library). -/
def acceptLo (p0 : Nat) : Nat := if p0 = 0xE0 then 0xA0 else if p0 = 0xF0 then 0x90 else 0x80

/-- The greatest second byte after the first one. -/
def acceptHi (p0 : Nat) : Nat := if p0 = 0xED then 0x9F else if p0 = 0xF4 then 0x8F else 0xBF

/-- The last byte of four. -/
def decode4 (p0 b1 b2 : Nat) : List Nat → Option (Char × Nat)
  | [] => none
  | b3 :: _ =>
    if b3 < 0x80 ∨ 0xBF < b3 then none
    else some (Char.ofNat (p0 % 8 * 262144 + b1 % 64 * 4096 + b2 % 64 * 64 + b3 % 64), 4)

/-- The third byte. -/
def decode3 (p0 b1 : Nat) : List Nat → Option (Char × Nat)
  | [] => none
  | b2 :: p =>
    if b2 < 0x80 ∨ 0xBF < b2 then none
    else if p0 < 0xF0 then some (Char.ofNat (p0 % 16 * 4096 + b1 % 64 * 64 + b2 % 64), 3)
    else decode4 p0 b1 b2 p

/-- The second byte. -/
def decode2 (p0 : Nat) : List Nat → Option (Char × Nat)
  | [] => none
  | b1 :: p =>
    if b1 < acceptLo p0 ∨ acceptHi p0 < b1 then none
    else if p0 < 0xE0 then some (Char.ofNat (p0 % 32 * 64 + b1 % 64), 2)
    else decode3 p0 b1 p

/-- `utf8.DecodeRune` of the Go library on a non-empty text: the first character and its width, `none` for (RuneError, 1). The numbers are
those of the tables `first` and `acceptRanges`. -/
def decodeRune : List Nat → Option (Char × Nat)
  | [] => none
  | p0 :: p =>
    if p0 < 0x80 then some (Char.ofNat p0, 1)
    else if p0 < 0xC2 ∨ 0xF4 < p0 then none
    else decode2 p0 p

/-- The characters that successive calls of `read` deliver (booklit.peg.go:1891-1907), `none` for a byte that is not UTF-8. The number counts
the bytes of the current character that are left. -/
def runes : Nat → List Byte → List (Option Char)
  | _, [] => []
  | k + 1, _ :: bs => runes k bs
  | 0, b :: bs =>
    match decodeRune (b :: bs) with
    | some (c, w) => some c :: runes (w - 1) bs
    | none => none :: runes 0 bs

/-- `utf8.RuneError`. -/
def runeError : Char := Char.ofNat 0xFFFD

/-- What the rules see (booklit.peg.go:1893-1894). -/
def seen (rs : List (Option Char)) : Str := rs.map fun r => r.getD runeError

/-- How much is left at the furthest point that matching the literal reads (booklit.peg.go:2369-2390). -/
def litFar : Str → Str → Nat
  | [], rest => rest.length
  | _ :: _, [] => 0
  | c :: cs, d :: rest => if d = c then litFar cs rest else rest.length + 1

/-- How much is left at the furthest point that the attempt at a token reads. -/
def reach : Expr → Str → Nat
  | .lit s, rest => litFar s rest
  | .cls neg cs rs, c :: r => if clsMatches neg cs rs c then r.length else r.length + 1
  | .any, _ :: r => r.length
  | _, rest => rest.length

/-- The log: how much was left at the furthest point that the parser has read. Offsets past a byte that is not UTF-8 are too large here by two
for each such byte; they are not seen from outside, since an error has been recorded by then. -/
def noteFar (e : Expr) (st : PSt) (far : Nat) : Nat := min far (reach e st.rest)

/-- The position of the first byte that is not UTF-8 among those the parser has read, where `far` characters were left; `pos` is the current
position (booklit.peg.go:1902-1906, `addErr`). -/
def firstBad (far : Nat) : Pos → List (Option Char) → Option Pos
  | _, [] => none
  | pos, none :: rs => if far ≤ rs.length + 1 then some pos else none
  | pos, some c :: rs => firstBad far (pos.step c.utf8Size (seen rs)) rs

/-- `Parse` (booklit.peg.go:2005-2069) on the bytes of a file, with the error that `ast.UnpackError` picks: the first one. -/
def parseBytes (data : List Byte) : Option Outcome :=
  let rs := runes 0 data
  match runWith noteFar booklit (fuelFor (seen rs)) (.expr (.rule .booklit)) (PSt.start (seen rs)) rs.length with
  | none => none
  | some (r, far) =>
    match firstBad far (Pos.init (seen rs)) rs with
    | some pos => some (.err pos)
    | none =>
      match r with
      | .ok v _ => some (.ok v)
      | .fail st => some (.err st.maxFail)
      | .panic st => some (.panic st.pos)

end Booklit.Peg
