import Verif.Model.Ast

/-!
Showing the place of an error: `/repo/errors.go`, lines 317-422. Texts are lists of bytes here, since the code cuts
lines by byte offsets.
-/

namespace Booklit

/-- A byte. -/
abbrev Byte := Nat

/-- The UTF-8 encoding of a character. -/
def utf8Char (c : Char) : List Byte :=
  let n := c.toNat
  if n < 128 then [n]
  else if n < 2048 then [192 + n / 64, 128 + n % 64]
  else if n < 65536 then [224 + n / 4096, 128 + n / 64 % 64, 128 + n % 64]
  else [240 + n / 262144, 128 + n / 4096 % 64, 128 + n / 64 % 64, 128 + n % 64]

/-- The UTF-8 encoding of a text. -/
def utf8 (t : Str) : List Byte := t.flatMap utf8Char

/-- The size of the buffer of a `bufio.Reader` (`defaultBufSize`). -/
def bufSize : Nat := 4096

/-- The bytes before the first line feed, `none` when there is none. -/
def cutLine : List Byte → Option (List Byte)
  | [] => none
  | b :: bs => if b = 10 then some [] else (cutLine bs).map (b :: ·)

/-- A line without the carriage return before its line feed. -/
def dropCr (l : List Byte) : List Byte := if l.getLast? = some 13 then l.dropLast else l

/-- `bufio.Reader.ReadLine` on the bytes that are left: the line and the bytes that remain, `none` at the end of the
file. A line that does not fit into the buffer is returned in parts; a carriage return at the end of a part is put
back. -/
def readLine (bs : List Byte) : Option (List Byte × List Byte) :=
  if bs = [] then none
  else match cutLine (bs.take bufSize) with
    | some l => some (dropCr l, bs.drop (l.length + 1))
    | none =>
      if bs.length < bufSize then some (bs, [])
      else if (bs.take bufSize).getLast? = some 13 then some (bs.take (bufSize - 1), bs.drop (bufSize - 1))
      else some (bs.take bufSize, bs.drop bufSize)

/-- The loop over the lines before the one in question (errors.go:405-410): the bytes that are left, `none` when the
file ends too soon. -/
def skipLines : Nat → List Byte → Option (List Byte)
  | 0, bs => some bs
  | n + 1, bs =>
    match readLine bs with
    | none => none
    | some (_, rest) => skipLines n rest

/-- `lineInQuestion` (errors.go:395-422) of a file with the bytes `bs`: `none` is an error. -/
def lineInQuestion (bs : List Byte) (line : Nat) : Option (List Byte) :=
  match skipLines (line - 1) bs with
  | none => none
  | some rest =>
    match readLine rest with
    | none => some []
    | some (l, _) => some l

/-- What an error page shows of the place of an error (errors.go:356-361). -/
inductive Snippet where
  | unavailable
  | error
  | panic
  | shown (eof : Bool) (pre marked suf : List Byte)
deriving DecidableEq

/-- `AnnotatedHTML` (errors.go:365-393) up to the template: a location, the length to be marked, and the bytes of the
file, `none` when it cannot be opened. A column 0 makes the offset -1; then the first slice expression panics. -/
def annotatedHTML (file : Option (List Byte)) (loc : Location) (len : Nat) : Snippet :=
  if loc.line = 0 then .unavailable
  else match file.bind fun bs => lineInQuestion bs loc.line with
    | none => .error
    | some line =>
      if loc.col = 0 then
        if line.length + 1 ≥ len then .panic else .shown (line == []) [] [] []
      else
        let off := loc.col - 1
        if line.length ≥ off + len then
          .shown (line == []) (line.take off) ((line.drop off).take len) (line.drop (off + len))
        else .shown (line == []) [] [] []

/-- The decimal digits of a number, with fuel. -/
def digitsOf : Nat → Nat → List Byte
  | 0, _ => []
  | k + 1, n => (if n < 10 then [] else digitsOf k (n / 10)) ++ [48 + n % 10]

/-- `fmt.Sprintf("% 4d", n)` (errors.go:378): a space for the sign, at least four wide. -/
def lineno (n : Nat) : List Byte :=
  let ds := digitsOf (n + 1) n
  (if ds.length < 4 then List.replicate (4 - ds.length) 32 else [32]) ++ ds

/-- `fmt.Sprintf("% 4d| ", n)` (errors.go:348). -/
def gutter (n : Nat) : List Byte := lineno n ++ [124, 32]

/-- The plain text form (errors.go:336-354): nothing, an error, or the two lines written, the second one given by its
padding and number of carets (colour codes are left out). -/
inductive TextSnippet where
  | unavailable
  | error
  | shown (line : List Byte) (pad carets : Nat)
deriving DecidableEq

/-- `AnnotateLocation` (errors.go:336-354). -/
def annotateLocation (file : Option (List Byte)) (loc : Location) (len : Nat) : TextSnippet :=
  if loc.line = 0 then .unavailable
  else match file.bind fun bs => lineInQuestion bs loc.line with
    | none => .error
    | some line => .shown (gutter loc.line ++ line) ((gutter loc.line).length + loc.col - 1) len

end Booklit
