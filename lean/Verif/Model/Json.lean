import Verif.Model.Output

/-!
The search index as a file: `json.NewEncoder(indexFile).Encode(index)` (`/repo/render/writer.go:83`), with the encoder of
Go's encoding/json for the one type that is encoded, a map from strings to structs.
-/

namespace Booklit

/-- The digits of encoding/json: `const hex = "0123456789abcdef"`. -/
def jsonHex (n : Nat) : Char :=
  if n < 10 then Char.ofNat (48 + n) else Char.ofNat (87 + n)

/-- One character of a string (encoding/json, `appendString` with `escapeHTML`, which an encoder has on unless told
otherwise). Characters below 128 are looked up in `htmlSafeSet`. `short`: the versions of Go from 1.22 on write `\b` and
`\f` for characters 8 and 12, earlier ones `\u0008` and `\u000c`; /repo/go.mod admits both. Strings are sequences of
characters here, so the replacement of invalid UTF-8 does not occur. -/
def jsonChar (short : Bool) (c : Char) : Str :=
  if c = '"' ∨ c = '\\' then ['\\', c]
  else if c = '\n' then ['\\', 'n']
  else if c = '\r' then ['\\', 'r']
  else if c = '\t' then ['\\', 't']
  else if short ∧ c.toNat = 8 then ['\\', 'b']
  else if short ∧ c.toNat = 12 then ['\\', 'f']
  else if c.toNat < 32 ∨ c = '<' ∨ c = '>' ∨ c = '&' then
    ['\\', 'u', '0', '0', jsonHex (c.toNat / 16), jsonHex (c.toNat % 16)]
  else if c.toNat = 8232 ∨ c.toNat = 8233 then ['\\', 'u', '2', '0', '2', jsonHex (c.toNat % 16)]
  else [c]

/-- A string (encoding/json, `appendString`). -/
def jsonStr (short : Bool) (s : Str) : Str := ['"'] ++ s.flatMap (jsonChar short) ++ ['"']

/-- `strconv.AppendInt` to base 10. -/
def jsonNat (n : Nat) : Str := Nat.toDigits 10 n

/-- A `SearchDocument` with the names of its tags (render/writer.go:26-42): encoding/json writes the fields in the order
of their declaration. -/
def jsonDoc (short : Bool) (d : SearchDoc) : Str :=
  q%"{\"location\":" ++ jsonStr short d.location ++ q%",\"title\":" ++ jsonStr short d.title ++
  q%",\"text\":" ++ jsonStr short d.text ++ q%",\"depth\":" ++ jsonNat d.depth ++
  q%",\"section_tag\":" ++ jsonStr short d.sectionTag ++ ['}']

/-- Comparison of strings in Go, which is by bytes; for UTF-8 this is the order of the characters' numbers. -/
def strLe : Str → Str → Bool
  | [], _ => true
  | _ :: _, [] => false
  | a :: s, b :: t => if a = b then strLe s t else decide (a.toNat < b.toNat)

/-- Put an entry where it belongs. -/
def insertKey (e : Str × SearchDoc) : SearchIndex → SearchIndex
  | [] => [e]
  | f :: fs => if strLe e.1 f.1 then e :: f :: fs else f :: insertKey e fs

/-- encoding/json sorts the entries of a map by key (`mapEncoder.encode`). The keys of a map are different, so the way of
sorting makes no difference. -/
def sortKeys : SearchIndex → SearchIndex
  | [] => []
  | e :: es => insertKey e (sortKeys es)

/-- The entries of a map, separated by commas (`mapEncoder.encode`). -/
def jsonEntries (short : Bool) : SearchIndex → Str
  | [] => []
  | [e] => jsonStr short e.1 ++ [':'] ++ jsonDoc short e.2
  | e :: es => jsonStr short e.1 ++ [':'] ++ jsonDoc short e.2 ++ [','] ++ jsonEntries short es

/-- What `Encode` writes for the index: the map, and a newline (render/writer.go:83). -/
def jsonIndex (short : Bool) (ix : SearchIndex) : Str :=
  ['{'] ++ jsonEntries short (sortKeys ix) ++ ['}', '\n']

end Booklit
