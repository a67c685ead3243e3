import Verif.Model.Output

/-!
A reader of JSON (RFC 8259), written without regard to how the index is written: objects, strings and natural numbers,
with space between the parts. Arrays, other numbers, literals and pairs of surrogates are not read.
-/

namespace Booklit

/-- A JSON value. -/
inductive Json where
  | str (s : Str)
  | num (n : Nat)
  | obj (es : List (Str × Json))

namespace Json

/-- Insignificant space (RFC 8259, section 2). -/
def skip : Str → Str
  | [] => []
  | c :: s => if c = ' ' ∨ c = '\n' ∨ c = '\t' ∨ c = '\r' then skip s else c :: s

/-- A hexadecimal digit of either case. -/
def hexVal (c : Char) : Option Nat :=
  if '0' ≤ c ∧ c ≤ '9' then some (c.toNat - 48)
  else if 'a' ≤ c ∧ c ≤ 'f' then some (c.toNat - 87)
  else if 'A' ≤ c ∧ c ≤ 'F' then some (c.toNat - 55)
  else none

/-- The character written as `\u` and four digits. -/
def hexChar (a b c d : Char) : Option Char := do
  let a ← hexVal a
  let b ← hexVal b
  let c ← hexVal c
  let d ← hexVal d
  let n := ((a * 16 + b) * 16 + c) * 16 + d
  if 55296 ≤ n ∧ n < 57344 then none else some (Char.ofNat n)

/-- The character meant by the letter after a backslash (RFC 8259, section 7). -/
def escaped (c : Char) : Option Char :=
  if c = '"' ∨ c = '\\' ∨ c = '/' then some c
  else if c = 'n' then some '\n'
  else if c = 'r' then some '\r'
  else if c = 't' then some '\t'
  else if c = 'b' then some (Char.ofNat 8)
  else if c = 'f' then some (Char.ofNat 12)
  else none

/-- The rest of a string after its opening quote; control characters may not occur unescaped. -/
def readStr : Str → Option (Str × Str)
  | [] => none
  | '"' :: s => some ([], s)
  | '\\' :: 'u' :: a :: b :: c :: d :: s => do
    let x ← hexChar a b c d
    let (t, rest) ← readStr s
    some (x :: t, rest)
  | '\\' :: c :: s => do
    let x ← escaped c
    let (t, rest) ← readStr s
    some (x :: t, rest)
  | c :: s =>
    if c.toNat < 32 ∨ c = '\\' then none else do
      let (t, rest) ← readStr s
      some (c :: t, rest)

/-- The digits of a number, and their value after those read already. -/
def readNum (n : Nat) : Str → Nat × Str
  | [] => (n, [])
  | c :: s => if '0' ≤ c ∧ c ≤ '9' then readNum (n * 10 + (c.toNat - 48)) s else (n, c :: s)

mutual
/-- A value; the number bounds the steps. -/
def readValue : Nat → Str → Option (Json × Str)
  | 0, _ => none
  | n + 1, s =>
    match skip s with
    | '"' :: s => (readStr s).map fun r => (.str r.1, r.2)
    | '{' :: s =>
      match skip s with
      | '}' :: s => some (.obj [], s)
      | s => (readMembers n s).map fun r => (.obj r.1, r.2)
    | c :: s =>
      if c = '0' then some (.num 0, s)
      else if '1' ≤ c ∧ c ≤ '9' then let r := readNum (c.toNat - 48) s; some (.num r.1, r.2)
      else none
    | [] => none
/-- The members of an object, of which there is one at least, and the closing brace. -/
def readMembers : Nat → Str → Option (List (Str × Json) × Str)
  | 0, _ => none
  | n + 1, s =>
    match skip s with
    | '"' :: s => do
      let (k, s) ← readStr s
      match skip s with
      | ':' :: s =>
        let (v, s) ← readValue n s
        match skip s with
        | '}' :: s => some ([(k, v)], s)
        | ',' :: s => do
          let (ms, s) ← readMembers n s
          some ((k, v) :: ms, s)
        | _ => none
      | _ => none
    | _ => none
end

/-- A text that is one value with space around it. -/
def read (s : Str) : Option Json :=
  match readValue (s.length + 1) s with
  | some (v, rest) => if skip rest = [] then some v else none
  | none => none

/-- The value of a member. -/
def get (name : Str) : Json → Option Json
  | obj es => (es.find? fun e => e.1 == name).map (·.2)
  | _ => none

end Json

/-- What the entry for a tag is to look like. -/
def SearchDoc.json (d : SearchDoc) : Json :=
  .obj [(q%"location", .str d.location), (q%"title", .str d.title), (q%"text", .str d.text), (q%"depth", .num d.depth),
    (q%"section_tag", .str d.sectionTag)]

/-- Characters that are harmless in HTML, in scripts and in terminals. -/
def inertChar (c : Char) : Bool :=
  decide (32 ≤ c.toNat) && !(c == '<' || c == '>' || c == '&') && !(c.toNat == 8232 || c.toNat == 8233)

end Booklit
