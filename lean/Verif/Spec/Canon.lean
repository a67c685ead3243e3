import Verif.Spec.Surface

/-!
Canonical syntax trees, described by themselves (no source text, no parser).
-/

namespace Booklit

open Booklit.Src (isText isBlank allBlank hasClose pieces baseOf)

/-- What running text is recorded as: a non-empty string of ordinary characters or one special character. -/
def textOk (s : Str) : Prop := (s ≠ [] ∧ ∀ c ∈ s, isText c = true) ∨ s = ['\\'] ∨ s = ['{'] ∨ s = ['}']

def fnOk (fn : Str) : Prop := fn ≠ [] ∧ ∀ c ∈ fn, c = '-' ∨ ('a' ≤ c ∧ c ≤ 'z')

/-- Verbatim text on one line: no line break and not mistaken for the closing braces. -/
def verbOk (t : Str) : Prop := (∀ c ∈ t, c ≠ '\r' ∧ c ≠ '\n') ∧ ¬ hasClose t

mutual
/-- No preformatted block anywhere inside. -/
def Node.noPre : Node → Prop
  | .str _ => True
  | .invoke _ args _ => noPreL args
  | .seq ns => noPreL ns
  | .para ls => noPreLL ls
  | .pre _ => False
def noPreL : List Node → Prop
  | [] => True
  | n :: ns => n.noPre ∧ noPreL ns
def noPreLL : List (List Node) → Prop
  | [] => True
  | l :: ls => noPreL l ∧ noPreLL ls
end

mutual
/-- A word: text, a call with canonical arguments, or the empty sequence (`{}`). -/
def Node.isWord : Node → Prop
  | .str s => textOk s
  | .invoke fn args _ => fnOk fn ∧ allArgs args
  | .seq ns => ns = []
  | .para _ => False
  | .pre _ => False
/-- An argument: nothing, words, paragraphs, one line of verbatim text, or a preformatted block whose first
line is not indented. -/
def Node.isArg : Node → Prop
  | .str s => s = []
  | .invoke _ _ _ => False
  | .seq ns => (ns ≠ [] ∧ allWords ns) ∨ (ns ≠ [] ∧ allParas ns) ∨
      ∃ t, verbOk t ∧ t.getLast? ≠ some '}' ∧ ns = (pieces t).map .str
  | .para _ => False
  | .pre ls => (allPLines ls ∧ ∀ l ∈ ls.head?, l.head? = some (.str [])) ∨
      ∃ ts : List (Str × Str), (∀ l ∈ ts, allBlank l.1 ∧ (∀ c ∈ l.2.head?, isBlank c = false) ∧ verbOk l.2) ∧
        (∀ l ∈ ts.head?, l.1 = []) ∧ ls = ts.map fun l => .str l.1 :: (pieces l.2).map .str
/-- A paragraph: non-empty lines of words, at least one. -/
def Node.isPara : Node → Prop
  | .para ls => ls ≠ [] ∧ allLines ls
  | _ => False
def allWords : List Node → Prop
  | [] => True
  | n :: ns => n.isWord ∧ allWords ns
def allArgs : List Node → Prop
  | [] => True
  | n :: ns => n.isArg ∧ allArgs ns
def allParas : List Node → Prop
  | [] => True
  | n :: ns => n.isPara ∧ allParas ns
def allLines : List (List Node) → Prop
  | [] => True
  | l :: ls => (l ≠ [] ∧ allWords l) ∧ allLines ls
/-- Preformatted lines: remaining indentation, then words without further preformatted blocks. -/
def allPLines : List (List Node) → Prop
  | [] => True
  | l :: ls => (match l with
      | [] => False
      | i :: ws => (∃ b, i = .str b ∧ allBlank b) ∧ allWords ws ∧ noPreL ws) ∧ allPLines ls
end

/-- A canonical document: a non-empty sequence of canonical paragraphs. -/
def Node.isDoc (t : Node) : Prop := ∃ ps, t = .seq ps ∧ ps ≠ [] ∧ allParas ps

end Booklit
