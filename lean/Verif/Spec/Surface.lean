import Verif.Model.Ast

/-!
A declarative description of booklit sources: surface documents, how they are written down (`print`) and the
syntax tree they stand for (`tree`). Nothing here refers to the parser. `ok` states what a surface document
must satisfy to be unambiguous.

`nl` is the line ending used when writing: `"\n"` or `"\r\n"`.
-/

namespace Booklit.Src

open Booklit

/-- Blanks. -/
def isBlank (c : Char) : Bool := c == ' ' || c == '\t'

/-- Characters that stand for themselves in running text. -/
def isText (c : Char) : Bool := !(c == '\\' || c == '{' || c == '}' || c == '\r' || c == '\n')

def allBlank (s : Str) : Prop := ∀ c ∈ s, isBlank c = true

/-- The text does not start (after blanks) with a comment opening. -/
def noCmt (s : Str) : Prop := ∀ bl t, allBlank bl → s ≠ bl ++ '{' :: '-' :: t

/-- Inside of a comment: characters and nested comments. -/
inductive CBody where
  | nil
  | char (c : Char) (r : CBody)
  | nest (bl : Str) (i : CBody) (r : CBody)

def CBody.print : CBody → Str
  | .nil => []
  | .char c r => c :: r.print
  | .nest bl i r => bl ++ ('{' :: '-' :: (i.print ++ '-' :: '}' :: r.print))

/-- No character opens or closes a comment by accident. -/
def CBody.ok : CBody → Prop
  | .nil => True
  | .char c r => r.ok ∧ ¬ (c = '-' ∧ (r.print ++ ['-', '}']).head? = some '}') ∧
      ¬ (c = '{' ∧ (r.print ++ ['-', '}']).head? = some '-')
  | .nest bl i r => allBlank bl ∧ i.ok ∧ r.ok

/-- A comment with the blanks before it. -/
def printCmt (c : Str × CBody) : Str := c.1 ++ ('{' :: '-' :: (c.2.print ++ ['-', '}']))

def cmtOk (c : Str × CBody) : Prop := allBlank c.1 ∧ c.2.ok

/-- What may stand between paragraphs: line breaks and comments. -/
inductive Sp where
  | nl
  | cmt (bl : Str) (b : CBody)

def Sp.print (nl : Str) : Sp → Str
  | .nl => nl
  | .cmt bl b => printCmt (bl, b)

def Sp.ok : Sp → Prop
  | .nl => True
  | .cmt bl b => cmtOk (bl, b)

def printSp (nl : Str) (sp : List Sp) : Str := (sp.map (Sp.print nl)).flatten

/-- Spacing that is empty or begins with a line break. -/
def spOk (sp : List Sp) : Prop := (∀ x ∈ sp, x.ok) ∧ (sp = [] ∨ ∃ r, sp = .nl :: r)

mutual
/-- A word, possibly followed by a comment. -/
inductive Word where
  | mk (v : Vl) (trail : Option (Str × CBody))
/-- Running text, an escaped character, a call, a word in braces, `{}`. -/
inductive Vl where
  | text (s : Str)
  | esc (c : Char)
  | call (fn : Str) (args : List Arg)
  | group (w : Word)
  | empty
/-- Arguments: `{words}`, `{ paragraphs }`, `{}`, `{{ block }}`, `{{{verbatim}}}`, `{{{ verbatim block }}}`. -/
inductive Arg where
  | inline (first : Word) (rest : List Piece)
  | paras (sp : List Sp) (ps : List Para) (bl : Str)
  | blank (sp : List Sp)
  | pre (lines : List PLine) (bl : Str)
  | verb (t : Str)
  | vblock (lines : List (Str × Str)) (bl : Str)
/-- In an inline argument: a word, or a line break with the indentation after it. -/
inductive Piece where
  | word (w : Word)
  | split (bl : Str)
/-- Lines, whether the last one is ended, and the spacing after them. -/
inductive Para where
  | mk (lines : List Line) (ended : Bool) (sp : List Sp)
/-- Indentation, a comment at the start, words. -/
inductive Line where
  | mk (bl : Str) (lead : Option CBody) (words : List Word)
/-- A line of a preformatted block: indentation and words. -/
inductive PLine where
  | mk (indent : Str) (words : List Word)
end

/-- A document. -/
structure Doc where
  sp : List Sp
  ps : List Para

def printTrail : Option (Str × CBody) → Str
  | none => []
  | some c => printCmt c

def printLead : Option CBody → Str
  | none => []
  | some b => printCmt ([], b)

/-- Verbatim lines: indentation, text, line end. -/
def printVLines (nl : Str) (ls : List (Str × Str)) : Str := (ls.map fun l => l.1 ++ l.2 ++ nl).flatten

mutual
/-- The source text. -/
def Word.print (nl : Str) : Word → Str
  | .mk v t => v.print nl ++ printTrail t
def Vl.print (nl : Str) : Vl → Str
  | .text s => s
  | .esc c => ['\\', c]
  | .call fn args => '\\' :: fn ++ printArgs nl args
  | .group w => '{' :: w.print nl ++ ['}']
  | .empty => ['{', '}']
def Arg.print (nl : Str) : Arg → Str
  | .inline w ps => '{' :: w.print nl ++ printPieces nl ps ++ ['}']
  | .paras sp ps bl => '{' :: printSp nl sp ++ printParas nl ps ++ bl ++ ['}']
  | .blank sp => '{' :: printSp nl sp ++ ['}']
  | .pre ls bl => '{' :: '{' :: nl ++ printPLines nl ls ++ bl ++ ['}', '}']
  | .verb t => '{' :: '{' :: '{' :: t ++ ['}', '}', '}']
  | .vblock ls bl => '{' :: '{' :: '{' :: nl ++ printVLines nl ls ++ bl ++ ['}', '}', '}']
def printArgs (nl : Str) : List Arg → Str
  | [] => []
  | a :: as => a.print nl ++ printArgs nl as
def Piece.print (nl : Str) : Piece → Str
  | .word w => w.print nl
  | .split bl => nl ++ bl
def printPieces (nl : Str) : List Piece → Str
  | [] => []
  | p :: ps => p.print nl ++ printPieces nl ps
def Para.print (nl : Str) : Para → Str
  | .mk ls e sp => printLines nl e ls ++ printSp nl sp
def printParas (nl : Str) : List Para → Str
  | [] => []
  | p :: ps => p.print nl ++ printParas nl ps
def Line.print (nl : Str) : Line → Str
  | .mk bl lead ws => bl ++ printLead lead ++ printWords nl ws
def printLines (nl : Str) (ended : Bool) : List Line → Str
  | [] => []
  | l :: ls => l.print nl ++ (if ls.isEmpty && !ended then [] else nl) ++ printLines nl ended ls
def printWords (nl : Str) : List Word → Str
  | [] => []
  | w :: ws => w.print nl ++ printWords nl ws
def PLine.print (nl : Str) : PLine → Str
  | .mk i ws => i ++ printWords nl ws ++ nl
def printPLines (nl : Str) : List PLine → Str
  | [] => []
  | l :: ls => l.print nl ++ printPLines nl ls
end

def Doc.print (nl : Str) (d : Doc) : Str := printSp nl d.sp ++ printParas nl d.ps

/-- The pieces in which verbatim text is recorded: maximal runs without `}`, and each `}` on its own. -/
def pieces (t : Str) : List Str :=
  go [] t
where
  go (run : Str) : Str → List Str
    | [] => if run.isEmpty then [] else [run.reverse]
    | c :: t => if c == '}' then (if run.isEmpty then [] else [run.reverse]) ++ ['}'] :: go [] t else go (c :: run) t

/-- Width of the indentation that a block drops: that of its first line. -/
def PLine.indent : PLine → Str
  | .mk i _ => i

def baseOf (indents : List Str) : Nat := (indents.head?.getD []).length

mutual
/-- The syntax tree (positions left out). -/
def Word.tree : Word → Node
  | .mk v _ => v.tree
def Vl.tree : Vl → Node
  | .text s => .str s
  | .esc c => .str [c]
  | .call fn args => .invoke fn (treeArgs args) Location.zero
  | .group w => w.tree
  | .empty => .seq []
def Arg.tree : Arg → Node
  | .inline w ps => .seq (w.tree :: treePieces ps)
  | .paras _ ps _ => .seq (treeParas ps)
  | .blank _ => .str []
  | .pre ls _ => .pre (treePLines (baseOf (ls.map PLine.indent)) ls)
  | .verb t => .seq ((pieces t).map .str)
  | .vblock ls _ => .pre (ls.map fun l => .str (l.1.drop (baseOf (ls.map Prod.fst))) :: (pieces l.2).map .str)
def treeArgs : List Arg → List Node
  | [] => []
  | a :: as => a.tree :: treeArgs as
def Piece.tree : Piece → Node
  | .word w => w.tree
  | .split _ => .str [' ']
def treePieces : List Piece → List Node
  | [] => []
  | p :: ps => p.tree :: treePieces ps
def Para.tree : Para → Node
  | .mk ls _ _ => .para (treeLines ls)
def treeParas : List Para → List Node
  | [] => []
  | p :: ps => p.tree :: treeParas ps
def Line.tree : Line → List Node
  | .mk _ _ ws => treeWords ws
def treeLines : List Line → List (List Node)
  | [] => []
  | l :: ls => l.tree :: treeLines ls
def treeWords : List Word → List Node
  | [] => []
  | w :: ws => w.tree :: treeWords ws
def PLine.tree (k : Nat) : PLine → List Node
  | .mk i ws => .str (i.drop k) :: treeWords ws
def treePLines (k : Nat) : List PLine → List (List Node)
  | [] => []
  | l :: ls => l.tree k :: treePLines k ls
end

def Doc.tree (d : Doc) : Node := .seq (treeParas d.ps)

mutual
/-- No block arguments anywhere inside. -/
def Word.flat : Word → Prop
  | .mk v _ => v.flat
def Vl.flat : Vl → Prop
  | .text _ => True
  | .esc _ => True
  | .call _ args => flatArgs args
  | .group w => w.flat
  | .empty => True
def Arg.flat : Arg → Prop
  | .inline w ps => w.flat ∧ flatPieces ps
  | .paras _ ps _ => flatParas ps
  | .blank _ => True
  | .pre _ _ => False
  | .verb _ => True
  | .vblock _ _ => False
def flatArgs : List Arg → Prop
  | [] => True
  | a :: as => a.flat ∧ flatArgs as
def Piece.flat : Piece → Prop
  | .word w => w.flat
  | .split _ => True
def flatPieces : List Piece → Prop
  | [] => True
  | p :: ps => p.flat ∧ flatPieces ps
def Para.flat : Para → Prop
  | .mk ls _ _ => flatLines ls
def flatParas : List Para → Prop
  | [] => True
  | p :: ps => p.flat ∧ flatParas ps
def Line.flat : Line → Prop
  | .mk _ _ ws => flatWords ws
def flatLines : List Line → Prop
  | [] => True
  | l :: ls => l.flat ∧ flatLines ls
def flatWords : List Word → Prop
  | [] => True
  | w :: ws => w.flat ∧ flatWords ws
end

/-- `s` contains `}}}`. -/
def hasClose (s : Str) : Prop := ∃ a b, s = a ++ '}' :: '}' :: '}' :: b

/-- A value followed (without a comment in between) by `u` is not prolonged by it. -/
def Vl.ends (u : Str) : Vl → Prop
  | .text _ => ∀ c ∈ u.head?, isText c = false
  | .call _ args => (args = [] → ∀ c ∈ u.head?, isFnChar' c = false) ∧ u.head? ≠ some '{'
  | _ => True
where
  isFnChar' (c : Char) : Bool := c == '-' || (decide ('a' ≤ c) && decide (c ≤ 'z'))

/-- The comment after a value cannot be mistaken for something else. -/
def Vl.trailOk (c : Str × CBody) : Vl → Prop
  | .text _ => c.1 = []
  | .call _ _ => c.1 ≠ []
  | _ => True

mutual
/-- The word is unambiguous when followed by `u`. -/
def Word.ok (nl : Str) (u : Str) : Word → Prop
  | .mk v t => v.ok nl ∧ noCmt (v.print nl ++ printTrail t ++ u) ∧
      match t with
      | none => v.ends u ∧ noCmt u
      | some c => cmtOk c ∧ v.trailOk c
def Vl.ok (nl : Str) : Vl → Prop
  | .text s => s ≠ [] ∧ ∀ c ∈ s, isText c = true
  | .esc c => c = '\\' ∨ c = '{' ∨ c = '}'
  | .call fn args => fn ≠ [] ∧ (∀ c ∈ fn, Vl.ends.isFnChar' c = true) ∧ okArgs nl args
  | .group w => w.ok nl []
  | .empty => True
def Arg.ok (nl : Str) : Arg → Prop
  | .inline w ps => w.ok nl (printPieces nl ps) ∧ okPieces nl ps ∧ ¬ ∃ t, w.print nl = '{' :: '{' :: t
  | .paras sp ps bl => sp ≠ [] ∧ spOk sp ∧ ps ≠ [] ∧ okParas nl bl ps ∧ allBlank bl
  | .blank sp => spOk sp
  | .pre ls bl => okPLines nl ls ∧ allBlank bl
  | .verb t => (∀ c ∈ t, c ≠ '\r' ∧ c ≠ '\n') ∧ ¬ hasClose t ∧ t.getLast? ≠ some '}'
  | .vblock ls bl => (∀ l ∈ ls, allBlank l.1 ∧ (∀ c ∈ l.2.head?, isBlank c = false) ∧
      (∀ c ∈ l.2, c ≠ '\r' ∧ c ≠ '\n') ∧ ¬ hasClose l.2) ∧ allBlank bl
def okArgs (nl : Str) : List Arg → Prop
  | [] => True
  | a :: as => a.ok nl ∧ okArgs nl as
def okPieces (nl : Str) : List Piece → Prop
  | [] => True
  | .word w :: ps => w.ok nl (printPieces nl ps) ∧ okPieces nl ps
  | .split bl :: ps => allBlank bl ∧ (∀ c ∈ (printPieces nl ps).head?, isBlank c = false) ∧ okPieces nl ps
def okParas (nl : Str) (bl : Str) : List Para → Prop
  | [] => True
  | .mk ls e sp :: ps => ls ≠ [] ∧ (∀ b c ws, ls.head? ≠ some (.mk b (some c) ws)) ∧ okLines nl ls ∧ spOk sp ∧
      (e = false → sp = [] ∧ ps = [] ∧ bl = []) ∧ (ps ≠ [] → sp ≠ []) ∧ okParas nl bl ps
def okLines (nl : Str) : List Line → Prop
  | [] => True
  | .mk bl lead ws :: ls => allBlank bl ∧ (∀ b ∈ lead, b.ok) ∧ ws ≠ [] ∧
      (lead = none → ∀ c ∈ (printWords nl ws).head?, isBlank c = false) ∧ okWords nl ws ∧ okLines nl ls
def okWords (nl : Str) : List Word → Prop
  | [] => True
  | w :: ws => w.ok nl (printWords nl ws) ∧ okWords nl ws
def okPLines (nl : Str) : List PLine → Prop
  | [] => True
  | .mk i ws :: ls => allBlank i ∧ (∀ c ∈ (printWords nl ws).head?, isBlank c = false) ∧ okWords nl ws ∧ flatWords ws ∧
      okPLines nl ls
end

/-- A well-formed surface document. -/
def Doc.ok (nl : Str) (d : Doc) : Prop := (∀ x ∈ d.sp, x.ok) ∧ d.ps ≠ [] ∧ okParas nl [] d.ps

end Booklit.Src
