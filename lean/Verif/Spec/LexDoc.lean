import Verif.Spec.Lexer

/-!
Specification for C104: the parts of which a surface document consists, and the calls in a syntax tree.
-/

namespace Booklit

mutual
/-- The names of the calls in a node, in the order in which they are written. -/
def Node.callNames : Node → List Str
  | .str _ => []
  | .seq ns => callNamesL ns
  | .para ls => callNamesLL ls
  | .pre ls => callNamesLL ls
  | .invoke fn args _ => fn :: callNamesL args
def callNamesL : List Node → List Str
  | [] => []
  | n :: ns => n.callNames ++ callNamesL ns
def callNamesLL : List (List Node) → List Str
  | [] => []
  | l :: ls => callNamesL l ++ callNamesLL ls
end

/-- What is coloured as a call, each with its backslash: `on` is the call being read. -/
def markedCalls : Option Str → List (Char × Hue) → List Str
  | none, [] => []
  | some w, [] => [w]
  | none, (c, x) :: s => if x = .keyword then markedCalls (some [c]) s else markedCalls none s
  | some w, (c, x) :: s =>
    if x = .keyword then
      if c = '\\' then w :: markedCalls (some [c]) s else markedCalls (some (w ++ [c])) s
    else w :: markedCalls none s

namespace Src

def lexCmt (c : Str × CBody) : List Lexeme := [.text c.1, .cmt c.2]

def lexTrail : Option (Str × CBody) → List Lexeme
  | none => []
  | some c => lexCmt c

def lexLead : Option CBody → List Lexeme
  | none => []
  | some b => [.cmt b]

def Sp.lexemes (nl : Str) : Sp → List Lexeme
  | .nl => [.text nl]
  | .cmt bl b => lexCmt (bl, b)

def lexSp (nl : Str) (sp : List Sp) : List Lexeme := (sp.map (Sp.lexemes nl)).flatten

mutual
/-- What a surface document consists of. -/
def Word.lexemes (nl : Str) : Word → List Lexeme
  | .mk v t => v.lexemes nl ++ lexTrail t
def Vl.lexemes (nl : Str) : Vl → List Lexeme
  | .text s => [.text s]
  | .esc c => [.esc c]
  | .call fn args => .call fn :: lexArgs nl args
  | .group w => .opn :: (w.lexemes nl ++ [.cls])
  | .empty => [.opn, .cls]
def Arg.lexemes (nl : Str) : Arg → List Lexeme
  | .inline w ps => .opn :: (w.lexemes nl ++ (lexPieces nl ps ++ [.cls]))
  | .paras sp ps bl => .opn :: (lexSp nl sp ++ (lexParas nl ps ++ [.text bl, .cls]))
  | .blank sp => .opn :: (lexSp nl sp ++ [.cls])
  | .pre ls bl => .opn :: .opn :: .text nl :: (lexPLines nl ls ++ [.text bl, .cls, .cls])
  | .verb t => [.verb t]
  | .vblock ls bl => [.verb (nl ++ (printVLines nl ls ++ bl))]
def lexArgs (nl : Str) : List Arg → List Lexeme
  | [] => []
  | a :: as => a.lexemes nl ++ lexArgs nl as
def Piece.lexemes (nl : Str) : Piece → List Lexeme
  | .word w => w.lexemes nl
  | .split bl => [.text (nl ++ bl)]
def lexPieces (nl : Str) : List Piece → List Lexeme
  | [] => []
  | p :: ps => p.lexemes nl ++ lexPieces nl ps
def Para.lexemes (nl : Str) : Para → List Lexeme
  | .mk ls e sp => lexLines nl e ls ++ lexSp nl sp
def lexParas (nl : Str) : List Para → List Lexeme
  | [] => []
  | p :: ps => p.lexemes nl ++ lexParas nl ps
def Line.lexemes (nl : Str) : Line → List Lexeme
  | .mk bl lead ws => .text bl :: (lexLead lead ++ lexWords nl ws)
def lexLines (nl : Str) (ended : Bool) : List Line → List Lexeme
  | [] => []
  | l :: ls => l.lexemes nl ++ (.text (if ls.isEmpty && !ended then [] else nl) :: lexLines nl ended ls)
def lexWords (nl : Str) : List Word → List Lexeme
  | [] => []
  | w :: ws => w.lexemes nl ++ lexWords nl ws
def PLine.lexemes (nl : Str) : PLine → List Lexeme
  | .mk i ws => .text i :: (lexWords nl ws ++ [.text nl])
def lexPLines (nl : Str) : List PLine → List Lexeme
  | [] => []
  | l :: ls => l.lexemes nl ++ lexPLines nl ls
end

def Doc.lexemes (nl : Str) (d : Doc) : List Lexeme := lexSp nl d.sp ++ lexParas nl d.ps

end Src

end Booklit
