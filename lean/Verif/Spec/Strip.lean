import Verif.Spec.Surface

/-!
Removing all comments from a surface document.
-/

namespace Booklit.Src

mutual
/-- Without comments. -/
def Word.strip : Word → Word
  | .mk v _ => .mk v.strip none
def Vl.strip : Vl → Vl
  | .text s => .text s
  | .esc c => .esc c
  | .call fn args => .call fn (stripArgs args)
  | .group w => .group w.strip
  | .empty => .empty
def Arg.strip : Arg → Arg
  | .inline w ps => .inline w.strip (stripPieces ps)
  | .paras sp ps bl => .paras (stripSp sp) (stripParas ps) bl
  | .blank sp => .blank (stripSp sp)
  | .pre ls bl => .pre (stripPLines ls) bl
  | .verb t => .verb t
  | .vblock ls bl => .vblock ls bl
def stripArgs : List Arg → List Arg
  | [] => []
  | a :: as => a.strip :: stripArgs as
def Piece.strip : Piece → Piece
  | .word w => .word w.strip
  | .split bl => .split bl
def stripPieces : List Piece → List Piece
  | [] => []
  | p :: ps => p.strip :: stripPieces ps
def Para.strip : Para → Para
  | .mk ls e sp => .mk (stripLines ls) e (stripSp sp)
def stripParas : List Para → List Para
  | [] => []
  | p :: ps => p.strip :: stripParas ps
def Line.strip : Line → Line
  | .mk bl _ ws => .mk bl none (stripWords ws)
def stripLines : List Line → List Line
  | [] => []
  | l :: ls => l.strip :: stripLines ls
def stripWords : List Word → List Word
  | [] => []
  | w :: ws => w.strip :: stripWords ws
def PLine.strip : PLine → PLine
  | .mk i ws => .mk i (stripWords ws)
def stripPLines : List PLine → List PLine
  | [] => []
  | l :: ls => l.strip :: stripPLines ls
/-- Only the line breaks. -/
def stripSp : List Sp → List Sp
  | [] => []
  | .nl :: sp => .nl :: stripSp sp
  | .cmt _ _ :: sp => stripSp sp
end

def Doc.strip (d : Doc) : Doc := ⟨stripSp d.sp, stripParas d.ps⟩

mutual
theorem Word.strip_tree : ∀ w : Word, w.strip.tree = w.tree
  | .mk v _ => by simp [Word.strip, Word.tree, Vl.strip_tree v]
theorem Vl.strip_tree : ∀ v : Vl, v.strip.tree = v.tree
  | .text _ => rfl
  | .esc _ => rfl
  | .call fn args => by simp [Vl.strip, Vl.tree, stripArgs_tree args]
  | .group w => by simp [Vl.strip, Vl.tree, Word.strip_tree w]
  | .empty => rfl
theorem Arg.strip_tree : ∀ a : Arg, a.strip.tree = a.tree
  | .inline w ps => by simp [Arg.strip, Arg.tree, Word.strip_tree w, stripPieces_tree ps]
  | .paras sp ps bl => by simp [Arg.strip, Arg.tree, stripParas_tree ps]
  | .blank sp => by simp [Arg.strip, Arg.tree]
  | .pre ls bl => by simp [Arg.strip, Arg.tree, stripPLines_tree, stripPLines_indent ls]
  | .verb t => rfl
  | .vblock ls bl => rfl
theorem stripArgs_tree : ∀ as : List Arg, treeArgs (stripArgs as) = treeArgs as
  | [] => rfl
  | a :: as => by simp [stripArgs, treeArgs, Arg.strip_tree a, stripArgs_tree as]
theorem Piece.strip_tree : ∀ p : Piece, p.strip.tree = p.tree
  | .word w => by simp [Piece.strip, Piece.tree, Word.strip_tree w]
  | .split bl => rfl
theorem stripPieces_tree : ∀ ps : List Piece, treePieces (stripPieces ps) = treePieces ps
  | [] => rfl
  | a :: as => by simp [stripPieces, treePieces, Piece.strip_tree a, stripPieces_tree as]
theorem Para.strip_tree : ∀ p : Para, p.strip.tree = p.tree
  | .mk ls e sp => by simp [Para.strip, Para.tree, stripLines_tree ls]
theorem stripParas_tree : ∀ ps : List Para, treeParas (stripParas ps) = treeParas ps
  | [] => rfl
  | a :: as => by simp [stripParas, treeParas, Para.strip_tree a, stripParas_tree as]
theorem Line.strip_tree : ∀ l : Line, l.strip.tree = l.tree
  | .mk bl _ ws => by simp [Line.strip, Line.tree, stripWords_tree ws]
theorem stripLines_tree : ∀ ps : List Line, treeLines (stripLines ps) = treeLines ps
  | [] => rfl
  | a :: as => by simp [stripLines, treeLines, Line.strip_tree a, stripLines_tree as]
theorem stripWords_tree : ∀ ps : List Word, treeWords (stripWords ps) = treeWords ps
  | [] => rfl
  | a :: as => by simp [stripWords, treeWords, Word.strip_tree a, stripWords_tree as]
theorem PLine.strip_tree : ∀ (l : PLine) (k : Nat), l.strip.tree k = l.tree k
  | .mk i ws, k => by simp [PLine.strip, PLine.tree, stripWords_tree ws]
theorem stripPLines_tree : ∀ (ps : List PLine) (k : Nat), treePLines k (stripPLines ps) = treePLines k ps
  | [], _ => rfl
  | a :: as, k => by simp [stripPLines, treePLines, PLine.strip_tree a, stripPLines_tree as]
theorem stripPLines_indent : ∀ (ps : List PLine), (stripPLines ps).map PLine.indent = ps.map PLine.indent
  | [] => rfl
  | .mk i ws :: as => by simp [stripPLines, PLine.strip, PLine.indent, stripPLines_indent as]
end

theorem Doc.strip_tree (d : Doc) : d.strip.tree = d.tree := by simp [Doc.strip, Doc.tree, stripParas_tree]

end Booklit.Src
