import Verif.Lemmas.LexerL
import Verif.Spec.LexDoc

/-!
The parts of surface documents, for C104.
-/

namespace Booklit

/-- The calls among the parts. -/
def lexemeCalls (ls : List Lexeme) : List Str := ls.flatMap fun l => match l with
  | .call fn => [fn]
  | _ => []

theorem lexemeCalls_append (a b : List Lexeme) : lexemeCalls (a ++ b) = lexemeCalls a ++ lexemeCalls b := List.flatMap_append

theorem printLexemes_append (a b : List Lexeme) : printLexemes (a ++ b) = printLexemes a ++ printLexemes b := List.flatMap_append

theorem printLexemes_cons (l : Lexeme) (b : List Lexeme) : printLexemes (l :: b) = l.print ++ printLexemes b := List.flatMap_cons

theorem printLexemes_nil : printLexemes [] = [] := rfl

theorem lexemeCalls_nil : lexemeCalls [] = [] := rfl

theorem lexemeCalls_call (fn : Str) (b : List Lexeme) : lexemeCalls (.call fn :: b) = fn :: lexemeCalls b := rfl

theorem lexemeCalls_text (s : Str) (b : List Lexeme) : lexemeCalls (.text s :: b) = lexemeCalls b := rfl

theorem lexemeCalls_esc (c : Char) (b : List Lexeme) : lexemeCalls (.esc c :: b) = lexemeCalls b := rfl

theorem lexemeCalls_opn (b : List Lexeme) : lexemeCalls (.opn :: b) = lexemeCalls b := rfl

theorem lexemeCalls_cls (b : List Lexeme) : lexemeCalls (.cls :: b) = lexemeCalls b := rfl

theorem lexemeCalls_verb (t : Str) (b : List Lexeme) : lexemeCalls (.verb t :: b) = lexemeCalls b := rfl

theorem lexemeCalls_cmt (t : Src.CBody) (b : List Lexeme) : lexemeCalls (.cmt t :: b) = lexemeCalls b := rfl

namespace Src

theorem trail_lex (t : Option (Str × CBody)) : printLexemes (lexTrail t) = printTrail t ∧ lexemeCalls (lexTrail t) = [] := by
  cases t with
  | none => exact ⟨rfl, rfl⟩
  | some c => exact ⟨by simp [lexTrail, lexCmt, printTrail, printCmt, printLexemes, Lexeme.print], rfl⟩

theorem lead_lex (t : Option CBody) : printLexemes (lexLead t) = printLead t ∧ lexemeCalls (lexLead t) = [] := by
  cases t with
  | none => exact ⟨rfl, rfl⟩
  | some c => exact ⟨by simp [lexLead, printLead, printCmt, printLexemes, Lexeme.print], rfl⟩

theorem sp_lex (nl : Str) : ∀ sp : List Sp, printLexemes (lexSp nl sp) = printSp nl sp ∧ lexemeCalls (lexSp nl sp) = []
  | [] => ⟨rfl, rfl⟩
  | x :: sp => by
    obtain ⟨h1, h2⟩ := sp_lex nl sp
    have e : lexSp nl (x :: sp) = x.lexemes nl ++ lexSp nl sp := rfl
    have e' : printSp nl (x :: sp) = x.print nl ++ printSp nl sp := rfl
    rw [e, e', printLexemes_append, lexemeCalls_append, h1, h2]
    cases x with
    | nl => exact ⟨by simp [Sp.lexemes, Sp.print, printLexemes, Lexeme.print], rfl⟩
    | cmt bl b => exact ⟨by simp [Sp.lexemes, Sp.print, lexCmt, printCmt, printLexemes, Lexeme.print], rfl⟩

mutual
theorem Word.lex_print (nl : Str) : ∀ w : Word, printLexemes (w.lexemes nl) = w.print nl
  | .mk v t => by rw [Word.lexemes, Word.print, printLexemes_append, (trail_lex t).1, v.lex_print nl]
theorem Vl.lex_print (nl : Str) : ∀ v : Vl, printLexemes (v.lexemes nl) = v.print nl
  | .text s => by simp [Vl.lexemes, Vl.print, printLexemes, Lexeme.print]
  | .esc c => rfl
  | .call fn args => by rw [Vl.lexemes, Vl.print, printLexemes_cons, lexArgs_print nl args]; rfl
  | .group w => by rw [Vl.lexemes, Vl.print, printLexemes_cons, printLexemes_append, w.lex_print nl]; rfl
  | .empty => rfl
theorem Arg.lex_print (nl : Str) : ∀ a : Arg, printLexemes (a.lexemes nl) = a.print nl
  | .inline w ps => by
    rw [Arg.lexemes, Arg.print, printLexemes_cons, printLexemes_append, printLexemes_append, w.lex_print nl, lexPieces_print nl ps]
    simp [Lexeme.print, printLexemes]
  | .paras sp ps bl => by
    rw [Arg.lexemes, Arg.print, printLexemes_cons, printLexemes_append, printLexemes_append, (sp_lex nl sp).1, lexParas_print nl ps]
    simp [Lexeme.print, printLexemes]
  | .blank sp => by
    rw [Arg.lexemes, Arg.print, printLexemes_cons, printLexemes_append, (sp_lex nl sp).1]
    simp [Lexeme.print, printLexemes]
  | .pre ls bl => by
    rw [Arg.lexemes, Arg.print, printLexemes_cons, printLexemes_cons, printLexemes_cons, printLexemes_append, lexPLines_print nl ls]
    simp [Lexeme.print, printLexemes]
  | .verb t => by simp [Arg.lexemes, Arg.print, printLexemes, Lexeme.print]
  | .vblock ls bl => by simp [Arg.lexemes, Arg.print, printLexemes, Lexeme.print]
theorem lexArgs_print (nl : Str) : ∀ as : List Arg, printLexemes (lexArgs nl as) = printArgs nl as
  | [] => by rw [lexArgs, printArgs]; rfl
  | a :: as => by rw [lexArgs, printArgs, printLexemes_append, a.lex_print nl, lexArgs_print nl as]
theorem Piece.lex_print (nl : Str) : ∀ p : Piece, printLexemes (p.lexemes nl) = p.print nl
  | .word w => by rw [Piece.lexemes, Piece.print, w.lex_print nl]
  | .split bl => by simp [Piece.lexemes, Piece.print, printLexemes, Lexeme.print]
theorem lexPieces_print (nl : Str) : ∀ ps : List Piece, printLexemes (lexPieces nl ps) = printPieces nl ps
  | [] => by rw [lexPieces, printPieces]; rfl
  | p :: ps => by rw [lexPieces, printPieces, printLexemes_append, p.lex_print nl, lexPieces_print nl ps]
theorem Para.lex_print (nl : Str) : ∀ p : Para, printLexemes (p.lexemes nl) = p.print nl
  | .mk ls e sp => by rw [Para.lexemes, Para.print, printLexemes_append, (sp_lex nl sp).1, lexLines_print nl e ls]
theorem lexParas_print (nl : Str) : ∀ ps : List Para, printLexemes (lexParas nl ps) = printParas nl ps
  | [] => by rw [lexParas, printParas]; rfl
  | p :: ps => by rw [lexParas, printParas, printLexemes_append, p.lex_print nl, lexParas_print nl ps]
theorem Line.lex_print (nl : Str) : ∀ l : Line, printLexemes (l.lexemes nl) = l.print nl
  | .mk bl lead ws => by
    rw [Line.lexemes, Line.print, printLexemes_cons, printLexemes_append, (lead_lex lead).1, lexWords_print nl ws, List.append_assoc]
    rfl
theorem lexLines_print (nl : Str) (e : Bool) : ∀ ls : List Line, printLexemes (lexLines nl e ls) = printLines nl e ls
  | [] => by rw [lexLines, printLines]; rfl
  | l :: ls => by
    rw [lexLines, printLines, printLexemes_append, printLexemes_cons, l.lex_print nl, lexLines_print nl e ls, List.append_assoc]
    rfl
theorem lexWords_print (nl : Str) : ∀ ws : List Word, printLexemes (lexWords nl ws) = printWords nl ws
  | [] => by rw [lexWords, printWords]; rfl
  | w :: ws => by rw [lexWords, printWords, printLexemes_append, w.lex_print nl, lexWords_print nl ws]
theorem PLine.lex_print (nl : Str) : ∀ l : PLine, printLexemes (l.lexemes nl) = l.print nl
  | .mk i ws => by
    rw [PLine.lexemes, PLine.print, printLexemes_cons, printLexemes_append, lexWords_print nl ws]
    simp [Lexeme.print, printLexemes]
theorem lexPLines_print (nl : Str) : ∀ ls : List PLine, printLexemes (lexPLines nl ls) = printPLines nl ls
  | [] => by rw [lexPLines, printPLines]; rfl
  | l :: ls => by rw [lexPLines, printPLines, printLexemes_append, l.lex_print nl, lexPLines_print nl ls]
end

theorem Doc.lex_print (nl : Str) (d : Doc) : printLexemes (d.lexemes nl) = d.print nl := by
  rw [Doc.lexemes, Doc.print, printLexemes_append, (sp_lex nl d.sp).1, lexParas_print]

theorem calls_strs : ∀ ss : List Str, callNamesL (ss.map .str) = []
  | [] => by rw [List.map_nil, callNamesL]
  | s :: ss => by rw [List.map_cons, callNamesL, calls_strs ss, Node.callNames]; rfl

theorem calls_vlines (k : Nat) : ∀ ls : List (Str × Str),
    callNamesLL (ls.map fun l => .str (l.1.drop k) :: (pieces l.2).map .str) = []
  | [] => by rw [List.map_nil, callNamesLL]
  | l :: ls => by rw [List.map_cons, callNamesLL, calls_vlines k ls, callNamesL, calls_strs, Node.callNames]; rfl

mutual
theorem Word.lex_calls (nl : Str) : ∀ w : Word, lexemeCalls (w.lexemes nl) = w.tree.callNames
  | .mk v t => by rw [Word.lexemes, Word.tree, lexemeCalls_append, (trail_lex t).2, v.lex_calls nl, List.append_nil]
theorem Vl.lex_calls (nl : Str) : ∀ v : Vl, lexemeCalls (v.lexemes nl) = v.tree.callNames
  | .text s => by rw [Vl.lexemes, Vl.tree, Node.callNames]; rfl
  | .esc c => by rw [Vl.lexemes, Vl.tree, Node.callNames]; rfl
  | .call fn args => by rw [Vl.lexemes, Vl.tree, lexemeCalls_call, lexArgs_calls nl args, Node.callNames]
  | .group w => by rw [Vl.lexemes, Vl.tree, lexemeCalls_opn, lexemeCalls_append, w.lex_calls nl]; exact List.append_nil _
  | .empty => by rw [Vl.lexemes, Vl.tree, Node.callNames, callNamesL]; rfl
theorem Arg.lex_calls (nl : Str) : ∀ a : Arg, lexemeCalls (a.lexemes nl) = a.tree.callNames
  | .inline w ps => by
    rw [Arg.lexemes, Arg.tree, lexemeCalls_opn, lexemeCalls_append, lexemeCalls_append, w.lex_calls nl, lexPieces_calls nl ps, Node.callNames,
      callNamesL, lexemeCalls_cls, lexemeCalls_nil, List.append_nil]
  | .paras sp ps bl => by
    rw [Arg.lexemes, Arg.tree, lexemeCalls_opn, lexemeCalls_append, lexemeCalls_append, (sp_lex nl sp).2, lexParas_calls nl ps, Node.callNames,
      lexemeCalls_text, lexemeCalls_cls, lexemeCalls_nil, List.append_nil, List.nil_append]
  | .blank sp => by
    rw [Arg.lexemes, Arg.tree, lexemeCalls_opn, lexemeCalls_append, (sp_lex nl sp).2, Node.callNames]; rfl
  | .pre ls bl => by
    rw [Arg.lexemes, Arg.tree, lexemeCalls_opn, lexemeCalls_opn, lexemeCalls_text, lexemeCalls_append, lexPLines_calls nl _ ls, Node.callNames,
      lexemeCalls_text, lexemeCalls_cls, lexemeCalls_cls, lexemeCalls_nil, List.append_nil]
  | .verb t => by rw [Arg.lexemes, Arg.tree, Node.callNames, calls_strs]; rfl
  | .vblock ls bl => by rw [Arg.lexemes, Arg.tree, Node.callNames, calls_vlines]; rfl
theorem lexArgs_calls (nl : Str) : ∀ as : List Arg, lexemeCalls (lexArgs nl as) = callNamesL (treeArgs as)
  | [] => by rw [lexArgs, treeArgs, callNamesL]; rfl
  | a :: as => by rw [lexArgs, treeArgs, lexemeCalls_append, a.lex_calls nl, lexArgs_calls nl as, callNamesL]
theorem Piece.lex_calls (nl : Str) : ∀ p : Piece, lexemeCalls (p.lexemes nl) = p.tree.callNames
  | .word w => by rw [Piece.lexemes, Piece.tree, w.lex_calls nl]
  | .split bl => by rw [Piece.lexemes, Piece.tree, Node.callNames]; rfl
theorem lexPieces_calls (nl : Str) : ∀ ps : List Piece, lexemeCalls (lexPieces nl ps) = callNamesL (treePieces ps)
  | [] => by rw [lexPieces, treePieces, callNamesL]; rfl
  | p :: ps => by rw [lexPieces, treePieces, lexemeCalls_append, p.lex_calls nl, lexPieces_calls nl ps, callNamesL]
theorem Para.lex_calls (nl : Str) : ∀ p : Para, lexemeCalls (p.lexemes nl) = p.tree.callNames
  | .mk ls e sp => by
    rw [Para.lexemes, Para.tree, lexemeCalls_append, (sp_lex nl sp).2, lexLines_calls nl e ls, Node.callNames, List.append_nil]
theorem lexParas_calls (nl : Str) : ∀ ps : List Para, lexemeCalls (lexParas nl ps) = callNamesL (treeParas ps)
  | [] => by rw [lexParas, treeParas, callNamesL]; rfl
  | p :: ps => by rw [lexParas, treeParas, lexemeCalls_append, p.lex_calls nl, lexParas_calls nl ps, callNamesL]
theorem Line.lex_calls (nl : Str) : ∀ l : Line, lexemeCalls (l.lexemes nl) = callNamesL l.tree
  | .mk bl lead ws => by
    rw [Line.lexemes, Line.tree, lexemeCalls_text, lexemeCalls_append, (lead_lex lead).2, lexWords_calls nl ws, List.nil_append]
theorem lexLines_calls (nl : Str) (e : Bool) : ∀ ls : List Line, lexemeCalls (lexLines nl e ls) = callNamesLL (treeLines ls)
  | [] => by rw [lexLines, treeLines, callNamesLL]; rfl
  | l :: ls => by
    rw [lexLines, treeLines, lexemeCalls_append, lexemeCalls_text, l.lex_calls nl, lexLines_calls nl e ls, callNamesLL]
theorem lexWords_calls (nl : Str) : ∀ ws : List Word, lexemeCalls (lexWords nl ws) = callNamesL (treeWords ws)
  | [] => by rw [lexWords, treeWords, callNamesL]; rfl
  | w :: ws => by rw [lexWords, treeWords, lexemeCalls_append, w.lex_calls nl, lexWords_calls nl ws, callNamesL]
theorem PLine.lex_calls (nl : Str) (k : Nat) : ∀ l : PLine, lexemeCalls (l.lexemes nl) = callNamesL (l.tree k)
  | .mk i ws => by
    rw [PLine.lexemes, PLine.tree, lexemeCalls_text, lexemeCalls_append, lexWords_calls nl ws, callNamesL, Node.callNames, lexemeCalls_text,
      lexemeCalls_nil, List.append_nil, List.nil_append]
theorem lexPLines_calls (nl : Str) (k : Nat) : ∀ ls : List PLine, lexemeCalls (lexPLines nl ls) = callNamesLL (treePLines k ls)
  | [] => by rw [lexPLines, treePLines, callNamesLL]; rfl
  | l :: ls => by rw [lexPLines, treePLines, lexemeCalls_append, l.lex_calls nl k, lexPLines_calls nl k ls, callNamesLL]
end

theorem Doc.lex_calls (nl : Str) (d : Doc) : lexemeCalls (d.lexemes nl) = d.tree.callNames := by
  rw [Doc.lexemes, Doc.tree, lexemeCalls_append, (sp_lex nl d.sp).2, lexParas_calls, Node.callNames, List.nil_append]

end Src

mutual
theorem Node.calls_erase : ∀ n : Node, n.erase.callNames = n.callNames
  | .str _ => by rw [Node.erase]
  | .seq ns => by rw [Node.erase, Node.callNames, Node.callNames, callsL_erase ns]
  | .para ls => by rw [Node.erase, Node.callNames, Node.callNames, callsLL_erase ls]
  | .pre ls => by rw [Node.erase, Node.callNames, Node.callNames, callsLL_erase ls]
  | .invoke fn args _ => by rw [Node.erase, Node.callNames, Node.callNames, callsL_erase args]
theorem callsL_erase : ∀ ns : List Node, callNamesL (eraseL ns) = callNamesL ns
  | [] => by rw [eraseL]
  | n :: ns => by rw [eraseL, callNamesL, callNamesL, n.calls_erase, callsL_erase ns]
theorem callsLL_erase : ∀ ls : List (List Node), callNamesLL (eraseLL ls) = callNamesLL ls
  | [] => by rw [eraseLL]
  | l :: ls => by rw [eraseLL, callNamesLL, callNamesLL, callsL_erase l, callsLL_erase ls]
end

/-! ### Reading the colours -/

/-- The characters with their colours. -/
def lexPairs (ls : List Lexeme) : List (Char × Hue) := ls.flatMap fun l => l.print.map fun c => (c, l.hue)

theorem zip_pairs : ∀ ls : List Lexeme, (printLexemes ls).zip (paintLexemes ls) = lexPairs ls
  | [] => rfl
  | l :: ls => by
    have e : paintLexemes (l :: ls) = (l.print.map fun _ => l.hue) ++ paintLexemes ls := rfl
    have e' : lexPairs (l :: ls) = (l.print.map fun c => (c, l.hue)) ++ lexPairs ls := rfl
    rw [printLexemes_cons, e, e', List.zip_append (by rw [List.length_map]), zip_pairs ls]
    congr 1
    induction l.print with
    | nil => rfl
    | cons c s ih => simp only [List.map_cons, List.zip_cons_cons, ih]

theorem marked_skip {x : Hue} (hx : x ≠ .keyword) (r : List (Char × Hue)) : ∀ s : Str, markedCalls none ((s.map fun c => (c, x)) ++ r) = markedCalls none r
  | [] => rfl
  | c :: s => by
    rw [List.map_cons, List.cons_append, markedCalls, if_neg hx, marked_skip hx r s]

theorem marked_name (r : List (Char × Hue)) : ∀ (s w : Str), '\\' ∉ s →
    markedCalls (some w) ((s.map fun c => (c, Hue.keyword)) ++ r) = markedCalls (some (w ++ s)) r
  | [], w, _ => by rw [List.append_nil]; rfl
  | c :: s, w, h => by
    rw [List.map_cons, List.cons_append, markedCalls, if_pos rfl, if_neg (fun e => h (by rw [← e]; exact List.mem_cons_self)),
      marked_name r s (w ++ [c]) (fun hm => h (List.mem_cons_of_mem _ hm)), List.append_assoc]
    rfl

theorem marked_all : ∀ (ls : List Lexeme), LexemesOk ls → ∀ st : Option Str,
    markedCalls st (lexPairs ls) = st.toList ++ (lexemeCalls ls).map ('\\' :: ·)
  | [], _, st => by cases st <;> rfl
  | l :: ls, h, st => by
    have ih := marked_all ls h.2
    have e' : lexPairs (l :: ls) = (l.print.map fun c => (c, l.hue)) ++ lexPairs ls := rfl
    rw [e']
    have other : l.hue ≠ .keyword → lexemeCalls (l :: ls) = lexemeCalls ls →
        markedCalls st ((l.print.map fun c => (c, l.hue)) ++ lexPairs ls) = st.toList ++ (lexemeCalls (l :: ls)).map ('\\' :: ·) := by
      intro hx he
      rw [he]
      cases st with
      | none => rw [marked_skip hx, ih none]
      | some w =>
        cases l.print with
        | nil => exact ih (some w)
        | cons c s => rw [List.map_cons, List.cons_append, markedCalls, if_neg hx, marked_skip hx, ih none]; rfl
    cases l with
    | call fn =>
      have hfn : '\\' ∉ fn := fun hm => absurd (h.1.2.1 _ hm) (by decide)
      have hn : ∀ w, markedCalls (some w) ((fn.map fun c => (c, Hue.keyword)) ++ lexPairs ls) = (w ++ fn) :: (lexemeCalls ls).map ('\\' :: ·) := by
        intro w
        rw [marked_name _ fn w hfn, ih]
        rfl
      rw [lexemeCalls_call]
      cases st with
      | none =>
        show markedCalls none (('\\', Hue.keyword) :: ((fn.map fun c => (c, Hue.keyword)) ++ lexPairs ls)) = _
        rw [markedCalls, if_pos rfl, hn]
        rfl
      | some w =>
        show markedCalls (some w) (('\\', Hue.keyword) :: ((fn.map fun c => (c, Hue.keyword)) ++ lexPairs ls)) = _
        rw [markedCalls, if_pos rfl, if_pos rfl, hn]
        rfl
    | text s => exact other (by intro e; cases e) rfl
    | esc c => exact other (by intro e; cases e) rfl
    | opn => exact other (by intro e; cases e) rfl
    | cls => exact other (by intro e; cases e) rfl
    | verb t => exact other (by intro e; cases e) rfl
    | cmt b => exact other (by intro e; cases e) rfl

end Booklit
