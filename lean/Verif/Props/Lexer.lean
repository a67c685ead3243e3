import Verif.Lemmas.LexDocL
import Verif.Props.Surface

/-!
The colours of Booklit code: C104.
-/

namespace Booklit.Props

open Booklit Booklit.Peg Booklit.Src

/-- **C104**: every character of a code gets a colour, whatever the code is. -/
theorem C104_all (s : Str) : (colours s).length = s.length := hues_length _ s 0 _

/-- **C104**: text and escaped characters are coloured as text, names of calls, with their backslash, as keywords, braces as punctuation,
verbatim text as a string and comments, however deeply nested, as comments, wherever they stand in code of any length. The conditions on
what follows what are those of `Lexeme.Sits`. -/
theorem C104_parts (ls : List Lexeme) (h : LexemesOk ls) : colours (printLexemes ls) = paintLexemes ls := by
  induction ls with
  | nil => rfl
  | cons l ls ih =>
    have e : paintLexemes (l :: ls) = (l.print.map fun _ => l.hue) ++ paintLexemes ls := rfl
    rw [printLexemes_cons, e, ← ih h.2]
    exact paint_lexeme h.1

/-- **C104**: nothing in such code is marked as an error. -/
theorem C104_no_errors (ls : List Lexeme) (h : LexemesOk ls) : Hue.error ∉ colours (printLexemes ls) := by
  rw [C104_parts ls h]
  intro hm
  obtain ⟨l, _, hl⟩ := List.mem_flatMap.1 hm
  obtain ⟨c, _, hc⟩ := List.mem_map.1 hl
  cases l <;> cases hc

/-- **C104**: a backslash that neither begins a call nor escapes anything, and nothing else of the code after it, is marked as an error. -/
theorem C104_lone (ls : List Lexeme) (h : LexemesOk ls) (h' : ∀ c ∈ (printLexemes ls).head?, isFnChar c = false ∧ isSpecial c = false) :
    colours ('\\' :: printLexemes ls) = .error :: paintLexemes ls := by
  rw [← C104_parts ls h]
  exact paint_lone h'

/-- **C104**: the colours agree with what the parser reads: in every well-formed document whose parts sit as they should, what is coloured
as a call is exactly what the parser reads as calls, in the same order. Missing (see `C104_false`): documents in which an escaped
character is followed by a call or a brace, an argument begins with `-`, three braces are no verbatim text, or there are two closing
braces in a row in verbatim text. -/
theorem C104_calls_partial (nl : Str) (hnl : lineEnd nl) (d : Doc) (h : d.ok nl) (hl : LexemesOk (d.lexemes nl)) :
    ∃ t, parseDoc (d.print nl) = some (.ok (.node t)) ∧
      markedCalls none ((d.print nl).zip (colours (d.print nl))) = t.callNames.map ('\\' :: ·) := by
  obtain ⟨t, h1, h2⟩ := C11_print_parse nl hnl d h
  refine ⟨t, h1, ?_⟩
  rw [← d.lex_print nl, C104_parts _ hl, zip_pairs, marked_all _ hl none, d.lex_calls nl, ← h2, t.calls_erase]
  rfl

/-- `\f{\g{{{}v}}}x} y{-c{--}-}\{` and a line. -/
def lexSample : Doc :=
  ⟨[], [.mk [.mk [] none [
    .mk (.call q%"f" [.inline (.mk (.call q%"g" [.verb q%"}v"]) none) [.word (.mk (.text q%"x") none)]]) none,
    .mk (.text q%" y") (some ([], .char 'c' (.nest [] .nil .nil))), .mk (.esc '{') none]] true []]⟩

example : lexSample.print ['\n'] = q%"\\f{\\g{{{}v}}}x} y{-c{--}-}\\{\n" := by decide

-- The conditions are met.
example : lexSample.ok ['\n'] := by
  have e : noCmt [] := by intro bl t hb e; simp at e
  have hc : ∀ t, noCmt ('\\' :: t) := fun t => noCmt_head rfl (by decide)
  have hx : ∀ t, noCmt ('x' :: t) := fun t => noCmt_head rfl (by decide)
  have hy : ∀ t, noCmt (' ' :: 'y' :: t) := by
    intro t bl u hb e
    match bl, e with
    | [], e => cases e
    | [_], e => cases e
    | _ :: c :: bl, e =>
      rw [List.cons_append, List.cons_append, List.cons.injEq, List.cons.injEq] at e
      have := hb c (by simp)
      rw [← e.2.1] at this
      exact absurd this (by decide)
  have hh : ¬ hasClose q%"}v" := by
    rintro ⟨a, b, e⟩
    have := congrArg List.length e
    simp at this
    omega
  simp [lexSample, Doc.ok, Sp.ok, cmtOk, spOk, okParas, okLines, okWords, Word.ok, Vl.ok, okArgs, Arg.ok, okPieces,
    Vl.ends, Vl.ends.isFnChar', isText, isBlank, allBlank, CBody.ok, CBody.print, printWords, Word.print, Vl.print, printArgs,
    Arg.print, printPieces, Piece.print, printTrail, printCmt, Vl.trailOk,
    e, hc, hx, hy, hh]

example : LexemesOk (lexSample.lexemes ['\n']) := by
  have hv : ∀ a b, q%"}v" ≠ a ++ '}' :: '}' :: b := by
    intro a b e
    match a, e with
    | [], e => cases e
    | [_], e => cases e
    | [_, _], e => cases e
    | _ :: _ :: _ :: _, e => cases e
  simp [lexSample, Doc.lexemes, lexSp, lexParas, Para.lexemes, lexLines, Line.lexemes, lexLead, lexWords, Word.lexemes, Vl.lexemes, lexArgs,
    Arg.lexemes, lexPieces, Piece.lexemes, lexTrail, lexCmt, LexemesOk, Lexeme.Sits, printLexemes, Lexeme.print, isSpecial, isFnChar, Clear,
    CBody.ok, CBody.print, allBlank]
  exact hv

/-- **C104 is false in general**: after an escaped character a call is not coloured as one (`\{\b`, which the parser reads as a brace and a call); an
argument that begins with `-` is taken for a comment, with everything after it; and two closing braces in verbatim text are marked as an
error. -/
theorem C104_false :
    ((∃ t, parseDoc q%"\\{\\b" = some (.ok (.node t)) ∧ t.callNames = [q%"b"]) ∧ Hue.keyword ∉ colours q%"\\{\\b") ∧
    ((∃ t, parseDoc q%"\\f{-5}\\g" = some (.ok (.node t)) ∧ t.callNames = [q%"f", q%"g"]) ∧
      (colours q%"\\f{-5}\\g").drop 2 = [.comment, .comment, .comment, .comment, .comment, .comment]) ∧
    ((∃ t, parseDoc q%"\\f{{{}}v}}}" = some (.ok (.node t)) ∧ t.callNames = [q%"f"]) ∧ Hue.error ∈ colours q%"\\f{{{}}v}}}") := by
  have key : ∀ (s : Str) (d : Doc) (fs : List Str), d.ok ['\n'] → d.print ['\n'] = s → d.tree.callNames = fs →
      ∃ t, parseDoc s = some (.ok (.node t)) ∧ t.callNames = fs := by
    rintro s d fs h rfl rfl
    obtain ⟨t, h1, h2⟩ := C11_print_parse ['\n'] (.inl rfl) d h
    exact ⟨t, h1, by rw [← h2, t.calls_erase]⟩
  have e : noCmt [] := by intro bl t hb e; simp at e
  have hc : ∀ t, noCmt ('\\' :: t) := fun t => noCmt_head rfl (by decide)
  have hm : ∀ t, noCmt ('-' :: t) := fun t => noCmt_head rfl (by decide)
  have hh : ¬ hasClose q%"}}v" := by
    rintro ⟨a, b, e⟩
    match a, e with
    | [], e => cases e
    | _ :: a, e =>
      have := congrArg List.length e
      simp at this
      omega
  refine ⟨⟨key _ ⟨[], [.mk [.mk [] none [.mk (.esc '{') none, .mk (.call q%"b" []) none]] false []]⟩ _ ?_ (by decide) (by decide), by decide⟩,
    ⟨key _ ⟨[], [.mk [.mk [] none [.mk (.call q%"f" [.inline (.mk (.text q%"-5") none) []]) none, .mk (.call q%"g" []) none]] false []]⟩ _ ?_ (by decide) (by decide), by decide⟩,
    ⟨key _ ⟨[], [.mk [.mk [] none [.mk (.call q%"f" [.verb q%"}}v"]) none]] false []]⟩ _ ?_ (by decide) (by decide), by decide⟩⟩ <;>
  simp [Doc.ok, Sp.ok, cmtOk, spOk, okParas, okLines, okWords, Word.ok, Vl.ok, okArgs, Arg.ok, okPieces,
    Vl.ends, Vl.ends.isFnChar', isText, isBlank, allBlank, printWords, Word.print, Vl.print, printArgs,
    Arg.print, printPieces, printTrail, Vl.trailOk, e, hc, hm, hh]

end Booklit.Props
