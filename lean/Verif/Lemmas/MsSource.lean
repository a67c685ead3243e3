import Verif.Lemmas.SurfaceProse
import Verif.Spec.Manuscript

/-!
Manuscripts as surface documents: how they are written is how the surface document is written.
-/

namespace Booklit.Ms

open Booklit Booklit.Src

/-- Words as an argument. -/
def argOf : List Word → Arg
  | [] => .blank []
  | w :: ws => .inline w (ws.map .word)

mutual
def Span.words : Span → List Word
  | .text s => wordsOf [] s
  | .code s => [.mk (.call q%"code" [.verb s]) none]
  | .styled f ss => [.mk (.call f.fn [argOf (wordsSpans ss)]) none]
  | .link ss url => [.mk (.call q%"link" [argOf (wordsSpans ss), argOf (wordsOf [] url)]) none]
  | .ref name => [.mk (.call q%"reference" [argOf (wordsOf [] name)]) none]
  | .see name ss => [.mk (.call q%"reference" [argOf (wordsOf [] name), argOf (wordsSpans ss)]) none]
  | .image path alt => [.mk (.call q%"image" [argOf (wordsOf [] path), argOf (wordsOf [] alt)]) none]
  | .target name none => [.mk (.call q%"target" [argOf (wordsOf [] name)]) none]
  | .target name (some title) => [.mk (.call q%"target" [argOf (wordsOf [] name), argOf (wordsOf [] title)]) none]
  | .aux ss => [.mk (.call q%"aux" [argOf (wordsSpans ss)]) none]
def wordsSpans : List Span → List Word
  | [] => []
  | s :: ss => s.words ++ wordsSpans ss
end

/-- A paragraph that is one call. -/
def callPara (fn : Str) (as : List Arg) : Para := .mk [.mk [] none [.mk (.call fn as) none]] true [.nl]

/-- Arguments that are running text. -/
def argsOf (ls : List (List Span)) : List Arg := ls.map fun l => argOf (wordsSpans l)

/-- Arguments that are calls on running text. -/
def callsOf (fn : Str) (rs : List (List (List Span))) : List Arg := rs.map fun r => argOf [.mk (.call fn (argsOf r)) none]

/-- A definition as a row. -/
def pairRow (d : List Span × List Span) : List (List Span) := [d.1, d.2]

mutual
def Blk.sur : Blk → Para
  | .para ls => .mk (ls.map fun l => .mk [] none (wordsSpans l)) true [.nl]
  | .code b => callPara q%"code" [b.arg]
  | .list o items => callPara (if o then q%"ordered-list" else q%"list") (argsOf items)
  | .table rows => callPara q%"table" (callsOf q%"table-row" rows)
  | .defs ds => callPara q%"definitions" (callsOf q%"definition" (ds.map pairRow))
  | .box a bs => callPara (if a then q%"aside" else q%"inset") [.paras [.nl] (surBlks bs) []]
  | .toc => callPara q%"table-of-contents" []
def surBlks : List Blk → List Para
  | [] => []
  | b :: bs => b.sur :: surBlks bs
end

/-- The call of `\title`. -/
def titlePara (title : List Span) (tags : List Str) : Para :=
  callPara q%"title" (argOf (wordsSpans title) :: tags.map fun g => argOf (wordsOf [] g))

/-- The calls of `\split-sections` and `\omit-children-from-table-of-contents`. -/
def settings (split hide : Bool) : List Para :=
  (if split then [callPara q%"split-sections" []] else []) ++ (if hide then [callPara q%"omit-children-from-table-of-contents" []] else [])

mutual
def Part.sur : Part → List Para
  | .mk title tags split hide body subs => titlePara title tags :: (settings split hide ++ (surBlks body ++ surParts subs))
def surParts : List Part → List Para
  | [] => []
  | p :: ps => callPara q%"section" [.paras [.nl] p.sur []] :: surParts ps
end

/-! ### How it is written -/

theorem printPieces_words (nl : Str) (ws : List Word) : printPieces nl (ws.map .word) = printWords nl ws := by
  induction ws with
  | nil => rfl
  | cons w ws ih => simp [printPieces, Piece.print, printWords, ih]

theorem argOf_print (nl : Str) (ws : List Word) : (argOf ws).print nl = '{' :: printWords nl ws ++ ['}'] := by
  cases ws with
  | nil => simp [argOf, Arg.print, printSp, printWords]
  | cons w ws => simp [argOf, Arg.print, printPieces_words, printWords]

mutual
theorem words_print (nl : Str) : ∀ s : Span, printWords nl s.words = s.src
  | .text s => by simp [Span.words, Span.src, wordsOf_print]
  | .code s => by simp [Span.words, Span.src, printWords, Word.print, Vl.print, printTrail, printArgs, Arg.print]
  | .styled f ss => by
    simp [Span.words, Span.src, printWords, Word.print, Vl.print, printTrail, printArgs, argOf_print, wordsSpans_print nl ss]
  | .link ss url => by
    simp [Span.words, Span.src, printWords, Word.print, Vl.print, printTrail, printArgs, argOf_print, wordsSpans_print nl ss,
      wordsOf_print]
  | .ref name => by
    simp [Span.words, Span.src, printWords, Word.print, Vl.print, printTrail, printArgs, argOf_print, wordsOf_print]
  | .see name ss => by
    simp [Span.words, Span.src, printWords, Word.print, Vl.print, printTrail, printArgs, argOf_print, wordsSpans_print nl ss,
      wordsOf_print]
  | .image path alt => by
    simp [Span.words, Span.src, printWords, Word.print, Vl.print, printTrail, printArgs, argOf_print, wordsOf_print]
  | .target name none => by
    simp [Span.words, Span.src, printWords, Word.print, Vl.print, printTrail, printArgs, argOf_print, wordsOf_print]
  | .target name (some title) => by
    simp [Span.words, Span.src, printWords, Word.print, Vl.print, printTrail, printArgs, argOf_print, wordsOf_print]
  | .aux ss => by
    simp [Span.words, Span.src, printWords, Word.print, Vl.print, printTrail, printArgs, argOf_print, wordsSpans_print nl ss]
theorem wordsSpans_print (nl : Str) : ∀ ss : List Span, printWords nl (wordsSpans ss) = srcSpans ss
  | [] => rfl
  | s :: ss => by rw [wordsSpans, printWords_app, words_print nl s, wordsSpans_print nl ss, srcSpans]
end

theorem printLines_map (nl : Str) (ls : List (List Span)) :
    printLines nl true (ls.map fun l => .mk [] none (wordsSpans l)) = (ls.map fun l => srcSpans l ++ nl).flatten := by
  induction ls with
  | nil => rfl
  | cons l ls ih =>
    rw [List.map_cons, printLines, ih]
    simp [Line.print, printLead, wordsSpans_print]

theorem callPara_print (nl fn : Str) (as : List Arg) : (callPara fn as).print nl = '\\' :: fn ++ printArgs nl as ++ nl ++ nl := by
  simp [callPara, Para.print, printLines, Line.print, printLead, printWords, Word.print, Vl.print, printTrail, printSp, Sp.print]

theorem printArgs_items (nl : Str) (items : List (List Span)) :
    printArgs nl (argsOf items) = (items.map fun l => q%"{" ++ srcSpans l ++ q%"}").flatten := by
  induction items with
  | nil => rfl
  | cons l ls ih =>
    rw [argsOf] at ih ⊢
    simp [printArgs, argOf_print, wordsSpans_print, ih]

theorem printArgs_calls (nl fn : Str) (rs : List (List (List Span))) : printArgs nl (callsOf fn rs) =
    (rs.map fun r => '{' :: '\\' :: fn ++ (r.map fun l => q%"{" ++ srcSpans l ++ q%"}").flatten ++ q%"}").flatten := by
  induction rs with
  | nil => rfl
  | cons r rs ih =>
    rw [callsOf] at ih ⊢
    simp [printArgs, argOf_print, printWords, Word.print, Vl.print, printTrail, printArgs_items, ih]

theorem settings_print (nl : Str) (split hide : Bool) : printParas nl (settings split hide) =
    (if split then q%"\\split-sections" ++ nl ++ nl else []) ++
      (if hide then q%"\\omit-children-from-table-of-contents" ++ nl ++ nl else []) := by
  cases split <;> cases hide <;> simp [settings, printParas, callPara_print, printArgs]

mutual
theorem sur_print (nl : Str) : ∀ b : Blk, b.sur.print nl = b.src nl
  | .para ls => by simp [Blk.sur, Blk.src, Para.print, printLines_map, printSp, Sp.print]
  | .code b => by simp [Blk.sur, Blk.src, callPara_print, printArgs, Block.arg_print]
  | .list o items => by
    cases o <;> simp [Blk.sur, Blk.src, callPara_print, printArgs_items]
  | .table rows => by simp [Blk.sur, Blk.src, callPara_print, printArgs_calls]
  | .defs ds => by simp [Blk.sur, Blk.src, callPara_print, printArgs_calls, pairRow, Function.comp_def]
  | .box a bs => by
    have := surBlks_print nl bs
    cases a <;> simp [Blk.sur, Blk.src, callPara_print, printArgs, Arg.print, printSp, Sp.print, this]
  | .toc => by simp [Blk.sur, Blk.src, callPara_print, printArgs]
theorem surBlks_print (nl : Str) : ∀ bs : List Blk, printParas nl (surBlks bs) = srcBlks nl bs
  | [] => rfl
  | b :: bs => by rw [surBlks, printParas, sur_print nl b, surBlks_print nl bs, srcBlks]
end

theorem printParas_app (nl : Str) (a b : List Para) : printParas nl (a ++ b) = printParas nl a ++ printParas nl b := by
  induction a with
  | nil => rfl
  | cons x a ih => simp [printParas, ih]

theorem titlePara_print (nl : Str) (title : List Span) (tags : List Str) : (titlePara title tags).print nl =
    q%"\\title{" ++ srcSpans title ++ q%"}" ++ (tags.map fun g => q%"{" ++ escape g ++ q%"}").flatten ++ nl ++ nl := by
  have h : printArgs nl (tags.map fun g => argOf (wordsOf [] g)) = (tags.map fun g => q%"{" ++ escape g ++ q%"}").flatten := by
    induction tags with
    | nil => rfl
    | cons g gs ih => simp [printArgs, argOf_print, wordsOf_print, ih]
  simp [titlePara, callPara_print, printArgs, argOf_print, wordsSpans_print, h]

mutual
theorem part_print (nl : Str) : ∀ p : Part, printParas nl p.sur = p.src nl
  | .mk title tags split hide body subs => by
    have := surParts_print nl subs
    simp [Part.sur, Part.src, printParas, printParas_app, titlePara_print, surBlks_print, this, settings_print]
theorem surParts_print (nl : Str) : ∀ ps : List Part, printParas nl (surParts ps) = srcParts nl ps
  | [] => rfl
  | p :: ps => by
    have h1 := part_print nl p
    have h2 := surParts_print nl ps
    simp [surParts, srcParts, printParas, callPara_print, printArgs, Arg.print, printSp, Sp.print, h1, h2]
end

theorem doc_print (nl : Str) (p : Part) : (Doc.mk [] p.sur).print nl = p.src nl := by
  simp [Doc.print, printSp, part_print]

/-! ### It is unambiguous -/

/-- Words are unambiguous when followed by `u`. -/
def okThen (nl u : Str) : List Word → Prop
  | [] => True
  | w :: ws => w.ok nl (printWords nl ws ++ u) ∧ okThen nl u ws

theorem okThen_nil (nl : Str) (ws : List Word) : okThen nl [] ws ↔ okWords nl ws := by
  induction ws with
  | nil => rfl
  | cons w ws ih => rw [okThen, okWords, ih, List.append_nil]

theorem okThen_app (nl u : Str) (a b : List Word) : okThen nl u (a ++ b) ↔ okThen nl (printWords nl b ++ u) a ∧ okThen nl u b := by
  induction a with
  | nil => simp [okThen]
  | cons w a ih => simp [okThen, ih, printWords_app, and_assoc]

/-- What may stand after a call. -/
def Fine (u : Str) : Prop := noCmt u ∧ u.head? ≠ some '{'

theorem noCmt_nil : noCmt [] := by intro bl t _ e; simp at e

theorem fine_nil : Fine [] := ⟨noCmt_nil, by simp⟩

theorem noCmt_slash (t : Str) : noCmt ('\\' :: t) := by
  intro bl r hb e
  cases bl with
  | nil => simp at e
  | cons b bl =>
    simp only [List.cons_append, List.cons.injEq] at e
    have := hb b (by simp)
    rw [← e.1] at this; simp [isBlank] at this

theorem noCmt_textApp {run : Str} (hr : ∀ c ∈ run, isText c = true) {u : Str} (hu : noCmt u) : noCmt (run ++ u) := by
  induction run with
  | nil => exact hu
  | cons c run ih =>
    intro bl t hb e
    cases bl with
    | nil =>
      simp only [List.nil_append, List.cons_append, List.cons.injEq] at e
      have := hr c (by simp)
      rw [e.1] at this; simp [isText] at this
    | cons b bl =>
      simp only [List.cons_append, List.cons.injEq] at e
      exact ih (fun c hc => hr c (by simp [hc])) bl t (fun c hc => hb c (by simp [hc])) e.2

theorem noCmt_escApp {u : Str} (hu : noCmt u) : ∀ l : Str, (∀ c ∈ l, c ≠ '\r' ∧ c ≠ '\n') → noCmt (escape l ++ u)
  | [], _ => hu
  | c :: l, h => by
    rw [escape]
    split
    · exact noCmt_slash _
    · rename_i hc
      exact noCmt_textApp (run := [c]) (by
        intro d hd
        rw [List.mem_singleton.1 hd]
        exact special_text (by simpa using hc) (h c (by simp))) (noCmt_escApp hu l fun d hd => h d (by simp [hd]))

theorem wordsOf_then (nl : Str) {u : Str} (hu : noCmt u) (hs : ∀ c ∈ u.head?, isText c = false) : ∀ (l run : Str),
    (∀ c ∈ run, isText c = true) → (∀ c ∈ l, c ≠ '\r' ∧ c ≠ '\n') → okThen nl u (wordsOf run l)
  | [], run, hr, _ => by
    unfold wordsOf; split
    · trivial
    · rename_i h
      simp [List.isEmpty_iff] at h
      simp only [okThen, Word.ok, Vl.ok, Vl.print, printTrail, printWords, List.append_nil, List.nil_append, Vl.ends]
      exact ⟨⟨⟨h, hr⟩, noCmt_textApp hr hu, hs, hu⟩, trivial⟩
  | c :: t, run, hr, hl => by
    unfold wordsOf; split
    · rename_i hc
      have hl' : ∀ c ∈ t, c ≠ '\r' ∧ c ≠ '\n' := fun c hc => hl c (by simp [hc])
      have ht := wordsOf_then nl hu hs t [] (by simp) hl'
      have hesc : okThen nl u (.mk (.esc c) none :: wordsOf [] t) := by
        simp only [okThen, Word.ok, Vl.ok, Vl.print, printTrail, List.append_nil, Vl.ends, wordsOf_print, List.nil_append]
        exact ⟨⟨by simpa [special, or_assoc] using hc, noCmt_slash _, trivial, noCmt_escApp hu t hl'⟩, ht⟩
      split
      · exact hesc
      · rename_i h
        simp [List.isEmpty_iff] at h
        refine ⟨?_, hesc⟩
        show Word.ok nl (printWords nl (.mk (.esc c) none :: wordsOf [] t) ++ u) _
        have hp : printWords nl (.mk (.esc c) none :: wordsOf [] t) ++ u = '\\' :: c :: (escape t ++ u) := by
          simp [printWords, Word.print, Vl.print, printTrail, wordsOf_print]
        simp only [hp, Word.ok, Vl.ok, Vl.print, printTrail, List.append_nil, Vl.ends]
        exact ⟨⟨h, hr⟩, noCmt_textApp hr (noCmt_slash _), by simp [isText], noCmt_slash _⟩
    · rename_i hc
      refine wordsOf_then nl hu hs t _ ?_ (fun c hc => hl c (by simp [hc]))
      intro d hd
      simp only [List.mem_append, List.mem_singleton] at hd
      rcases hd with hd | rfl
      · exact hr d hd
      · exact special_text (by simpa using hc) (hl d (by simp))

/-- A call with arguments. -/
theorem call_then {nl u fn : Str} {as : List Arg} (hfn : nameOk fn) (ha : as ≠ []) (has : okArgs nl as) (hu : Fine u) :
    okThen nl u [.mk (.call fn as) none] := by
  refine ⟨?_, trivial⟩
  simp only [Word.ok, Vl.ok, Vl.ends, printWords, List.nil_append]
  refine ⟨⟨hfn.1, fun c hc => by simpa [Vl.ends.isFnChar'] using hfn.2 c hc, has⟩, ?_, ⟨fun h => absurd h ha, hu.2⟩, hu.1⟩
  simpa [Vl.print] using noCmt_slash _

theorem okPieces_words {nl : Str} : ∀ {ws : List Word}, okWords nl ws → okPieces nl (ws.map .word)
  | [], _ => trivial
  | w :: ws, h => by
    simp only [List.map_cons, okPieces, printPieces_words]
    exact ⟨h.1, okPieces_words h.2⟩

/-- The first word does not look like a block. -/
def startOk (nl : Str) : List Word → Prop
  | [] => True
  | w :: _ => ¬ ∃ t, w.print nl = '{' :: '{' :: t

theorem argOf_ok {nl : Str} {ws : List Word} (h : okWords nl ws) (hs : startOk nl ws) : (argOf ws).ok nl := by
  cases ws with
  | nil => exact ⟨by simp, Or.inl rfl⟩
  | cons w ws =>
    refine ⟨?_, okPieces_words h.2, hs⟩
    rw [printPieces_words]
    exact h.1

theorem wordsOf_start (nl : Str) (l : Str) : ∀ run : Str, (∀ c ∈ run, isText c = true) → startOk nl (wordsOf run l) := by
  have hrun : ∀ run : Str, (∀ c ∈ run, isText c = true) → ¬ ∃ t, (Word.mk (.text run) none).print nl = '{' :: '{' :: t := by
    rintro run hr ⟨t, e⟩
    simp only [Word.print, Vl.print, printTrail, List.append_nil] at e
    have := hr '{' (by rw [e]; simp)
    simp [isText] at this
  induction l with
  | nil =>
    intro run hr
    unfold wordsOf
    split
    · trivial
    · exact hrun run hr
  | cons c l ih =>
    intro run hr
    unfold wordsOf
    split
    · split
      · rintro ⟨t, e⟩; simp [Word.print, Vl.print] at e
      · exact hrun run hr
    · rename_i hc
      by_cases h2 : c = '\r' ∨ c = '\n'
      · -- such a run is not text, but it does not begin with a brace either
        clear ih
        have key : ∀ (l run : Str), (∃ d r, run = d :: r ∧ d ≠ '{') → startOk nl (wordsOf run l) := by
          intro l
          induction l with
          | nil =>
            rintro run ⟨d, r, rfl, hd⟩
            unfold wordsOf
            rintro ⟨t, e⟩
            simp [Word.print, Vl.print, printTrail] at e
            exact hd e.1
          | cons c l ih =>
            rintro run ⟨d, r, rfl, hd⟩
            unfold wordsOf
            split
            · rintro ⟨t, e⟩
              simp [Word.print, Vl.print, printTrail] at e
              exact hd e.1
            · exact ih _ ⟨d, r ++ [c], rfl, hd⟩
        cases run with
        | nil => exact key l [c] ⟨c, [], rfl, by rcases h2 with rfl | rfl <;> decide⟩
        | cons d r => exact key l _ ⟨d, r ++ [c], rfl, fun e => by have := hr d (by simp); rw [e] at this; simp [isText] at this⟩
      · refine ih _ fun d hd => ?_
        simp only [List.mem_append, List.mem_singleton] at hd
        rcases hd with hd | rfl
        · exact hr d hd
        · exact special_text (by simpa using hc) ⟨fun e => h2 (.inl e), fun e => h2 (.inr e)⟩

theorem textArg_ok (nl : Str) {l : Str} (h : oneLine l) : (argOf (wordsOf [] l)).ok nl :=
  argOf_ok (wordsOf_ok nl l [] (by simp) h.2) (wordsOf_start nl l [] (by simp))

theorem Face.fn_ok (f : Face) : nameOk f.fn := by
  cases f <;> exact ⟨by decide, by decide⟩

/-- What is written for a span that is not text begins with a backslash. -/
theorem src_slash {s : Span} (h : s.isText = false) : ∃ t, s.src = '\\' :: t := by
  cases s with
  | text _ => cases h
  | code s => exact ⟨_, rfl⟩
  | styled f ss => rw [Span.src]; exact ⟨_, rfl⟩
  | link ss u => rw [Span.src]; exact ⟨_, rfl⟩
  | ref n => rw [Span.src]; exact ⟨_, rfl⟩
  | see n ss => rw [Span.src]; exact ⟨_, rfl⟩
  | image p a => rw [Span.src]; exact ⟨_, rfl⟩
  | target n t => cases t <;> exact ⟨_, rfl⟩
  | aux ss => rw [Span.src]; exact ⟨_, rfl⟩

theorem spans_noCmt : ∀ {ss : List Span}, okSpans ss → noCmt (srcSpans ss)
  | [], _ => noCmt_nil
  | s :: ss, h => by
    rw [srcSpans]
    cases hs : s.isText with
    | false =>
      obtain ⟨t, e⟩ := src_slash hs
      rw [e]
      exact noCmt_slash _
    | true =>
      cases s with
      | text x => exact noCmt_escApp (spans_noCmt h.2) x h.1.2
      | _ => cases hs

theorem escape_start {s : Str} (h : s ≠ []) : ∃ c t, escape s = c :: t ∧ c ≠ '{' := by
  cases s with
  | nil => exact absurd rfl h
  | cons c s =>
    rw [escape]
    split
    · exact ⟨_, _, rfl, by decide⟩
    · rename_i hc
      exact ⟨_, _, rfl, fun e => hc (by rw [e]; decide)⟩

theorem spans_fine {ss : List Span} (h : okSpans ss) : Fine (srcSpans ss) := by
  refine ⟨spans_noCmt h, ?_⟩
  cases ss with
  | nil => simp [srcSpans]
  | cons s ss =>
    rw [srcSpans]
    cases hs : s.isText with
    | false =>
      obtain ⟨t, e⟩ := src_slash hs
      rw [e]
      simp
    | true =>
      cases s with
      | text x =>
        obtain ⟨c, t, e, hc⟩ := escape_start h.1.1
        rw [Span.src, e]
        simpa using hc
      | _ => cases hs

theorem words_start (nl : Str) : ∀ {ss : List Span}, okSpans ss → startOk nl (wordsSpans ss)
  | [], _ => trivial
  | s :: ss, h => by
    rw [wordsSpans]
    cases s with
    | text x =>
      have h1 := wordsOf_start nl x [] (by simp)
      have h2 := wordsOf_ne x [] h.1.1
      rw [Span.words]
      cases hw : wordsOf [] x with
      | nil => exact absurd hw h2
      | cons w ws => rw [hw] at h1; exact h1
    | target n t =>
      cases t <;>
      · rw [Span.words]
        rintro ⟨t, e⟩
        simp [Word.print, Vl.print] at e
    | _ =>
      rw [Span.words]
      rintro ⟨t, e⟩
      simp [Word.print, Vl.print] at e

mutual
theorem words_then (nl : Str) : ∀ {s : Span} {u : Str}, s.ok → Fine u → (s.isText = true → ∀ c ∈ u.head?, isText c = false) →
    okThen nl u s.words
  | .text x, u, h, hu, hs => wordsOf_then nl hu.1 (hs rfl) x [] (by simp) h.2
  | .code x, u, h, hu, _ => call_then ⟨by decide, by decide⟩ (by simp) ⟨⟨h.1.2, h.2.1, h.2.2⟩, trivial⟩ hu
  | .styled f ss, u, h, hu, _ =>
    call_then f.fn_ok (by simp) ⟨argOf_ok (spans_words nl h.2.1 h.2.2) (words_start nl h.2.2), trivial⟩ hu
  | .link ss url, u, h, hu, _ =>
    call_then ⟨by decide, by decide⟩ (by simp) ⟨argOf_ok (spans_words nl h.2.1 h.2.2.1) (words_start nl h.2.2.1),
      textArg_ok nl h.2.2.2, trivial⟩ hu
  | .ref name, u, h, hu, _ => call_then ⟨by decide, by decide⟩ (by simp) ⟨textArg_ok nl h, trivial⟩ hu
  | .see name ss, u, h, hu, _ =>
    call_then ⟨by decide, by decide⟩ (by simp) ⟨textArg_ok nl h.1,
      argOf_ok (spans_words nl h.2.2.1 h.2.2.2.1) (words_start nl h.2.2.2.1), trivial⟩ hu
  | .image path alt, u, h, hu, _ => call_then ⟨by decide, by decide⟩ (by simp) ⟨textArg_ok nl h.1, textArg_ok nl h.2, trivial⟩ hu
  | .target name none, u, h, hu, _ => call_then ⟨by decide, by decide⟩ (by simp) ⟨textArg_ok nl h.1, trivial⟩ hu
  | .target name (some title), u, h, hu, _ =>
    call_then ⟨by decide, by decide⟩ (by simp) ⟨textArg_ok nl h.1, textArg_ok nl (h.2 title rfl), trivial⟩ hu
  | .aux ss, u, h, hu, _ =>
    call_then ⟨by decide, by decide⟩ (by simp) ⟨argOf_ok (spans_words nl h.2.1 h.2.2) (words_start nl h.2.2), trivial⟩ hu
theorem spans_words (nl : Str) : ∀ {ss : List Span}, apart ss → okSpans ss → okWords nl (wordsSpans ss)
  | [], _, _ => trivial
  | s :: ss, ha, h => by
    rw [wordsSpans, ← okThen_nil, okThen_app, okThen_nil, List.append_nil, wordsSpans_print]
    have ha' : apart ss := by
      cases ss with
      | nil => trivial
      | cons b r => exact ha.2
    refine ⟨words_then nl h.1 (spans_fine h.2) fun hs => ?_, spans_words nl ha' h.2⟩
    cases ss with
    | nil => simp [srcSpans]
    | cons b r =>
      have hb : b.isText = false := by
        cases hb : b.isText with
        | false => rfl
        | true => exact absurd ⟨hs, hb⟩ ha.1
      obtain ⟨t, e⟩ := src_slash hb
      rw [srcSpans, e]
      simp [isText]
end

theorem words_ne : ∀ {ss : List Span}, ss ≠ [] → okSpans ss → wordsSpans ss ≠ []
  | [], h, _ => absurd rfl h
  | s :: ss, _, h => by
    rw [wordsSpans]
    cases s with
    | text x => rw [Span.words]; simp [wordsOf_ne x [] h.1.1]
    | target n t => cases t <;> (rw [Span.words]; simp)
    | _ => rw [Span.words]; simp

theorem line_head {l : List Span} (h : lineOk l) : ∀ c ∈ (srcSpans l).head?, isBlank c = false := by
  obtain ⟨⟨h1, h2, h3⟩, h4⟩ := h
  cases l with
  | nil => exact absurd rfl h1
  | cons s ss =>
    rw [srcSpans]
    cases hs : s.isText with
    | false =>
      obtain ⟨t, e⟩ := src_slash hs
      rw [e]
      intro c hc
      simp at hc
      subst hc
      rfl
    | true =>
      cases s with
      | text x =>
        have := escape_head (h4 x ss rfl)
        obtain ⟨c, t, e, _⟩ := escape_start h3.1.1
        rw [Span.src, e]
        rw [e] at this
        simpa using this
      | _ => cases hs

theorem lines_ok {nl : Str} : ∀ {ls : List (List Span)}, (∀ l ∈ ls, lineOk l) →
    okLines nl (ls.map fun l => .mk [] none (wordsSpans l))
  | [], _ => trivial
  | l :: ls, h => by
    have hl := h l (by simp)
    refine ⟨by intro c hc; simp at hc, by simp, words_ne hl.1.1 hl.1.2.2, fun _ => ?_, spans_words nl hl.1.2.1 hl.1.2.2,
      lines_ok fun l hl => h l (by simp [hl])⟩
    rw [wordsSpans_print]
    exact line_head hl

theorem items_ok {nl : Str} : ∀ {ls : List (List Span)}, (∀ l ∈ ls, runOk l) → okArgs nl (argsOf ls)
  | [], _ => trivial
  | l :: ls, h => by
    obtain ⟨h1, h2, h3⟩ := h l (by simp)
    exact ⟨argOf_ok (spans_words nl h2 h3) (words_start nl h3), items_ok fun l hl => h l (by simp [hl])⟩

theorem calls_ok {nl fn : Str} (hfn : nameOk fn) : ∀ {rs : List (List (List Span))}, (∀ r ∈ rs, r ≠ [] ∧ ∀ l ∈ r, runOk l) →
    okArgs nl (callsOf fn rs)
  | [], _ => trivial
  | r :: rs, h => by
    obtain ⟨h1, h2⟩ := h r (by simp)
    refine ⟨argOf_ok ?_ ?_, calls_ok hfn fun r hr => h r (by simp [hr])⟩
    · rw [← okThen_nil]
      exact call_then hfn (by simpa [argsOf] using h1) (items_ok h2) fine_nil
    · rintro ⟨t, e⟩
      simp [Word.print, Vl.print] at e

/-- What a paragraph must satisfy, whatever follows. -/
def paraOk (nl : Str) : Para → Prop
  | .mk ls e sp => ls ≠ [] ∧ (∀ b c ws, ls.head? ≠ some (.mk b (some c) ws)) ∧ okLines nl ls ∧ e = true ∧ sp = [.nl]

theorem okParas_of {nl : Str} : ∀ {ps : List Para}, (∀ p ∈ ps, paraOk nl p) → okParas nl [] ps
  | [], _ => trivial
  | .mk ls e sp :: ps, h => by
    obtain ⟨h1, h2, h3, rfl, rfl⟩ := h _ (List.mem_cons_self ..)
    exact ⟨h1, h2, h3, ⟨by simp [Sp.ok], Or.inr ⟨[], rfl⟩⟩, by simp, by simp, okParas_of fun p hp => h p (by simp [hp])⟩

theorem callPara_ok {nl fn : Str} {as : List Arg} (hfn : nameOk fn) (has : okArgs nl as) : paraOk nl (callPara fn as) := by
  refine ⟨by simp, by simp, ?_, rfl, rfl⟩
  refine ⟨by intro c hc; simp at hc, by simp, by simp, ?_, ?_, trivial⟩
  · intro _ c hc; simp [printWords, Word.print, Vl.print] at hc; subst hc; rfl
  · refine ⟨?_, trivial⟩
    simp only [Word.ok, Vl.ok, Vl.ends, printWords]
    refine ⟨⟨hfn.1, fun c hc => by simpa [Vl.ends.isFnChar'] using hfn.2 c hc, has⟩, ?_, by simp, noCmt_nil⟩
    simpa [Vl.print] using noCmt_slash _

theorem paras_ok {nl : Str} {ps : List Para} (hn : ps ≠ []) (h : ∀ p ∈ ps, paraOk nl p) : (Arg.paras [.nl] ps []).ok nl :=
  ⟨by simp, ⟨by simp [Sp.ok], Or.inr ⟨[], rfl⟩⟩, hn, okParas_of h, by intro c hc; simp at hc⟩

theorem surBlks_ne {bs : List Blk} (h : bs ≠ []) : surBlks bs ≠ [] := by
  cases bs with
  | nil => exact absurd rfl h
  | cons b bs => simp [surBlks]

theorem pairs_ok {ds : List (List Span × List Span)} (h : ∀ d ∈ ds, runOk d.1 ∧ runOk d.2) :
    ∀ r ∈ ds.map pairRow, r ≠ [] ∧ ∀ l ∈ r, runOk l := by
  intro r hr
  obtain ⟨d, hd, rfl⟩ := List.mem_map.1 hr
  refine ⟨by simp [pairRow], fun l hl => ?_⟩
  simp only [pairRow, List.mem_cons, List.not_mem_nil, or_false] at hl
  rcases hl with rfl | rfl
  · exact (h d hd).1
  · exact (h d hd).2

theorem settings_ok {nl : Str} {split hide : Bool} : ∀ q ∈ settings split hide, paraOk nl q := by
  intro q hq
  cases split <;> cases hide <;> simp [settings] at hq
  · subst hq; exact callPara_ok ⟨by decide, by decide⟩ trivial
  · subst hq; exact callPara_ok ⟨by decide, by decide⟩ trivial
  · rcases hq with rfl | rfl <;> exact callPara_ok ⟨by decide, by decide⟩ trivial

mutual
theorem blk_ok {nl : Str} : ∀ {b : Blk}, b.ok → paraOk nl b.sur
  | .para ls, h => by
    rw [Blk.sur]
    refine ⟨by simpa using h.1, ?_, lines_ok h.2, rfl, rfl⟩
    intro b c ws
    cases ls <;> simp
  | .code b, h => callPara_ok ⟨by decide, by decide⟩ ⟨Block.arg_ok h, trivial⟩
  | .list o items, h => by
    rw [Blk.sur]
    refine callPara_ok ?_ (items_ok h.2)
    cases o <;> exact ⟨by decide, by decide⟩
  | .table rows, h => callPara_ok ⟨by decide, by decide⟩ (calls_ok ⟨by decide, by decide⟩ h.2)
  | .defs ds, h => callPara_ok ⟨by decide, by decide⟩ (calls_ok ⟨by decide, by decide⟩ (pairs_ok h.2))
  | .box a bs, h => by
    rw [Blk.sur]
    refine callPara_ok ?_ ⟨paras_ok (surBlks_ne h.1) (blks_ok h.2), trivial⟩
    cases a <;> exact ⟨by decide, by decide⟩
  | .toc, _ => callPara_ok ⟨by decide, by decide⟩ trivial
theorem blks_ok {nl : Str} : ∀ {bs : List Blk}, okBlks bs → ∀ p ∈ surBlks bs, paraOk nl p
  | [], _ => by simp [surBlks]
  | b :: bs, h => by
    intro p hp
    simp only [surBlks, List.mem_cons] at hp
    rcases hp with rfl | hp
    · exact blk_ok h.1
    · exact blks_ok h.2 p hp
end

theorem titlePara_ok {nl : Str} {title : List Span} {tags : List Str} (ht : runOk title) (hg : ∀ g ∈ tags, oneLine g) :
    paraOk nl (titlePara title tags) := by
  refine callPara_ok ⟨by decide, by decide⟩ ⟨argOf_ok (spans_words nl ht.2.1 ht.2.2) (words_start nl ht.2.2), ?_⟩
  induction tags with
  | nil => trivial
  | cons g gs ih => exact ⟨textArg_ok nl (hg g List.mem_cons_self), ih fun g h => hg g (List.mem_cons_of_mem _ h)⟩

theorem sur_ne (p : Part) : p.sur ≠ [] := by
  cases p
  simp [Part.sur]

mutual
theorem part_ok {nl : Str} : ∀ {p : Part}, p.ok → ∀ q ∈ p.sur, paraOk nl q
  | .mk title tags split hide body subs, h => by
    have h2 := parts_ok (nl := nl) h.2.2.2
    intro q hq
    simp only [Part.sur, List.mem_cons, List.mem_append] at hq
    rcases hq with rfl | hq | hq | hq
    · exact titlePara_ok h.1.1 h.2.1
    · exact settings_ok q hq
    · exact blks_ok h.2.2.1 q hq
    · exact h2 q hq
theorem parts_ok {nl : Str} : ∀ {ps : List Part}, okParts ps → ∀ q ∈ surParts ps, paraOk nl q
  | [], _ => by simp [surParts]
  | p :: ps, h => by
    have h1 := part_ok (nl := nl) h.1
    have h2 := parts_ok (nl := nl) h.2
    intro q hq
    simp only [surParts, List.mem_cons] at hq
    rcases hq with rfl | hq
    · exact callPara_ok ⟨by decide, by decide⟩ ⟨paras_ok (sur_ne p) h1, trivial⟩
    · exact h2 q hq
end

/-- A manuscript is read as its surface document. -/
theorem read_part {nl : Str} (hnl : Booklit.Peg.IsNl nl) {p : Part} (h : p.ok) :
    ∃ ns, Booklit.Peg.parseDoc (p.src nl) = some (.ok (.node (.seq ns))) ∧ eraseL ns = treeParas p.sur := by
  obtain ⟨t, ht, he⟩ := Booklit.Peg.read_doc hnl ⟨[], p.sur⟩ ⟨by simp, sur_ne p, okParas_of (part_ok h)⟩
  rw [doc_print] at ht
  obtain ⟨ms, rfl, h1⟩ := erase_seq (t := t) (ns := treeParas p.sur) he
  exact ⟨ms, ht, h1⟩

end Booklit.Ms
