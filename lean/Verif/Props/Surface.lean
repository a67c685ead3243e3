import Verif.Lemmas.SurfaceProse
import Verif.Lemmas.SurfaceWrite
import Verif.Lemmas.NodeDec
import Verif.Spec.Strip

/-!
Round-trip properties of the syntax: C02, C03, C04, C05, C11, C12.
-/

namespace Booklit.Props

open Booklit Booklit.Peg Booklit.Src

/-- The two line endings. -/
def lineEnd (nl : Str) : Prop := nl = ['\n'] ∨ nl = ['\r', '\n']

/-- The parse of `s` is, up to source positions, `t`. -/
def ParsesTo (s : Str) (t : Node) : Prop := ∃ u, parseDoc s = some (.ok (.node u)) ∧ u.erase = t.erase

/-- **C11.** Every well-formed surface document, in which calls, every argument form, groups, comments and
blocks nest arbitrarily, is parsed into exactly the tree it stands for, with either line ending. -/
theorem C11_print_parse (nl : Str) (hnl : lineEnd nl) (d : Doc) (h : d.ok nl) :
    ∃ t, parseDoc (d.print nl) = some (.ok (.node t)) ∧ t.erase = d.tree :=
  read_doc hnl d h

/-- **C11.** Every canonical syntax tree (a description by the tree alone) is the parse of some source. -/
theorem C11_canonical_written (nl : Str) (hnl : lineEnd nl) (t : Node) (h : t.isDoc) : ∃ s, ParsesTo s t := by
  obtain ⟨ps, rfl, hne, hps⟩ := h
  obtain ⟨qs, h1, _, h3, h4⟩ := ex_paras ps hps
  obtain ⟨u, hu, he⟩ := read_doc hnl ⟨[], qs⟩ ⟨by simp, h3 hne, h4 nl⟩
  exact ⟨_, u, hu, by rw [he]; simp [Doc.tree, h1, Node.erase]⟩

/-- `\f{\g{{{}}}}{x}{{...}}` with comments and a second paragraph. -/
def sampleSurface : Doc :=
  ⟨[.nl], [
    .mk [.mk [' '] none [.mk (.call q%"f" [.inline (.mk (.call q%"g" [.verb []]) none) [.word (.mk (.text q%"x") none)],
        .pre [.mk [' '] [.mk (.text q%"a") (some ([], .char 'c' .nil))], .mk q%"   " []] []]) none]] true [.nl, .cmt [' '] .nil],
    .mk [.mk [] none [.mk (.text q%"end") none], .mk [] (some .nil) [.mk (.esc '{') none]] false []]⟩

example : sampleSurface.print ['\n'] =
    q%"\n \\f{\\g{{{}}}x}{{\n a{-c-}\n   \n}}\n\n {--}end\n{--}\\{" := by decide

theorem noCmt_head {c : Char} {t : Str} (h1 : isBlank c = false) (h2 : c ≠ '{') : noCmt (c :: t) :=
  noCmt_of_ne h1 fun e => absurd e h2

example : sampleSurface.ok ['\n'] := by
  have e : noCmt [] := by intro bl t hb e; simp at e
  have hc : ∀ t, noCmt ('\\' :: t) := fun t => noCmt_head rfl (by decide)
  have hx : ∀ t, noCmt ('x' :: t) := fun t => noCmt_head rfl (by decide)
  have ha : ∀ t, noCmt ('a' :: t) := fun t => noCmt_head rfl (by decide)
  have he : ∀ t, noCmt ('e' :: t) := fun t => noCmt_head rfl (by decide)
  have hh : ¬ hasClose [] := by rintro ⟨a, b, e⟩; simp at e
  simp [sampleSurface, Doc.ok, Sp.ok, cmtOk, spOk, okParas, okLines, okWords, Word.ok, Vl.ok, okArgs, Arg.ok, okPieces, okPLines,
    Vl.ends, Vl.ends.isFnChar', isText, isBlank, allBlank, CBody.ok, CBody.print, printWords, Word.print, Vl.print, printArgs,
    Arg.print, printPieces, Piece.print, printTrail, printCmt, flatWords, Word.flat, Vl.flat, Vl.trailOk, printPLines, PLine.print,
    e, hc, hx, ha, he, hh]

/-- A canonical tree with a call, paragraphs as an argument and a block. -/
example : Node.isDoc (.seq [.para [[.str q%"a", .str q%"b", .invoke q%"f" [.seq [.para [[.str q%"{"]]], .seq [.str q%" x"], .str [],
    .pre [[.str [], .str q%"l"], [.str q%" "]]] ⟨0, 0, 0⟩, .str q%"c"], [.seq []]]]) := by
  refine ⟨_, rfl, by simp, ?_⟩
  simp [allParas, Node.isPara, allLines, allWords, Node.isWord, textOk, fnOk, allArgs, Node.isArg, allPLines, isText, allBlank, isBlank,
    noPreL, Node.noPre]

/-- **C02.** Escaped prose: paragraphs of lines, written with the markup characters escaped, are parsed into
exactly these paragraphs, lines and characters. -/
theorem C02_prose_round_trip (nl : Str) (hnl : lineEnd nl) (text : List (List Str)) (h : proseOk text) :
    ∃ lss : List (List (List Node)),
      parseDoc (proseSrc nl text) = some (.ok (.node (.seq (lss.map .para)))) ∧
      lss.map (·.map plainL) = text ∧ ∀ ls ∈ lss, ∀ l ∈ ls, AllStr l := by
  obtain ⟨t, ht, he⟩ := read_doc hnl ⟨[], parasOf text⟩ ⟨by simp, by
    have := h.1
    match text, this with
    | [p], _ => simp [parasOf]
    | p :: q :: r, _ => simp [parasOf], parasOf_ok h.2⟩
  have hp : (Doc.mk [] (parasOf text)).print nl = proseSrc nl text := by
    simp [Doc.print, printSp, parasOf_print text fun p hp => (h.2 p hp).1]
  rw [hp] at ht
  have ht2 : t = .seq ((text.map fun p => p.map fun l => treeWords (wordsOf [] l)).map .para) := by
    simp only [Doc.tree, parasOf_tree] at he
    obtain ⟨ms, rfl, h1⟩ := erase_seq he
    clear ht he hp h
    congr 1
    induction ms generalizing text with
    | nil => simp only [eraseL] at h1; simpa using h1
    | cons m ms ih =>
      cases text with
      | nil => simp [eraseL] at h1
      | cons p text =>
        simp only [eraseL, List.map_cons, List.cons.injEq] at h1 ⊢
        obtain ⟨ls, rfl, h2⟩ := erase_para h1.1
        refine ⟨?_, ih text h1.2⟩
        rw [eraseLL_strs' h2]
        intro l hl
        simp only [List.mem_map] at hl
        obtain ⟨x, _, rfl⟩ := hl
        exact wordsOf_strs _ _
  subst ht2
  refine ⟨_, ht, ?_, ?_⟩
  · simp [List.map_map, Function.comp_def, wordsOf_plain]
  · intro ls hls l hl
    simp only [List.mem_map] at hls
    obtain ⟨p, _, rfl⟩ := hls
    simp only [List.mem_map] at hl
    obtain ⟨x, _, rfl⟩ := hl
    exact wordsOf_strs _ _

-- A text with markup characters and two paragraphs meets the hypotheses.
example : proseOk [[q%"a {b} \\", q%"{-c-} "], [q%"-"]] ∧
    proseSrc ['\n'] [[q%"a {b} \\", q%"{-c-} "], [q%"-"]] = q%"a \\{b\\} \\\\\n\\{-c-\\} \n\n-" := by
  refine ⟨⟨by simp, ?_⟩, by decide⟩
  simp [lineOk, isBlank]

/-- `{{{`, the text, `}}}`. -/
def verbSrc (t : Str) : Str := ['{', '{', '{'] ++ t ++ ['}', '}', '}']

/-- **C03.** A call whose arguments are written `{{{text}}}` gets exactly these texts: no escape is
processed, no blank is changed. -/
theorem C03_verbatim_exact (fn : Str) (hfn : nameOk fn) (ts : List Str)
    (h : ∀ t ∈ ts, (∀ c ∈ t, c ≠ '\r' ∧ c ≠ '\n') ∧ ¬ hasClose t ∧ t.getLast? ≠ some '}') :
    ∃ args loc, parseDoc ('\\' :: fn ++ (ts.map verbSrc).flatten) = some (.ok (.node (.seq [.para [[.invoke fn args loc]]]))) ∧
      args.map Node.plain = ts ∧ ∀ a ∈ args, ∃ ss, a = .seq ss ∧ AllStr ss := by
  have hp : printArgs ['\n'] (ts.map .verb) = (ts.map verbSrc).flatten := by
    clear h
    induction ts with
    | nil => rfl
    | cons t ts ih => simp [printArgs, Arg.print, verbSrc, ih]
  have hok : okArgs ['\n'] (ts.map .verb) := by
    clear hp
    induction ts with
    | nil => trivial
    | cons t ts ih => exact ⟨h t (by simp), ih fun t ht => h t (by simp [ht])⟩
  obtain ⟨bs, loc, h1, h2⟩ := callDoc_read (Or.inl rfl) hfn hok
  rw [hp] at h1
  refine ⟨bs, loc, h1, ?_⟩
  clear h1 hp hok h
  induction ts generalizing bs with
  | nil => cases bs <;> simp_all [treeArgs, eraseL]
  | cons t ts ih =>
    cases bs with
    | nil => simp [treeArgs, eraseL] at h2
    | cons b bs =>
      simp only [List.map_cons, treeArgs, eraseL, List.cons.injEq, Arg.tree] at h2
      obtain ⟨i1, i2⟩ := ih bs h2.2
      obtain ⟨ms, rfl, h3⟩ := erase_seq h2.1
      have := eraseL_strs' h3 (allStr_map _)
      subst this
      refine ⟨by simp [Node.plain, plainL_strs, pieces_flatten, i1], fun a ha => ?_⟩
      simp only [List.mem_cons] at ha
      rcases ha with rfl | ha
      · exact ⟨_, rfl, allStr_map _⟩
      · exact i2 a ha

example : nameOk q%"code" ∧ ∀ t ∈ [q%"\\x{", [], q%" }} y "], (∀ c ∈ t, c ≠ '\r' ∧ c ≠ '\n') ∧ ¬ hasClose t ∧ t.getLast? ≠ some '}' := by
  refine ⟨by simp [nameOk], ?_⟩
  simp only [List.mem_cons, List.not_mem_nil, or_false, forall_eq_or_imp, forall_eq]
  refine ⟨⟨by simp, ?_, by simp⟩, ⟨by simp, ?_, by simp⟩, by simp, ?_, by simp⟩
  all_goals
    rintro ⟨a, b, e⟩
    have hc := congrArg (List.count '}') e
    simp at hc
  omega

/-- What a call with block arguments is parsed into. -/
theorem blocks_read (nl : Str) (hnl : lineEnd nl) (fn : Str) (hfn : nameOk fn) (bs : List Block) (h : ∀ b ∈ bs, b.ok) :
    ∃ (lss : List (List (List Node))) (loc : Location), parseDoc ('\\' :: fn ++ (bs.map (Block.src nl)).flatten) =
        some (.ok (.node (.seq [.para [[.invoke fn (lss.map .pre) loc]]]))) ∧
      lss.map (·.map plainL) = bs.map Block.dedented ∧ ∀ ls ∈ lss, ∀ l ∈ ls, AllStr l := by
  have hp : printArgs nl (bs.map Block.arg) = (bs.map (Block.src nl)).flatten := by
    clear h
    induction bs with
    | nil => rfl
    | cons t ts ih => simp [printArgs, Block.arg_print, ih]
  have hok : okArgs nl (bs.map Block.arg) := by
    clear hp
    induction bs with
    | nil => trivial
    | cons t ts ih => exact ⟨Block.arg_ok (h t (by simp)), ih fun t ht => h t (by simp [ht])⟩
  obtain ⟨as, loc, h1, h2⟩ := callDoc_read hnl hfn hok
  rw [hp] at h1
  have : ∃ lss : List (List (List Node)), as = lss.map .pre ∧ lss.map (·.map plainL) = bs.map Block.dedented ∧
      ∀ ls ∈ lss, ∀ l ∈ ls, AllStr l := by
    clear h1 hp hok h
    induction bs generalizing as with
    | nil =>
      refine ⟨[], ?_, rfl, by simp⟩
      cases as <;> simp_all [treeArgs, eraseL]
    | cons b bs ih =>
      cases as with
      | nil => simp [treeArgs, eraseL] at h2
      | cons a as =>
        simp only [List.map_cons, treeArgs, eraseL, List.cons.injEq] at h2
        obtain ⟨lss, rfl, i1, i2⟩ := ih as h2.2
        obtain ⟨ls, h3, h4, h5⟩ := b.arg_tree
        rw [h3] at h2
        obtain ⟨ms, rfl, h6⟩ := erase_pre h2.1
        have := eraseLL_strs' h6 h4
        subst this
        refine ⟨ms :: lss, rfl, by simp [i1, h5], fun l hl => ?_⟩
        simp only [List.mem_cons] at hl
        rcases hl with rfl | hl
        · exact h4
        · exact i2 l hl
  obtain ⟨lss, rfl, h3, h4⟩ := this
  exact ⟨lss, loc, h1, h3, h4⟩

/-- **C04.** A verbatim block argument is one preformatted line per source line: each loses, of its own
indentation, the width of the first line's (all of it when shorter), and is otherwise unchanged. -/
theorem C04_verbatim_block (nl : Str) (hnl : lineEnd nl) (fn : Str) (hfn : nameOk fn) (ls : List BLine)
    (h : (Block.verbatim ls).ok) :
    ∃ (ms : List (List Node)) (loc : Location), parseDoc ('\\' :: fn ++ (Block.verbatim ls).src nl) =
        some (.ok (.node (.seq [.para [[.invoke fn [.pre ms] loc]]]))) ∧
      ms.map plainL = ls.map (fun l => l.1.drop (ls.head?.getD ([], [])).1.length ++ l.2) ∧ ∀ l ∈ ms, AllStr l := by
  obtain ⟨lss, loc, h1, h2, h3⟩ := blocks_read nl hnl fn hfn [.verbatim ls] (by simpa using h)
  obtain ⟨ms, rfl, h4⟩ := List.map_eq_singleton_iff.mp h2
  simp only [List.map_cons, List.map_nil, List.flatten_cons, List.flatten_nil, List.append_nil] at h1
  refine ⟨ms, loc, h1, ?_, h3 ms (by simp)⟩
  rw [h4]; rfl

/-- **C12 (part).** Blocks that follow one another, verbatim or not, are dedented independently, each by its
own first line. Missing: blocks nested in blocks, for which the property is false (`C12_false`). -/
theorem C12_blocks_independent_partial (nl : Str) (hnl : lineEnd nl) (fn : Str) (hfn : nameOk fn) (bs : List Block)
    (h : ∀ b ∈ bs, b.ok) :
    ∃ (lss : List (List (List Node))) (loc : Location), parseDoc ('\\' :: fn ++ (bs.map (Block.src nl)).flatten) =
        some (.ok (.node (.seq [.para [[.invoke fn (lss.map .pre) loc]]]))) ∧
      lss.map (·.map plainL) = bs.map Block.dedented ∧ ∀ ls ∈ lss, ∀ l ∈ ls, AllStr l :=
  blocks_read nl hnl fn hfn bs h

/-- A block nested in another one: the inner line is indented by 6, the last outer line by 4. -/
def nestedBlocks : Str := q%"\\f{{\n  a\n  \\g{{\n      x\n  }}\n    b\n}}\n"

/-- **C12 fails**: the inner block should drop its own indentation and leave `x`, and the outer one should
drop 2 of the 4 blanks before `b`. In fact `x` keeps 4 blanks and `b` loses all of them. -/
theorem C12_false : ∃ t, parseDoc nestedBlocks = some (.ok (.node t)) ∧
    t.erase = .seq [.para [[.invoke q%"f" [.pre [
      [.str [], .str q%"a"],
      [.str [], .invoke q%"g" [.pre [[.str q%"    ", .str q%"x"]]] Location.zero],
      [.str [], .str q%"b"]]] Location.zero]]] := by
  refine ⟨.seq [.para [[.invoke q%"f" [.pre [
      [.str [], .str q%"a"],
      [.str [], .invoke q%"g" [.pre [[.str q%"    ", .str q%"x"]]] ⟨3, 3, 11⟩],
      [.str [], .str q%"b"]]] ⟨1, 1, 0⟩]]], by decide +kernel, rfl⟩

-- Two blocks with different indentation meet the hypotheses of `C12_blocks_independent_partial`.
example : (∀ b ∈ [Block.verbatim [(q%"  ", q%"a}"), (q%"   ", q%"b")], .preformatted [(q%"\t", q%"{x")]], b.ok) ∧
    [Block.verbatim [(q%"  ", q%"a}"), (q%"   ", q%"b")], .preformatted [(q%"\t", q%"{x")]].map Block.dedented =
      [[q%"a}", q%" b"], [q%"{x"]] := by
  refine ⟨?_, by decide⟩
  simp only [List.mem_cons, List.not_mem_nil, or_false, forall_eq_or_imp, forall_eq, Block.ok]
  refine ⟨⟨⟨by simp [allBlank, isBlank], by simp [isBlank], by simp, ?_⟩, by simp [allBlank, isBlank], by simp [isBlank], by simp, ?_⟩,
    by simp [allBlank, isBlank], by simp [isBlank], by simp⟩
  all_goals rintro ⟨a, b, e⟩; have := congrArg List.length e; simp at this; omega

/-- A comment in source form. -/
def comment (b : CBody) : Str := ['{', '-'] ++ b.print ++ ['-', '}']

/-- **C05 (part).** Removing all comments from a document (when the rest is still unambiguous) does not
change its syntax tree. Missing: adjacent comments and blanks after a comment at the start of a line, see
`C05_false`. -/
theorem C05_comments_removed_partial (nl : Str) (hnl : lineEnd nl) (d : Doc) (h : d.ok nl) (h' : d.strip.ok nl) :
    ∃ t, ParsesTo (d.print nl) t ∧ ParsesTo (d.strip.print nl) t := by
  obtain ⟨t, h1, h2⟩ := read_doc hnl d h
  obtain ⟨u, h3, h4⟩ := read_doc hnl d.strip h'
  exact ⟨t, ⟨t, h1, rfl⟩, u, h3, by rw [h4, h2, d.strip_tree]⟩

/-- **C05 (part).** A comment between two pieces of text, nested to any depth, leaves one line with exactly
the characters of both. -/
theorem C05_comment_in_text_partial (a c : Str) (b : CBody) (hb : b.ok) (ha : a ≠ []) (hc : c ≠ [])
    (ha' : ∀ x ∈ a, isText x = true) (hc' : ∀ x ∈ c, isText x = true) (h1 : ∀ x ∈ a.head?, isBlank x = false) :
    parseDoc (a ++ comment b ++ c) = some (.ok (.node (.seq [.para [[.str a, .str c]]]))) ∧
    parseDoc (a ++ c) = some (.ok (.node (.seq [.para [[.str (a ++ c)]]]))) := by
  have noc : ∀ (u v : Str), u ≠ [] → (∀ x ∈ u, isText x = true) → (∀ x ∈ u.head?, isBlank x = false) → noCmt (u ++ v) := by
    intro u v hu ht hh
    cases u with
    | nil => exact absurd rfl hu
    | cons x u =>
      exact noCmt_of_ne (hh x (by simp)) fun e => by
        have := ht x (by simp); rw [e] at this; simp [isText] at this
  have nocc : noCmt c := by
    have := noCmt_escape c [] hc'
    simpa [escape] using this
  have noce : noCmt [] := by intro bl t hb e; simp at e
  have key : ∀ ws, okWords ['\n'] ws → ws ≠ [] → (∀ x ∈ (printWords ['\n'] ws).head?, isBlank x = false) →
      AllStr (treeWords ws) →
      parseDoc (printWords ['\n'] ws) = some (.ok (.node (.seq [.para [treeWords ws]]))) := by
    intro ws hw hne hh hs
    obtain ⟨t, ht, he⟩ := read_doc (nl := ['\n']) (Or.inl rfl) ⟨[], [.mk [.mk [] none ws] false []]⟩ (by
      refine ⟨by simp, by simp, by simp, by simp, ?_, ⟨by simp, Or.inl rfl⟩, by simp, by simp, trivial⟩
      exact ⟨by intro c hc; simp at hc, by simp, hne, fun _ => hh, hw, trivial⟩)
    have e1 : (Doc.mk [] [.mk [.mk [] none ws] false []]).print ['\n'] = printWords ['\n'] ws := by
      simp [Doc.print, printSp, printParas, Para.print, printLines, Line.print, printLead]
    have e2 : (Doc.mk [] [.mk [.mk [] none ws] false []]).tree = .seq [.para [treeWords ws]] := by
      simp [Doc.tree, treeParas, Para.tree, treeLines, Line.tree]
    rw [e1] at ht
    rw [e2] at he
    rw [ht]
    obtain ⟨ms, rfl, h1⟩ := erase_seq he
    rw [eraseL_map, List.map_eq_singleton_iff] at h1
    obtain ⟨m, rfl, h2⟩ := h1
    obtain ⟨ms, rfl, h3⟩ := erase_para h2
    rw [eraseLL_strs' h3 (by simpa using hs)]
  have hhead : ∀ v : Str, ∀ x ∈ (a ++ v).head?, isBlank x = false := by
    intro v x hx
    cases a with
    | nil => exact absurd rfl ha
    | cons y a => exact h1 x (by simpa using hx)
  constructor
  · have := key [.mk (.text a) (some ([], b)), .mk (.text c) none] ?_ (by simp) ?_ ?_
    · simpa [printWords, Word.print, Vl.print, printTrail, printCmt, comment, treeWords, Word.tree, Vl.tree] using this
    · simp only [okWords, Word.ok, Vl.ok, Vl.print, printWords, Word.print, printTrail, List.append_nil, Vl.ends, Vl.trailOk]
      refine ⟨⟨⟨ha, ha'⟩, ?_, ⟨by intro c hc; simp at hc, hb⟩, trivial⟩, ⟨⟨hc, hc'⟩, nocc, by simp, noce⟩, trivial⟩
      rw [List.append_assoc]; exact noc _ _ ha ha' h1
    · simp only [printWords, Word.print, Vl.print, List.append_assoc]; exact hhead _
    · intro n hn; simp [treeWords, Word.tree, Vl.tree] at hn; rcases hn with rfl | rfl <;> exact ⟨_, rfl⟩
  · have := key [.mk (.text (a ++ c)) none] ?_ (by simp) ?_ ?_
    · simpa [printWords, Word.print, Vl.print, printTrail, treeWords, Word.tree, Vl.tree] using this
    · simp only [okWords, Word.ok, Vl.ok, Vl.print, printWords, printTrail, List.append_nil, Vl.ends]
      refine ⟨⟨⟨by simp [ha], fun x hx => ?_⟩, noc _ _ ha ha' h1, by simp, noce⟩, trivial⟩
      rcases List.mem_append.mp hx with h | h
      · exact ha' x h
      · exact hc' x h
    · simp only [printWords, Word.print, Vl.print, List.append_assoc]; exact hhead _
    · intro n hn; simp [treeWords, Word.tree, Vl.tree] at hn; exact ⟨_, hn⟩

/-- **C05 fails** in general: of two comments in a row between two lines the second shows up as a line of text,
and a comment at the start of a line makes the blank after it part of the text. -/
theorem C05_false :
    parseDoc q%"foo\n{-a-}{-b-}\nbar" = some (.ok (.node (.seq [.para [[.str q%"foo"], [.str q%"-b-"], [.str q%"bar"]]]))) ∧
    parseDoc q%"foo\n {-a-} bar" = some (.ok (.node (.seq [.para [[.str q%"foo"], [.str q%" bar"]]]))) ∧
    parseDoc q%"foo\n bar" = some (.ok (.node (.seq [.para [[.str q%"foo"], [.str q%"bar"]]]))) := by
  decide +kernel

end Booklit.Props
