import Verif.Lemmas.AnnotateL
import Verif.Props.Parser

/-!
Properties of error snippets: C50.
-/

namespace Booklit.Props

open Booklit Booklit.Peg

theorem fn_ascii {fn : Str} (h : ∀ c ∈ fn, c = '-' ∨ ('a' ≤ c ∧ c ≤ 'z')) : Ascii ('\\' :: fn) ∧ '\n' ∉ '\\' :: fn ∧
    ('\\' :: fn).getLast? ≠ some '\r' := by
  have key : ∀ c ∈ '\\' :: fn, c.toNat < 128 ∧ c ≠ '\n' ∧ c ≠ '\r' := by
    intro c hc
    rcases List.mem_cons.1 hc with rfl | hc
    · decide
    · rcases h c hc with rfl | ⟨h1, h2⟩
      · decide
      · have h1' : 97 ≤ c.toNat := by have := UInt32.le_iff_toNat_le.1 h1; exact this
        have h2' : c.toNat ≤ 122 := by have := UInt32.le_iff_toNat_le.1 h2; exact this
        refine ⟨by omega, ?_, ?_⟩ <;> rintro rfl
        · exact absurd h1' (by decide)
        · exact absurd h1' (by decide)
  exact ⟨fun c hc => (key c hc).1, fun hc => (key _ hc).2.1 rfl, fun hc => (key _ (List.mem_of_getLast? hc)).2.2 rfl⟩

/-- The bytes of a text are those of its UTF-8 encoding, as Lean's library defines it. -/
theorem C50_utf8 (t : Str) : utf8 t = (t.flatMap String.utf8EncodeChar).map UInt8.toNat := by
  have key : ∀ c : Char, utf8Char c = (String.utf8EncodeChar c).map UInt8.toNat := by
    intro c
    have hc : c.val.toNat < 1114112 := by
      rcases c.valid with h | h <;> omega
    have hb : ∀ n, n < 256 → (UInt8.ofNat n).toNat = n := fun n h => by simp [Nat.mod_eq_of_lt h]
    simp only [utf8Char, String.utf8EncodeChar, Char.toNat]
    by_cases h1 : c.val.toNat < 128
    · rw [if_pos h1, if_pos (show c.val.toNat ≤ 127 by omega)]
      simp only [List.map_cons, List.map_nil]
      rw [hb _ (by omega)]
    · rw [if_neg h1, if_neg (show ¬ c.val.toNat ≤ 127 by omega)]
      by_cases h2 : c.val.toNat < 2048
      · rw [if_pos h2, if_pos (show c.val.toNat ≤ 2047 by omega)]
        simp only [List.map_cons, List.map_nil]
        rw [hb _ (by omega), hb _ (by omega)]
        simp only [List.cons.injEq, and_true]
        unfold Byte
        refine ⟨?_, ?_⟩ <;> omega
      · rw [if_neg h2, if_neg (show ¬ c.val.toNat ≤ 2047 by omega)]
        by_cases h3 : c.val.toNat < 65536
        · rw [if_pos h3, if_pos (show c.val.toNat ≤ 65535 by omega)]
          simp only [List.map_cons, List.map_nil]
          rw [hb _ (by omega), hb _ (by omega), hb _ (by omega)]
          simp only [List.cons.injEq, and_true]
          unfold Byte
          refine ⟨?_, ?_, ?_⟩ <;> omega
        · rw [if_neg h3, if_neg (show ¬ c.val.toNat ≤ 65535 by omega)]
          simp only [List.map_cons, List.map_nil]
          rw [hb _ (by omega), hb _ (by omega), hb _ (by omega), hb _ (by omega)]
          simp only [List.cons.injEq, and_true]
          unfold Byte
          refine ⟨?_, ?_, ?_, ?_⟩ <;> omega
  induction t with
  | nil => rfl
  | cons c t ih => simp only [utf8, List.flatMap_cons, List.map_append] at ih ⊢; rw [ih, key]

example : utf8 q%"ä€" = [195, 164, 226, 130, 172] := by decide

/-- **C50 (the line).** In a file all of whose lines are shorter than 4096 bytes, the line looked up for a line number is
that line of the file, however the lines are ended. -/
theorem C50_line {d t : Str} {l : Nat} (hl : LineAt d l t) (hs : ShortLines 4096 d) :
    lineInQuestion (utf8 d) l = some (utf8 t) := lineInQuestion_eq hl hs

/-- A snippet of something that stands in the file, after `a` on its line. -/
theorem snippet {d a mid b : Str} {loc : Location} (hs : ShortLines 4096 d) (hl : LineAt d loc.line (a ++ mid ++ b))
    (hc : loc.col = a.length + 1) (hn : mid ≠ []) {len : Nat} (hlen : len ≤ mid.length) :
    annotateLocation (some (utf8 d)) loc len =
        .shown (gutter loc.line ++ utf8 (a ++ mid ++ b)) ((gutter loc.line).length + a.length) len ∧
    (∃ p m q, annotatedHTML (some (utf8 d)) loc len = .shown false p m q ∧ p ++ m ++ q = utf8 (a ++ mid ++ b)) ∧
    (Ascii a → annotatedHTML (some (utf8 d)) loc len =
        .shown false (utf8 a) ((utf8 mid).take len) ((utf8 mid).drop len ++ utf8 b)) := by
  have h0 : loc.line ≠ 0 := by
    obtain ⟨pre, _, _, e, _⟩ := hl
    rw [e, lineOf]; omega
  have hq := lineInQuestion_eq hl hs
  have hne : (utf8 (a ++ mid ++ b) == []) = false := by
    rw [beq_eq_false_iff_ne]
    intro h
    have := (utf8_nil_iff _).1 h
    simp [hn] at this
  have hle : (utf8 (a ++ mid ++ b)).length ≥ a.length + len := by
    have := length_le_utf8 (a ++ mid ++ b)
    simp only [List.length_append] at this
    omega
  have hh : annotatedHTML (some (utf8 d)) loc len = .shown false ((utf8 (a ++ mid ++ b)).take a.length)
      (((utf8 (a ++ mid ++ b)).drop a.length).take len) ((utf8 (a ++ mid ++ b)).drop (a.length + len)) := by
    rw [annotatedHTML, if_neg h0]
    simp only [Option.bind_some, hq]
    rw [if_neg (by omega), show loc.col - 1 = a.length by omega, if_pos hle, hne]
  refine ⟨?_, ⟨_, _, _, hh, ?_⟩, ?_⟩
  · rw [annotateLocation, if_neg h0]
    simp only [Option.bind_some, hq]
    rw [show (gutter loc.line).length + loc.col - 1 = (gutter loc.line).length + a.length by omega]
  · rw [List.append_assoc, ← List.drop_drop, List.take_append_drop, List.take_append_drop]
  · intro ha
    have hm := length_le_utf8 mid
    have e : utf8 (a ++ mid ++ b) = utf8 a ++ (utf8 mid ++ utf8 b) := by simp [utf8_append]
    rw [hh, e, ← utf8_ascii_length ha, List.take_left, List.drop_left, ← List.drop_drop, List.drop_left,
      List.take_append_of_le_length (by omega), List.drop_append_of_le_length (by omega)]

/-- **C50 (calls).** For every call in a file that parses and has no line of 4096 bytes or more, the snippet of an error
at the call shows the line of the call. On the terminal the carets stand below the call: as many as its name and
backslash, after as many blanks as there are characters before it. On an error page the three parts make up the line, and
if what precedes the call on the line is ASCII the marked part is the call.

Missing: long lines, marked parts after other characters, and parse errors at the end of a line, see `C50_false_long`,
`C50_false_bytes`, `C50_false_newline` and `C50_false_end`. -/
theorem C50_call_partial (d : Str) (t : Node) (h : parseDoc d = some (.ok (.node t))) (hs : ShortLines 4096 d)
    (fn : Str) (args : List Node) (loc : Location) (hm : Node.invoke fn args loc ∈ t.subs) :
    ∃ a b : Str, LineAt d loc.line (a ++ ('\\' :: fn) ++ b) ∧ (∀ c ∈ b.head?, isFnChar c = false) ∧
      annotateLocation (some (utf8 d)) loc (fn.length + 1) =
        .shown (gutter loc.line ++ utf8 (a ++ ('\\' :: fn) ++ b)) ((gutter loc.line).length + a.length) (fn.length + 1) ∧
      (∃ p m q, annotatedHTML (some (utf8 d)) loc (fn.length + 1) = .shown false p m q ∧
        p ++ m ++ q = utf8 (a ++ ('\\' :: fn) ++ b)) ∧
      (Ascii a → annotatedHTML (some (utf8 d)) loc (fn.length + 1) = .shown false (utf8 a) (utf8 ('\\' :: fn)) (utf8 b)) := by
  obtain ⟨pre, post, rfl, hp, rfl⟩ := C07_call_locations d t h fn args loc hm
  obtain ⟨ha, hn, hr⟩ := fn_ascii ((C08_tree_shape _ t h).2.2.2 fn args _ hm).2
  obtain ⟨a, b, hl, hc, _, q, rfl⟩ := line_around pre ('\\' :: fn) post hn (by simp) hr
  have hd : pre ++ '\\' :: (fn ++ (b ++ q)) = pre ++ (('\\' :: fn) ++ (b ++ q)) := by simp
  rw [hd] at hs ⊢
  refine ⟨a, b, hl, ?_, ?_⟩
  · intro c hc
    refine hp c ?_
    cases b with
    | nil => cases hc
    | cons x b => exact hc
  · obtain ⟨h1, h2, h3⟩ := snippet (loc := ⟨lineOf pre, colOf pre, byteLen pre⟩) hs hl hc (by simp)
      (Nat.le_of_eq (List.length_cons (a := '\\') (as := fn)).symm)
    refine ⟨h1, h2, fun hA => ?_⟩
    have e : (utf8 ('\\' :: fn)).length = fn.length + 1 := by rw [utf8_ascii_length ha]; rfl
    rw [h3 hA, ← e, List.take_length, List.drop_length]
    rfl

/-- **C50 (parse errors).** The snippet of a parse error that is neither at the end of a line nor at the end of the file
shows its line; the carets on the terminal, and on an error page after ASCII text the marked part, are at the place of the
error. -/
theorem C50_parse_partial (d : Str) (loc : Location) (h : parseDoc d = some (.err loc)) (hs : ShortLines 4096 d)
    (hc : loc.col ≠ 0) :
    ∃ pre post, d = pre ++ post ∧ loc.off = byteLen pre ∧ ∀ c post', post = c :: post' → c ≠ '\n' → c ≠ '\r' →
      ∃ a b : Str, LineAt d loc.line (a ++ [c] ++ b) ∧ (∃ p, pre = p ++ a) ∧
        annotateLocation (some (utf8 d)) loc 1 =
          .shown (gutter loc.line ++ utf8 (a ++ [c] ++ b)) ((gutter loc.line).length + a.length) 1 ∧
        (∃ p m q, annotatedHTML (some (utf8 d)) loc 1 = .shown false p m q ∧ p ++ m ++ q = utf8 (a ++ [c] ++ b)) ∧
        (Ascii a → Ascii [c] → annotatedHTML (some (utf8 d)) loc 1 = .shown false (utf8 a) (utf8 [c]) (utf8 b)) := by
  obtain ⟨pre, post, rfl, ho, hw⟩ := C10_error_position_partial d loc h
  refine ⟨pre, post, rfl, ho, ?_⟩
  rintro c post' rfl h1 h2
  rcases hw with ⟨hl, hcol⟩ | ⟨_, _, h0⟩
  · obtain ⟨a, b, hla, hca, hp, q, rfl⟩ := line_around pre [c] post' (by simpa using Ne.symm h1) (by simp) (by simpa using h2)
    have hd : pre ++ c :: (b ++ q) = pre ++ ([c] ++ (b ++ q)) := by simp
    rw [hd] at hs ⊢
    rw [← hl] at hla
    obtain ⟨e1, e2, e3⟩ := snippet (loc := loc) (len := 1) hs hla (hcol.trans hca) (by simp) (by simp)
    refine ⟨a, b, hla, hp, e1, e2, fun hA hC => ?_⟩
    have e : (utf8 [c]).length = 1 := by rw [utf8_ascii_length hC]; rfl
    rw [e3 hA, ← e, List.take_length, List.drop_length]
    rfl
  · exact absurd h0 hc

/-- **C50 is false (1):** the error page for a parse error at a line feed panics; the column is 0. -/
theorem C50_false_newline : ∃ d loc, parseDoc d = some (.err loc) ∧ annotatedHTML (some (utf8 d)) loc 1 = .panic :=
  ⟨q%"a\\\nb", ⟨2, 0, 2⟩, by decide +kernel, by decide +kernel⟩

/-- Every parse error at a line feed makes the error page panic, if the line can be read at all. -/
theorem C50_newline_panics (d : Str) (loc : Location) (hl : loc.line ≠ 0) (h0 : loc.col = 0)
    (t : List Byte) (ht : lineInQuestion (utf8 d) loc.line = some t) : annotatedHTML (some (utf8 d)) loc 1 = .panic := by
  rw [annotatedHTML, if_neg hl]
  simp only [Option.bind_some, ht, h0, if_true]
  rw [if_pos (by omega)]

/-- **C50 is false (2):** for a parse error at the end of the file the error page shows an empty line although the line
is not empty. -/
theorem C50_false_end : ∃ d loc t, parseDoc d = some (.err loc) ∧ LineAt d loc.line t ∧ t ≠ [] ∧
    annotatedHTML (some (utf8 d)) loc 1 = .shown false [] [] [] :=
  ⟨q%"a\\", ⟨1, 3, 2⟩, q%"a\\", by decide +kernel, ⟨[], [], by decide, by decide, .inl rfl, by decide, .inl rfl⟩,
    by decide, by decide +kernel⟩

/-- **C50 is false (3):** after text that is not ASCII the marked part of a call is not the call, since columns are
counted in characters and lines are cut by bytes. Here it begins in the middle of the character before the call. -/
theorem C50_false_bytes : ∃ d t fn args loc p m q, parseDoc d = some (.ok (.node t)) ∧ Node.invoke fn args loc ∈ t.subs ∧
    ShortLines 4096 d ∧ annotatedHTML (some (utf8 d)) loc (fn.length + 1) = .shown false p m q ∧ m ≠ utf8 ('\\' :: fn) :=
  ⟨q%"é\\no", .seq [.para [[.str q%"é", .invoke q%"no" [] ⟨1, 2, 2⟩]]], q%"no", [], ⟨1, 2, 2⟩,
    [195], [169, 92, 110], [111], by decide +kernel, by decide, by
      intro l hl
      rw [srcLines_last _ (by decide), List.mem_singleton] at hl
      subst hl
      decide, by decide +kernel, by decide⟩

theorem take_replicate_append {n m : Nat} (h : n ≤ m) (b : Nat) (r : List Nat) :
    (List.replicate m b ++ r).take n = List.replicate n b := by
  rw [List.take_append_of_le_length (by simpa using h), List.take_replicate, Nat.min_eq_left h]

theorem utf8_replicate (n : Nat) : utf8 (List.replicate n 'a') = List.replicate n 97 := by
  induction n with
  | zero => rfl
  | succ n ih => rw [List.replicate_succ, utf8_cons, ih]; rfl

theorem readLine_long {B n : Nat} (hB : bufSize = B) (hn : B < n) (r : Str) :
    readLine (utf8 (List.replicate n 'a' ++ r)) = some (List.replicate B 97, utf8 (List.replicate (n - B) 'a' ++ r)) := by
  have hcut : cutLine (List.replicate B 97) = none :=
    cutLine_none _ fun h => absurd (List.eq_of_mem_replicate h) (by decide)
  have hlast : (List.replicate B 97).getLast? ≠ some 13 :=
    fun h => absurd (List.eq_of_mem_replicate (List.mem_of_getLast? h)) (by decide)
  rw [readLine, hB, utf8_append, utf8_replicate, if_neg (by
    intro h; have := congrArg List.length h; simp at this; omega), take_replicate_append (by omega), hcut]
  simp only
  rw [if_neg (by simp only [List.length_append, List.length_replicate]; omega), if_neg hlast,
    List.drop_append_of_le_length (by simp only [List.length_replicate]; omega), List.drop_replicate, utf8_append,
    utf8_replicate]

theorem second_long {B n : Nat} (hB : bufSize = B) (hn : B < n) (hn2 : n < 2 * B) (r : Str) :
    lineInQuestion (utf8 (List.replicate n 'a' ++ '\n' :: 'b' :: '\n' :: r)) 2 = some (List.replicate (n - B) 97) := by
  have hnl : '\n' ∉ List.replicate (n - B) 'a' := fun h => absurd (List.eq_of_mem_replicate h) (by decide)
  have hlast : (List.replicate (n - B) 97).getLast? ≠ some 13 :=
    fun h => absurd (List.eq_of_mem_replicate (List.mem_of_getLast? h)) (by decide)
  rw [lineInQuestion, show 2 - 1 = 0 + 1 from rfl, skipLines, readLine_long hB hn]
  simp only [skipLines]
  rw [readLine_nl _ hnl (by rw [hB, ← utf8_length, utf8_replicate, List.length_replicate]; omega)]
  simp only [utf8_replicate, dropCr, if_neg hlast]

/-- **C50 is false (4):** after a line that is longer than the buffer of 4096 bytes other lines are shown than the ones
asked for: the second line of this file is `b`, shown is the end of the first one. -/
theorem C50_false_long (n : Nat) (hn : 4096 < n) (hn2 : n < 8192) (r : Str) :
    LineAt (List.replicate n 'a' ++ '\n' :: 'b' :: '\n' :: r) 2 q%"b" ∧
    lineInQuestion (utf8 (List.replicate n 'a' ++ '\n' :: 'b' :: '\n' :: r)) 2 =
      some (List.replicate (n - 4096) 97) := by
  refine ⟨?_, second_long rfl hn hn2 r⟩
  refine ⟨List.replicate n 'a' ++ ['\n'], '\n' :: r, by simp, ?_, .inr (by simp), by decide, .inr (.inl ⟨rfl, by decide⟩)⟩
  simp [lineOf, List.count_append, List.count_replicate]

-- A file with a call in the third line, the lines ended in both ways.
example : (match parseDoc q%"a\n\r\nb \\no c\n" with
    | some (.ok (.node t)) => decide (Node.invoke q%"no" [] ⟨3, 3, 6⟩ ∈ t.subs)
    | _ => false) = true := by decide +kernel

example : ShortLines 4096 q%"a\n\r\nb \\no c\n" := by
  intro l hl
  have : l ∈ [q%"a", q%"\r", q%"b \\no c", q%""] := by
    rw [show srcLines q%"a\n\r\nb \\no c\n" = [q%"a", q%"\r", q%"b \\no c", q%""] by decide +kernel] at hl
    exact hl
  simp only [List.mem_cons, List.not_mem_nil, or_false] at this
  rcases this with rfl | rfl | rfl | rfl <;> decide

example : annotatedHTML (some (utf8 q%"a\n\r\nb \\no c\n")) ⟨3, 3, 6⟩ 3 =
    .shown false (utf8 q%"b ") (utf8 q%"\\no") (utf8 q%" c") := by decide +kernel

example : annotateLocation (some (utf8 q%"a\n\r\nb \\no c\n")) ⟨3, 3, 6⟩ 3 =
    .shown (utf8 q%"   3| b \\no c") 8 3 := by decide +kernel

-- A parse error in the middle of a line.
example : parseDoc q%"a } b" = some (.err ⟨1, 3, 2⟩) ∧
    annotatedHTML (some (utf8 q%"a } b")) ⟨1, 3, 2⟩ 1 = .shown false (utf8 q%"a ") (utf8 q%"}") (utf8 q%" b") := by
  decide +kernel

end Booklit.Props
