import Verif.Lemmas.PegCon
import Verif.Lemmas.PegMaxFail
import Verif.Lemmas.NodeDec

/-!
Properties of the parser: C01, C07, C08, C09, C10.
-/

namespace Booklit.Props

open Booklit Booklit.Peg

/-- A document that exercises most of the grammar. -/
def sampleDoc : Str := q%"\\title{Hello {world}}\n\nsome \\code{{{x } y}}} text{- c -}\nmore \\list{{\n  a\n   b\n}}{z}\n"

/-- **C01.** Parsing terminates on every input: with any recursion budget of at least `fuelFor s` (linear in
the length of the document) the parser delivers an outcome, always the same one, and it is a syntax tree or
a syntax error. -/
theorem C01_parse_terminates (s : Str) :
    ∃ o, (∀ n, fuelFor s ≤ n → parse booklit .booklit n s = some o) ∧
      ((∃ t, o = .ok (.node t)) ∨ ∃ p, o = .err p) := by
  obtain ⟨r, hr⟩ := booklit_total s (fuelFor s) (Nat.le_refl _) .booklit (PSt.start s) rfl
  have hall : ∀ n, fuelFor s ≤ n → run booklit n (.expr (.rule .booklit)) (PSt.start s) = some r := by
    intro n hn
    obtain ⟨r', hr'⟩ := booklit_total s n hn .booklit (PSt.start s) rfl
    rw [hr', (run_sound _ _ _ _ _ hr').det (run_sound _ _ _ _ _ hr)]
  have hw := con_all s (fuelFor s) .booklit (PSt.start s) (InDoc.start s) (fuelFor s) (Nat.le_refl _) r hr
  cases r with
  | ok v st =>
    obtain ⟨⟨ps, hv, _⟩, _⟩ := hw
    subst hv
    exact ⟨.ok (.node (.seq ps)), fun n hn => by simp [parse, hall n hn], Or.inl ⟨_, rfl⟩⟩
  | fail st => exact ⟨.err st.maxFail, fun n hn => by simp [parse, hall n hn], Or.inr ⟨_, rfl⟩⟩
  | panic st => exact absurd hw (by simp)

/-- What a successful parse delivers, for every budget. -/
theorem parse_ok_shape {n : Nat} {s : Str} {v : Val} (h : parse booklit .booklit n s = some (.ok v)) :
    Shape s .booklit v := by
  unfold parse at h
  split at h <;> simp only [Option.some.injEq, reduceCtorEq, Outcome.ok.injEq] at h
  rename_i v' st hr
  subst h
  exact (con_all s n .booklit (PSt.start s) (InDoc.start s) n (Nat.le_refl _) _ hr).1

/-- **C09.** No input makes the parser fail internally. -/
theorem C09_no_internal_failure (s : Str) (n : Nat) (p : Pos) : parse booklit .booklit n s ≠ some (.panic p) := by
  intro h
  unfold parse at h
  split at h <;> simp only [Option.some.injEq, reduceCtorEq, Outcome.panic.injEq] at h
  rename_i st hr
  exact absurd (con_all s n .booklit (PSt.start s) (InDoc.start s) n (Nat.le_refl _) _ hr) (by simp)

/-- **C07.** Every call in a parsed document stands where its recorded location says: there the document has
a backslash followed by exactly the function's name, and the location is that backslash's line, column and
byte offset. -/
theorem C07_call_locations (s : Str) (t : Node) (h : parseDoc s = some (.ok (.node t)))
    (fn : Str) (args : List Node) (loc : Location) (hm : Node.invoke fn args loc ∈ t.subs) : CallAt s fn loc := by
  obtain ⟨ps, hv, _, hg⟩ := parse_ok_shape h
  cases hv
  have : Good s (.seq ps) := Good.seq fun p hp => (hg p hp).2
  exact (this _ hm).2.2

/-- **C08.** Every parsed document is a non-empty sequence of paragraphs; every paragraph anywhere in the tree
has lines and no line is empty; strings never contain line breaks; function names are non-empty and over
`a-z` and `-`. -/
theorem C08_tree_shape (s : Str) (t : Node) (h : parseDoc s = some (.ok (.node t))) :
    (∃ ps, t = .seq ps ∧ ps ≠ [] ∧ ∀ p ∈ ps, ∃ ls, p = .para ls) ∧
    (∀ ls, Node.para ls ∈ t.subs → ls ≠ [] ∧ ∀ l ∈ ls, l ≠ []) ∧
    (∀ u, Node.str u ∈ t.subs → '\n' ∉ u ∧ '\r' ∉ u) ∧
    (∀ fn args loc, Node.invoke fn args loc ∈ t.subs → fn ≠ [] ∧ ∀ c ∈ fn, c = '-' ∨ ('a' ≤ c ∧ c ≤ 'z')) := by
  obtain ⟨ps, hv, hne, hg⟩ := parse_ok_shape h
  cases hv
  have good : Good s (.seq ps) := Good.seq fun p hp => (hg p hp).2
  refine ⟨⟨ps, rfl, hne, fun p hp => (hg p hp).1⟩, fun ls hm => good _ hm, ?_, ?_⟩
  · intro u hm
    have := good _ hm
    exact ⟨fun hc => (this _ hc).1 rfl, fun hc => (this _ hc).2 rfl⟩
  · intro fn args loc hm
    have := good _ hm
    refine ⟨this.1, fun c hc => ?_⟩
    simpa [isFnChar] using this.2.1 c hc

/-- A prefix of the document ends at the given line, column (in characters) and byte offset. -/
def ErrorAt (s : Str) (p : Location) : Prop :=
  ∃ pre post, s = pre ++ post ∧ p = ⟨lineOf pre, colOf pre, byteLen pre⟩

/-- **C10, exactly.** Every syntax error carries the byte offset of a point of the document (or its end). Its line and
column are those of this point if and only if no newline stands there or it is the beginning of the document; otherwise
they are column 0 of the next line. -/
theorem C10_exact (s : Str) (p : Location) (h : parseDoc s = some (.err p)) :
    ∃ pre post, s = pre ++ post ∧ p = (if pre ≠ [] ∧ post.head? = some '\n' then ⟨lineOf pre + 1, 0, byteLen pre⟩
        else ⟨lineOf pre, colOf pre, byteLen pre⟩) ∧
      (ErrorAt s p ↔ pre = [] ∨ post.head? ≠ some '\n') := by
  unfold parseDoc parse at h
  split at h <;> simp only [Option.some.injEq, reduceCtorEq, Outcome.err.injEq] at h
  rename_i st hr
  have := (run_sound _ _ _ _ _ hr).maxOk (doc := s) (InDoc.start s) (Or.inl rfl)
  simp only [R.st, MaxOk] at this
  rw [h] at this
  have : ∃ pre post, s = pre ++ post ∧ p = (if pre ≠ [] ∧ post.head? = some '\n' then ⟨lineOf pre + 1, 0, byteLen pre⟩
        else ⟨lineOf pre, colOf pre, byteLen pre⟩) := by
    rcases this with rfl | ⟨pre, next, h0, h1, rfl⟩
    · exact ⟨[], s, rfl, rfl⟩
    · refine ⟨pre, next, h1, ?_⟩
      unfold posAt
      split
      · rw [if_pos ⟨h0, rfl⟩]
      · rename_i hn
        rw [if_neg]
        rintro ⟨-, h2⟩
        cases next with
        | nil => cases h2
        | cons c r => cases h2; exact hn r rfl
  obtain ⟨pre, post, h1, h2⟩ := this
  refine ⟨pre, post, h1, h2, ?_⟩
  by_cases hc : pre ≠ [] ∧ post.head? = some '\n'
  · rw [if_pos hc] at h2
    refine ⟨?_, fun h => (h.elim hc.1 fun h => h hc.2).elim⟩
    rintro ⟨a, b, -, e⟩
    rw [h2] at e
    simp [colOf] at e
    omega
  · rw [if_neg hc] at h2
    refine ⟨fun _ => ?_, fun _ => ⟨pre, post, h1, h2⟩⟩
    by_cases h0 : pre = []
    · exact .inl h0
    · exact .inr fun h => hc ⟨h0, h⟩

/-- **C10 (part).** Every syntax error carries the byte offset of a point of the document (or its end) and,
unless a newline stands there, exactly that point's line and column; at a newline it is column 0 of the next
line. Missing: the line and column when the error is at a newline, see `C10_false`. -/
theorem C10_error_position_partial (s : Str) (p : Location) (h : parseDoc s = some (.err p)) :
    ∃ pre post, s = pre ++ post ∧ p.off = byteLen pre ∧
      ((p.line = lineOf pre ∧ p.col = colOf pre) ∨
        (post.head? = some '\n' ∧ p.line = lineOf pre + 1 ∧ p.col = 0)) := by
  obtain ⟨pre, post, h1, rfl, -⟩ := C10_exact s p h
  refine ⟨pre, post, h1, ?_⟩
  split
  · rename_i hc
    exact ⟨rfl, Or.inr ⟨hc.2, rfl, rfl⟩⟩
  · exact ⟨rfl, Or.inl ⟨rfl, rfl⟩⟩

/-- **C10 fails** as stated: the error for a backslash at the end of a line is reported in column 0 of the next
line, which is not a position of the document (columns start at 1). -/
theorem C10_false : ∃ s p, parseDoc s = some (.err p) ∧ ¬ ErrorAt s p := by
  refine ⟨q%"a\\\nb", ⟨2, 0, 2⟩, by decide +kernel, ?_⟩
  rintro ⟨pre, post, _, h⟩
  simp [colOf] at h
  omega

/-- An error that is not at a newline, and one that is. -/
example : parseDoc q%"a\n\\" = some (.err ⟨2, 2, 3⟩) ∧ parseDoc q%"a\\\nb" = some (.err ⟨2, 0, 2⟩) := by decide +kernel

-- The theorems apply to real documents.
example : (match parseDoc sampleDoc with
    | some (.ok (.node t)) => decide (Node.invoke q%"code" [.seq [.str q%"x ", .str q%"}", .str q%" y"]] ⟨3, 6, 28⟩ ∈ t.subs)
    | _ => false) = true := by decide +kernel

end Booklit.Props
