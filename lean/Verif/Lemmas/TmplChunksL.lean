import Verif.Lemmas.TmplNodesL

/-!
Templates are read as they are written (C100): texts and actions.
-/

namespace Booklit.Tmpl

open Booklit

theorem breakOn_two {a : Char} {s r : Str} (h : a ∉ s) : breakOn [a, a] (s ++ a :: a :: r) = some (s, r) := by
  induction s with
  | nil => simp [breakOn, List.isPrefixOf]
  | cons c s ih =>
    rw [List.mem_cons, not_or] at h
    have hc : (a == c) = false := by rw [beq_eq_false_iff_ne]; exact h.1
    rw [List.cons_append, breakOn, if_neg (by simp [List.isPrefixOf, hc]), ih h.2]
    rfl

theorem breakOn_none {a : Char} {s : Str} (h : a ∉ s) : breakOn [a, a] s = none := by
  induction s with
  | nil => rfl
  | cons c s ih =>
    rw [List.mem_cons, not_or] at h
    have hc : (a == c) = false := by rw [beq_eq_false_iff_ne]; exact h.1
    rw [breakOn, if_neg (by simp [List.isPrefixOf, hc]), ih h.2]
    rfl

theorem breakOn_star {s r : Str} (h : '*' ∉ s) : breakOn q%"*/" (s ++ '*' :: '/' :: r) = some (s, r) := by
  induction s with
  | nil => simp [breakOn, List.isPrefixOf]
  | cons c s ih =>
    rw [List.mem_cons, not_or] at h
    have hc : ('*' == c) = false := by rw [beq_eq_false_iff_ne]; exact h.1
    rw [List.cons_append, breakOn, if_neg (by simp [List.isPrefixOf, hc]), ih h.2]
    rfl

/-- Neither the first nor the last character of tokens is `-`, nor the first one `/`. -/
theorem Tok.text_ends {t : Tok} (h : t.Ok) : (∃ c s, t.text = c :: s ∧ c ≠ '-' ∧ c ≠ '/') ∧ ∃ c s, t.text = s ++ [c] ∧ c ≠ '-' := by
  have last : ∀ {fs : List Str} {pre : Str}, (∀ f ∈ fs, NameOk f) → pre ≠ [] → (∀ c, pre.getLast? = some c → c ≠ '-') →
      ∃ c s, pre ++ fs.flatMap ('.' :: ·) = s ++ [c] ∧ c ≠ '-' := by
    intro fs
    induction fs with
    | nil =>
      intro pre _ hp hl
      refine ⟨pre.getLast hp, pre.dropLast, ?_, hl _ (List.getLast?_eq_some_getLast hp)⟩
      rw [List.flatMap_nil, List.append_nil, List.dropLast_concat_getLast hp]
    | cons f fs ih =>
      intro pre hf hp hl
      rw [List.flatMap_cons, ← List.append_assoc]
      refine ih (fun g hg => hf g (List.mem_cons_of_mem _ hg)) (by simp) ?_
      intro c hc
      obtain ⟨h1, h2⟩ := hf f (by simp)
      rw [List.getLast?_append, List.getLast?_cons, List.getLast?_eq_some_getLast h1] at hc
      simp only [Option.getD_some, Option.some_or, Option.some.injEq] at hc
      subst hc
      exact (name_facts (h2 _ (List.getLast_mem h1))).2.2.2.2.2.2.2.2.2.2.1
  have named : ∀ {s : Str}, NameOk s → (∃ c r, s = c :: r ∧ c ≠ '-' ∧ c ≠ '/') ∧ ∃ c r, s = r ++ [c] ∧ c ≠ '-' := by
    rintro s ⟨h1, h2⟩
    refine ⟨?_, s.getLast h1, s.dropLast, (List.dropLast_concat_getLast h1).symm, (name_facts (h2 _ (List.getLast_mem h1))).2.2.2.2.2.2.2.2.2.2.1⟩
    cases s with
    | nil => exact absurd rfl h1
    | cons c r => exact ⟨c, r, rfl, (name_facts (h2 c (by simp))).2.2.2.2.2.2.2.2.2.2⟩
  cases t with
  | ident s => exact named h.1
  | dot => exact ⟨⟨'.', [], rfl, by decide, by decide⟩, '.', [], rfl, by decide⟩
  | fields fs =>
    obtain ⟨h1, h2⟩ := h
    cases fs with
    | nil => exact absurd rfl h1
    | cons f fs =>
      refine ⟨⟨'.', _, by simp [Tok.text]; rfl, by decide, by decide⟩, ?_⟩
      have := last (fs := fs) (pre := '.' :: f) (fun g hg => h2 g (List.mem_cons_of_mem _ hg)) (by simp) (by
        intro c hc
        obtain ⟨k1, k2⟩ := h2 f (by simp)
        rw [List.getLast?_cons, List.getLast?_eq_some_getLast k1] at hc
        simp only [Option.getD_some, Option.some.injEq] at hc
        subst hc
        exact (name_facts (k2 _ (List.getLast_mem k1))).2.2.2.2.2.2.2.2.2.2.1)
      simpa [Tok.text] using this
  | var x fs =>
    obtain ⟨h1, h2⟩ := h
    refine ⟨⟨'$', _, rfl, by decide, by decide⟩, ?_⟩
    refine last (fs := fs) (pre := '$' :: x) h2 (by simp) ?_
    intro c hc
    have : c ∈ '$' :: x := List.mem_of_getLast? hc
    rcases List.mem_cons.1 this with rfl | hc
    · decide
    · exact (name_facts (h1 _ hc)).2.2.2.2.2.2.2.2.2.2.1
  | str s => exact ⟨⟨'"', _, rfl, by decide, by decide⟩, '"', _, rfl, by decide⟩
  | num k =>
    refine named ⟨Nat.toDigits_ne_nil, fun c hc => (digit_facts (Nat.isDigit_of_mem_toDigits (by decide) (by decide) hc)).1⟩
  | lparen => exact ⟨⟨'(', [], rfl, by decide, by decide⟩, '(', [], rfl, by decide⟩
  | rparen fs =>
    refine ⟨⟨')', _, rfl, by decide, by decide⟩, ?_⟩
    exact last (fs := fs) (pre := [')']) h (by simp) (by intro c hc; cases hc; decide)
  | pipe => exact ⟨⟨'|', [], rfl, by decide, by decide⟩, '|', [], rfl, by decide⟩
  | comma => exact ⟨⟨',', [], rfl, by decide, by decide⟩, ',', [], rfl, by decide⟩
  | declare => exact ⟨⟨':', _, rfl, by decide, by decide⟩, '=', [':'], rfl, by decide⟩

theorem space_facts {c : Char} (h : isSpace c = true) : c ≠ '-' ∧ c ≠ '/' := by
  constructor <;> (rintro rfl; revert h; decide)

theorem Spells.no_slash {s : Str} {ts : List Tok} (h : Spells s ts) : ∀ c, s.head? = some c → c ≠ '-' ∧ c ≠ '/' := by
  cases h with
  | nil hsp => intro c hc; exact space_facts (hsp c (List.mem_of_mem_head? hc))
  | @cons sp s t ts hsp ht _ _ =>
    intro c hc
    cases sp with
    | nil =>
      obtain ⟨⟨d, r, e, h1, h2⟩, -⟩ := Tok.text_ends ht
      rw [e] at hc
      cases hc
      exact ⟨h1, h2⟩
    | cons d sp => cases hc; exact space_facts (hsp _ (by simp))

theorem Spells.last {s : Str} {ts : List Tok} (h : Spells s ts) : ∀ c, s.getLast? = some c → c ≠ '-' := by
  induction h with
  | nil hsp => intro c hc; exact (space_facts (hsp c (List.mem_of_getLast? hc))).1
  | @cons sp s t ts hsp ht _ _ ih =>
    intro c hc
    rw [List.getLast?_append] at hc
    cases hs : s.getLast? with
    | some d => rw [hs] at hc; cases hc; exact ih c hs
    | none =>
      rw [hs] at hc
      obtain ⟨-, d, r, e, h1⟩ := Tok.text_ends ht
      rw [e] at hc
      simp only [Option.none_or, ← List.append_assoc, List.getLast?_append, List.getLast?_singleton, Option.some_or, Option.some.injEq] at hc
      subst hc
      exact h1

/-- The rest after spaces at its begin. -/
theorem Spells.tail {c : Char} {s : Str} {ts : List Tok} (h : Spells (c :: s) ts) (hc : isSpace c = true) : Spells s ts := by
  generalize hg : c :: s = w at h
  cases h with
  | @nil sp hsp => subst hg; exact .nil fun d hd => hsp d (List.mem_cons_of_mem _ hd)
  | @cons sp r t ts hsp ht ho hr =>
    cases sp with
    | nil =>
      obtain ⟨⟨d, q, e, -, -⟩, -⟩ := Tok.text_ends ht
      exfalso
      rw [e] at hg
      cases hg
      have : isSpace c = false := by
        cases t with
        | ident s =>
          have := ht.1.2 c (by simp only [Tok.text] at e; rw [e]; simp)
          exact (name_facts this).1
        | num k =>
          have : c ∈ Nat.toDigits 10 k := by simp only [Tok.text] at e; rw [e]; simp
          exact (name_facts (digit_facts (Nat.isDigit_of_mem_toDigits (by decide) (by decide) this)).1).1
        | fields fs =>
          cases fs with
          | nil => cases e
          | cons f fs => simp only [Tok.text, List.flatMap_cons, List.cons_append, List.cons.injEq] at e; rw [← e.1]; decide
        | dot => cases e; decide
        | var x fs => simp only [Tok.text, List.cons_append, List.cons.injEq] at e; rw [← e.1]; decide
        | str s => simp only [Tok.text, List.cons_append, List.cons.injEq] at e; rw [← e.1]; decide
        | lparen => cases e; decide
        | rparen fs => simp only [Tok.text, List.cons.injEq] at e; rw [← e.1]; decide
        | pipe => cases e; decide
        | comma => cases e; decide
        | declare => simp only [Tok.text, List.cons.injEq] at e; rw [← e.1]; decide
      rw [this] at hc
      cases hc
    | cons d sp =>
      cases hg
      exact .cons (fun d hd => hsp d (List.mem_cons_of_mem _ hd)) ht ho hr

theorem trimLeft_none {s : Str} (h : ∀ c, s.head? = some c → c ≠ '-') : trimLeft s = (false, s) := by
  unfold trimLeft
  split
  · exact absurd rfl (h '-' rfl)
  · rfl

theorem trimLeft_some {c : Char} {s : Str} (h : isSpace c = true) : trimLeft ('-' :: c :: s) = (true, c :: s) := by
  rw [trimLeft, if_pos h]

theorem trimRight_none {s : Str} (h : ∀ c, s.getLast? = some c → c ≠ '-') : trimRight s = (false, s) := by
  unfold trimRight
  split
  · next heq =>
    refine absurd rfl (h '-' ?_)
    rw [List.getLast?_eq_head?_reverse, heq]
    rfl
  · rfl

theorem trimRight_some {c : Char} {s : Str} (h : isSpace c = true) : trimRight (s ++ [c, '-']) = (true, s) := by
  unfold trimRight
  have : (s ++ [c, '-']).reverse = '-' :: c :: s.reverse := by simp
  rw [this]
  show (if isSpace c = true then _ else _) = _
  rw [if_pos h, List.reverse_reverse]

theorem trimEnd_spaces {s sp : Str} (hs : ∀ c, s.getLast? = some c → isSpace c = false) (hsp : ∀ c ∈ sp, isSpace c = true) : trimEnd (s ++ sp) = s := by
  unfold trimEnd
  rw [List.reverse_append, (takeWhile_append (p := isSpace) (s := sp.reverse) (r := s.reverse) (by simpa using hsp) (by
    intro c hc
    rw [← List.getLast?_eq_head?_reverse] at hc
    exact hs c hc)).2, List.reverse_reverse]

theorem chunks_succ (n : Nat) (s : Str) : chunks (n + 1) s =
    match breakOn q%"{{" s with
    | none => some (textChunk s)
    | some (before, rest) =>
      let l := trimLeft rest
      match skipComment l.1 l.2 with
      | some none => none
      | some (some after) => (chunks n after).map fun cs => textChunk (if l.1 then trimEnd before else before) ++ cs
      | none =>
        match breakOn q%"}}" l.2 with
        | none => none
        | some (inside, after) =>
          let r := trimRight inside
          (chunks n (if r.1 then after.dropWhile isSpace else after)).map fun cs =>
            textChunk (if l.1 then trimEnd before else before) ++ .action r.2 :: cs := by
  rw [chunks.eq_def]
  rfl

theorem skip_none {trim : Bool} {w : Str} (h : ∀ c, (if trim then w.drop 1 else w).head? = some c → c ≠ '/') : skipComment trim w = none := by
  unfold skipComment
  rw [if_neg]
  intro hp
  cases hw : (if trim then w.drop 1 else w) with
  | nil => rw [hw] at hp; cases hp
  | cons c r =>
    rw [hw] at hp h
    have := h c rfl
    simp only [List.isPrefixOf, Bool.and_eq_true, beq_iff_eq] at hp
    exact this hp.1.symm

theorem trims_iff {r : Str} : Trims (q%"{{" ++ r) ↔ (trimLeft r).1 = true := by
  constructor
  · rintro ⟨c, r', hc, e⟩
    simp only [List.cons_append, List.nil_append, List.cons.injEq, true_and] at e
    subst e
    rw [trimLeft_some hc]
  · intro h
    unfold trimLeft at h
    split at h
    · next c cs =>
      split at h
      · next hc => exact ⟨c, cs, hc, rfl⟩
      · cases h
    · cases h

/-- A text before an action. -/
theorem chunks_pre {n : Nat} {s r : Str} (h : '{' ∉ s) : chunks (n + 1) (s ++ (q%"{{" ++ r)) =
    (chunks (n + 1) (q%"{{" ++ r)).map (textChunk (if (trimLeft r).1 then trimEnd s else s) ++ ·) := by
  have e1 : breakOn q%"{{" (s ++ (q%"{{" ++ r)) = some (s, r) := breakOn_two h
  have e2 : breakOn q%"{{" (q%"{{" ++ r) = some ([], r) := breakOn_two (s := []) (by simp)
  rw [chunks_succ, chunks_succ, e1, e2]
  have e3 : textChunk (if (trimLeft r).1 then trimEnd [] else []) = [] := by split <;> rfl
  dsimp only
  rw [e3]
  cases skipComment (trimLeft r).1 (trimLeft r).2 with
  | some o =>
    cases o with
    | none => rfl
    | some after => simp only [List.nil_append]; cases chunks n after <;> rfl
  | none =>
    dsimp only
    cases breakOn q%"}}" (trimLeft r).2 with
    | none => rfl
    | some p =>
      obtain ⟨inside, after⟩ := p
      dsimp only
      cases chunks n (if (trimRight inside).1 = true then List.dropWhile isSpace after else after) <;> rfl

theorem textChunk_pos {s : Str} (h : s ≠ []) : textChunk s = [.text s] := by rw [textChunk, if_neg h]

/-- An action. -/
theorem chunks_act {n : Nat} {s w : Str} {ts : List Tok} {left : Bool} (hs : Spells s ts)
    (hl : left = true → ∃ c s', isSpace c = true ∧ s = c :: s') {c : Char} (hc : c ≠ '-' ∧ c ≠ '/') :
    chunks (n + 1) (q%"{{" ++ ((if left then q%"-" else []) ++ (s ++ c :: w))) =
      match breakOn q%"}}" (s ++ c :: w) with
        | none => none
        | some (inside, after) =>
          (chunks n (if (trimRight inside).1 then after.dropWhile isSpace else after)).map fun cs => .action (trimRight inside).2 :: cs := by
  have e1 : breakOn q%"{{" (q%"{{" ++ ((if left then q%"-" else []) ++ (s ++ c :: w))) = some ([], (if left then q%"-" else []) ++ (s ++ c :: w)) :=
    breakOn_two (s := []) (by simp)
  rw [chunks_succ, e1]
  dsimp only
  have e2 : trimLeft ((if left then q%"-" else []) ++ (s ++ c :: w)) = (left, s ++ c :: w) := by
    cases left with
    | true =>
      obtain ⟨d, s', hd, rfl⟩ := hl rfl
      exact trimLeft_some hd
    | false =>
      refine trimLeft_none fun d hd => ?_
      cases s with
      | nil => cases hd; exact hc.1
      | cons x s => cases hd; exact (hs.no_slash _ rfl).1
  have e3 : skipComment left (s ++ c :: w) = none := by
    refine skip_none fun d hd => ?_
    cases left with
    | true =>
      obtain ⟨x, s', hx, rfl⟩ := hl rfl
      have := (hs.tail hx).no_slash
      cases s' with
      | nil => cases hd; exact hc.2
      | cons y s' => cases hd; exact (this _ rfl).2
    | false =>
      cases s with
      | nil => cases hd; exact hc.2
      | cons x s => cases hd; exact (hs.no_slash _ rfl).2
  rw [e2]
  dsimp only
  rw [e3]
  dsimp only
  have e4 : textChunk (if left = true then trimEnd [] else []) = [] := by split <;> rfl
  rw [e4]
  rfl

/-- A template is cut into its texts and actions. -/
theorem chunks_written {s : Str} {ms : List Mark} (h : Written s ms) : ∀ n, s.length + 1 ≤ n → ∃ cs, chunks n s = some cs ∧ Cs ms cs := by
  induction h with
  | nil =>
    intro n hn
    cases n with
    | zero => simp at hn
    | succ n => exact ⟨[], rfl, .nil⟩
  | @text s r ms h1 h2 _ h3 h4 ih =>
    intro n hn
    rw [List.length_append] at hn
    cases n with
    | zero => omega
    | succ n =>
      obtain ⟨cs, e, hc⟩ := ih (n + 1) (by omega)
      rcases h3 with rfl | ⟨r', rfl⟩
      · refine ⟨[.text s], ?_, ?_⟩
        · rw [List.append_nil, chunks_succ, show breakOn q%"{{" s = none from breakOn_none h2]
          dsimp only
          rw [textChunk_pos h1]
        · have : cs = [] := by
            cases e
            rfl
          subst this
          exact .text hc
      · rw [trims_iff, Bool.not_eq_true] at h4
        refine ⟨.text s :: cs, ?_, .text hc⟩
        rw [chunks_pre h2, e, h4]
        show some (textChunk s ++ cs) = _
        rw [textChunk_pos h1]
        rfl
  | @trimmed s sp r ms h1 h2 h3 h4 _ h5 ih =>
    intro n hn
    rw [List.length_append, List.length_append] at hn
    cases n with
    | zero => omega
    | succ n =>
      obtain ⟨cs, e, hc⟩ := ih (n + 1) (by omega)
      obtain ⟨c, r', hc', rfl⟩ := h5
      have h6 : '{' ∉ s ++ sp := by
        rw [List.mem_append]
        rintro (h | h)
        · exact h2 h
        · have := h4 _ h
          revert this; decide
      refine ⟨.text s :: cs, ?_, .text hc⟩
      have := chunks_pre (n := n) (r := '-' :: c :: r') h6
      rw [show q%"{{-" ++ c :: r' = q%"{{" ++ ('-' :: c :: r') from rfl] at e ⊢
      rw [this, e, trimLeft_some hc']
      show some (textChunk (trimEnd (s ++ sp)) ++ cs) = _
      rw [trimEnd_spaces h3 h4, textChunk_pos h1]
      rfl
  | @space sp r ms h4 _ h5 ih =>
    intro n hn
    rw [List.length_append] at hn
    cases n with
    | zero => omega
    | succ n =>
      obtain ⟨cs, e, hc⟩ := ih (n + 1) (by omega)
      obtain ⟨c, r', hc', rfl⟩ := h5
      have h6 : '{' ∉ sp := by
        intro h
        have := h4 _ h
        revert this; decide
      refine ⟨cs, ?_, hc⟩
      have := chunks_pre (n := n) (r := '-' :: c :: r') h6
      rw [show q%"{{-" ++ c :: r' = q%"{{" ++ ('-' :: c :: r') from rfl] at e ⊢
      rw [this, e, trimLeft_some hc']
      show some (textChunk (trimEnd sp) ++ cs) = _
      rw [show trimEnd sp = [] from trimEnd_spaces (s := []) (by simp) h4]
      rfl
  | @act s r ts ms left hs h1 h2 hl _ ih =>
    intro n hn
    cases n with
    | zero => omega
    | succ n =>
      obtain ⟨cs, e, hc⟩ := ih n (by simp only [List.length_append, List.length_cons, List.length_nil] at hn; omega)
      refine ⟨.action s :: cs, ?_, .act hs hc⟩
      rw [show q%"{{" ++ (if left = true then q%"-" else []) ++ s ++ q%"}}" ++ r = q%"{{" ++ ((if left then q%"-" else []) ++ (s ++ '}' :: '}' :: r)) by simp,
        chunks_act hs hl (by decide), show breakOn q%"}}" (s ++ '}' :: '}' :: r) = some (s, r) from breakOn_two h2]
      dsimp only
      rw [trimRight_none hs.last]
      show (chunks n r).map _ = _
      rw [e]
      rfl
  | @actTrim s sp r c ts ms left hs h1 h2 hl hc' hsp hr _ ih =>
    intro n hn
    cases n with
    | zero => omega
    | succ n =>
      obtain ⟨cs, e, hc⟩ := ih n (by simp only [List.length_append, List.length_cons, List.length_nil] at hn; omega)
      refine ⟨.action s :: cs, ?_, .act hs hc⟩
      have h3 : '}' ∉ s ++ [c, '-'] := by
        simp only [List.mem_append, List.mem_cons, List.not_mem_nil, or_false, not_or]
        refine ⟨h2, ?_, by decide⟩
        rintro rfl
        revert hc'; decide
      have e0 : s ++ c :: ('-' :: '}' :: '}' :: (sp ++ r)) = (s ++ [c, '-']) ++ '}' :: '}' :: (sp ++ r) := by simp
      rw [show q%"{{" ++ (if left = true then q%"-" else []) ++ s ++ c :: q%"-}}" ++ sp ++ r =
          q%"{{" ++ ((if left then q%"-" else []) ++ (s ++ c :: ('-' :: '}' :: '}' :: (sp ++ r)))) by simp,
        chunks_act hs hl (space_facts hc'), e0, show breakOn q%"}}" ((s ++ [c, '-']) ++ '}' :: '}' :: (sp ++ r)) = some (s ++ [c, '-'], sp ++ r) from breakOn_two h3]
      dsimp only
      rw [trimRight_some hc']
      show (chunks n ((sp ++ r).dropWhile isSpace)).map _ = _
      rw [(takeWhile_append hsp hr).2, e]
      rfl
  | @comment s r ms h1 _ ih =>
    intro n hn
    cases n with
    | zero => omega
    | succ n =>
      obtain ⟨cs, e, hc⟩ := ih n (by simp only [List.length_append, List.length_cons, List.length_nil] at hn; omega)
      refine ⟨cs, ?_, hc⟩
      have e0 : q%"{{/*" ++ s ++ q%"*/}}" ++ r = q%"{{" ++ ('/' :: '*' :: (s ++ '*' :: '/' :: ('}' :: '}' :: r))) := by simp
      have e1 : breakOn q%"{{" (q%"{{" ++ ('/' :: '*' :: (s ++ '*' :: '/' :: ('}' :: '}' :: r)))) = some ([], '/' :: '*' :: (s ++ '*' :: '/' :: ('}' :: '}' :: r))) :=
        breakOn_two (s := []) (by simp)
      have e2 : skipComment false ('/' :: '*' :: (s ++ '*' :: '/' :: ('}' :: '}' :: r))) = some (some r) := by
        unfold skipComment
        simp only [Bool.false_eq_true, if_false, List.drop_succ_cons, List.drop_zero]
        rw [if_pos (by simp [List.isPrefixOf]), breakOn_star h1]
        rfl
      rw [e0, chunks_succ, e1]
      dsimp only
      rw [trimLeft_none (by intro c hc; cases hc; decide)]
      dsimp only
      rw [e2]
      show (chunks n r).map _ = _
      rw [e]
      rfl

theorem parse_written {fns : List (Str × Fn)} {s : Str} {ts : List Tm} (h : Written s (marksL ts)) {ns : List TNode} (hn : nodesL fns ts = some ns) :
    parse fns s = some ns := by
  obtain ⟨cs, e, hc⟩ := chunks_written h (s.length + 1) (Nat.le_refl _)
  have := parse_tms ts hn hc [] (stop := .eof) (rest := []) (fun m => by rw [parseNodes.eq_def]) (2 * cs.length + 2) (by omega)
  rw [List.append_nil] at this
  rw [parse, e]
  show (match parseNodes fns (2 * cs.length + 2) cs with | some (ns, .eof, []) => some ns | _ => none) = _
  rw [this]

end Booklit.Tmpl
