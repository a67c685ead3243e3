import Verif.Spec.Lexer
import Verif.Lemmas.DocsLitL

/-!
The lexer at work, for C104.
-/

namespace Booklit

theorem hues_any (x y : Hue) (stk : List LexState) : ∀ s : Str, hues x 0 stk s = hues y 0 stk s
  | [] => rfl
  | _ :: _ => rfl

theorem hues_length (x : Hue) : ∀ (s : Str) (k : Nat) (stk : List LexState), (hues x k stk s).length = s.length
  | [], _, _ => by rw [hues.eq_def]; rfl
  | _ :: s, k + 1, stk => by rw [hues, List.length_cons, hues_length x s k stk, List.length_cons]
  | _ :: s, 0, stk => by rw [hues, List.length_cons, hues_length _ s _ _, List.length_cons]

/-- The colours from a place where a token begins. -/
def paint (stk : List LexState) (s : Str) : List Hue := hues .error 0 stk s

theorem hues_run (x : Hue) (stk : List LexState) (r : Str) : ∀ u : Str, hues x u.length stk (u ++ r) = (u.map fun _ => x) ++ paint stk r
  | [] => hues_any _ _ _ _
  | c :: u => by rw [List.length_cons, List.cons_append, hues, hues_run x stk r u, List.map_cons, List.cons_append]

theorem paint_token {stk stk' : List LexState} {u r : Str} {x : Hue} (hu : u ≠ []) (h : lexStep stk (u ++ r) = (x, u.length, stk')) :
    paint stk (u ++ r) = (u.map fun _ => x) ++ paint stk' r := by
  cases u with
  | nil => exact absurd rfl hu
  | cons c u =>
    rw [List.cons_append] at h ⊢
    rw [paint, hues, h]
    simp only [List.length_cons, Nat.add_sub_cancel]
    rw [hues_run, List.map_cons, List.cons_append]

theorem paint_rule {st : LexState} {stk : List LexState} {u r : Str} {rule : LexRule} (hu : u ≠ [])
    (h : firstRule (lexRules st) (u ++ r) = some (rule, u.length)) :
    paint (st :: stk) (u ++ r) = (u.map fun _ => rule.hue) ++ paint (mutate rule.act (st :: stk)) r :=
  paint_token hu (by rw [lexStep]; simp only [h])

theorem firstRule_hit {r : LexRule} {rs : List LexRule} {s : Str} {k : Nat} (h : r.len s = k + 1) : firstRule (r :: rs) s = some (r, k + 1) := by
  rw [firstRule, h, if_neg (by omega)]

theorem firstRule_miss {r : LexRule} {rs : List LexRule} {s : Str} (h : r.len s = 0) : firstRule (r :: rs) s = firstRule rs s := by
  rw [firstRule, if_pos h]

/-- One more character of a run. -/
theorem paint_run {st : LexState} {stk : List LexState} {p : Char → Bool} {x : Hue}
    (hr : ∀ c s, p c = true → firstRule (lexRules st) (c :: s) = some (⟨many1 p, x, .stay⟩, many1 p (c :: s))) {c : Char} (hc : p c = true) (s : Str) :
    paint (st :: stk) (c :: s) = x :: paint (st :: stk) s := by
  have key : ∀ c s, p c = true → ∃ r, s = s.takeWhile p ++ r ∧ paint (st :: stk) (c :: s) = x :: ((s.takeWhile p).map fun _ => x) ++ paint (st :: stk) r := by
    intro c s hc
    obtain ⟨r, h1, _, _⟩ := takeWhile_rest p s
    refine ⟨r, h1, ?_⟩
    have e : firstRule (lexRules st) ((c :: s.takeWhile p) ++ r) = some (⟨many1 p, x, .stay⟩, (c :: s.takeWhile p).length) := by
      rw [List.cons_append, ← h1, hr c s hc, many1, List.takeWhile_cons, if_pos hc]
    have := paint_rule (stk := stk) (List.cons_ne_nil _ _) e
    rw [List.cons_append, ← h1] at this
    exact this
  obtain ⟨r, h1, h2⟩ := key c s hc
  rw [h2, List.cons_append]
  congr 1
  cases s with
  | nil =>
    have : r = [] := by simpa using h1.symm
    rw [this]
    rfl
  | cons d s =>
    cases hd : p d with
    | false =>
      rw [List.takeWhile_cons, hd] at h1 ⊢
      simp only [Bool.false_eq_true, if_false, List.nil_append] at h1
      rw [h1]
      rfl
    | true =>
      obtain ⟨r', h3, h4⟩ := key d s hd
      rw [List.takeWhile_cons, hd, if_pos rfl, List.cons_append, List.cons.injEq] at h1
      have : r = r' := List.append_cancel_left (h1.2.symm.trans h3)
      subst this
      rw [h4, List.takeWhile_cons, hd, if_pos rfl, List.map_cons]

theorem many1_hit {p : Char → Bool} {c : Char} {s : Str} (h : p c = true) : many1 p (c :: s) = many1 p s + 1 := by
  rw [many1, List.takeWhile_cons, if_pos h, List.length_cons, many1]

theorem many1_miss {p : Char → Bool} {c : Char} {s : Str} (h : p c = false) : many1 p (c :: s) = 0 := by
  rw [many1, List.takeWhile_cons, h]
  rfl

/-! ### The state `root` -/

theorem paint_text {stk : List LexState} {c : Char} (hc : isSpecial c = false) (s : Str) :
    paint (.root :: stk) (c :: s) = .text :: paint (.root :: stk) s := by
  refine paint_run (p := fun c => !isSpecial c) (fun c s h => ?_) (by rw [hc]; rfl) s
  rw [lexRules, firstRule_hit (many1_hit h), many1_hit h]

theorem paint_texts {stk : List LexState} (r : Str) : ∀ s : Str, (∀ c ∈ s, isSpecial c = false) →
    paint (.root :: stk) (s ++ r) = (s.map fun _ => Hue.text) ++ paint (.root :: stk) r
  | [], _ => rfl
  | c :: s, h => by
    rw [List.cons_append, paint_text (h c List.mem_cons_self), paint_texts r s fun d hd => h d (List.mem_cons_of_mem _ hd)]
    rfl

theorem fixed_miss {t : Str} {c d : Char} {s : Str} (h : c ≠ d) : fixed (d :: t) (c :: s) = 0 := by
  rw [fixed, List.isPrefixOf]
  simp [Ne.symm h]

theorem fixed_hit (t s : Str) : fixed t (t ++ s) = t.length := by
  rw [fixed, if_pos (by simp)]

theorem root_backslash (s : Str) : firstRule (lexRules .root) ('\\' :: s) = firstRule [⟨callLen, .keyword, .stay⟩, ⟨escLen, .text, .stay⟩] ('\\' :: s) := rfl

theorem paint_call {stk : List LexState} {fn r : Str} (h1 : fn ≠ []) (h2 : ∀ c ∈ fn, isFnChar c = true) (h3 : ∀ c ∈ r.head?, isFnChar c = false) :
    paint (.root :: stk) ('\\' :: fn ++ r) = (('\\' :: fn).map fun _ => Hue.keyword) ++ paint (.root :: stk) r := by
  refine paint_rule (rule := ⟨callLen, .keyword, .stay⟩) (List.cons_ne_nil _ _) ?_
  have e : callLen ('\\' :: fn ++ r) = fn.length + 1 := by
    rw [List.cons_append, callLen]
    have : (fn ++ r).takeWhile isFnChar = fn := takeWhile_cut _ _ _ h2 h3
    change (if '\\' = '\\' ∧ (fn ++ r).takeWhile isFnChar ≠ [] then ((fn ++ r).takeWhile isFnChar).length + 1 else 0) = _
    rw [this, if_pos ⟨rfl, h1⟩]
  rw [List.cons_append, root_backslash, ← List.cons_append, firstRule_hit e]
  rfl

theorem special_fn {c : Char} (h : isSpecial c = true) : isFnChar c = false := by
  have : c = '\\' ∨ c = '{' ∨ c = '}' := by simpa [isSpecial, or_assoc] using h
  rcases this with rfl | rfl | rfl <;> decide

/-- An escaped character and the run after it. -/
theorem paint_run_esc {stk : List LexState} {c : Char} (hc : isSpecial c = true) (s : Str) : ∃ r, s = s.takeWhile isSpecial ++ r ∧
    paint (.root :: stk) ('\\' :: c :: s) = .text :: .text :: ((s.takeWhile isSpecial).map fun _ => Hue.text) ++ paint (.root :: stk) r := by
  obtain ⟨r, h1, _, _⟩ := takeWhile_rest isSpecial s
  refine ⟨r, h1, ?_⟩
  have e1 : callLen ('\\' :: c :: s) = 0 := by
    rw [callLen]
    change (if '\\' = '\\' ∧ (c :: s).takeWhile isFnChar ≠ [] then ((c :: s).takeWhile isFnChar).length + 1 else 0) = 0
    rw [List.takeWhile_cons, special_fn hc]
    rfl
  have e2 : escLen ('\\' :: c :: s) = (s.takeWhile isSpecial).length + 1 + 1 := by
    rw [escLen, List.takeWhile_cons, if_pos hc, if_pos ⟨rfl, List.cons_ne_nil _ _⟩, List.length_cons]
  have := paint_rule (stk := stk) (st := .root) (u := '\\' :: c :: s.takeWhile isSpecial) (r := r) (rule := ⟨escLen, .text, .stay⟩) (List.cons_ne_nil _ _) (by
    rw [List.cons_append, List.cons_append, ← h1]
    rw [root_backslash, firstRule_miss e1, firstRule_hit e2]
    rfl)
  rw [List.cons_append, List.cons_append, ← h1] at this
  exact this

theorem paint_esc {stk : List LexState} {c : Char} (hc : isSpecial c = true) {u : Str} (hu : Clear u) :
    paint (.root :: stk) ('\\' :: c :: u) = .text :: .text :: paint (.root :: stk) u := by
  obtain ⟨r, h1, h2⟩ := paint_run_esc (stk := stk) hc u
  rw [h2]
  rcases hu with hu | ⟨d, v, rfl, hd⟩
  · have : u.takeWhile isSpecial = [] := by
      cases u with
      | nil => rfl
      | cons d u => rw [List.takeWhile_cons, hu d rfl]; rfl
    rw [this] at h1 ⊢
    rw [List.nil_append] at h1
    rw [← h1]
    rfl
  · obtain ⟨r', h3, h4⟩ := paint_run_esc (stk := stk) hd v
    have e : ('\\' :: d :: v).takeWhile isSpecial = '\\' :: d :: v.takeWhile isSpecial := by
      rw [List.takeWhile_cons, if_pos (by decide), List.takeWhile_cons, if_pos hd]
    rw [e] at h1 ⊢
    rw [List.cons_append, List.cons_append, List.cons.injEq, List.cons.injEq] at h1
    have : r = r' := List.append_cancel_left (h1.2.2.symm.trans h3)
    subst this
    rw [h4]
    rfl

theorem paint_open {stk : List LexState} {u : Str} (h1 : ∀ v, u ≠ '{' :: '{' :: v) (h2 : u.head? ≠ some '-') :
    paint (.root :: stk) ('{' :: u) = .builtin :: paint (.root :: stk) u := by
  have e1 : fixed q%"{{{" ('{' :: u) = 0 := by
    rw [fixed, if_neg]
    intro h
    obtain ⟨v, hv⟩ := List.isPrefixOf_iff_prefix.1 h
    exact h1 v (List.cons.inj hv).2.symm
  have e2 : fixed q%"{-" ('{' :: u) = 0 := by
    rw [fixed, if_neg]
    intro h
    obtain ⟨v, hv⟩ := List.isPrefixOf_iff_prefix.1 h
    rw [← (List.cons.inj hv).2] at h2
    exact h2 rfl
  refine paint_rule (u := ['{']) (rule := ⟨single fun c => c == '{' || c == '}', .builtin, .stay⟩) (List.cons_ne_nil _ _) ?_
  rw [List.singleton_append, lexRules, firstRule_miss (many1_miss (by decide)), firstRule_miss e1, firstRule_miss e2, firstRule_hit (k := 0) (by rfl)]
  rfl

theorem paint_close {stk : List LexState} (u : Str) : paint (.root :: stk) ('}' :: u) = .builtin :: paint (.root :: stk) u :=
  paint_rule (u := ['}']) (rule := ⟨single fun c => c == '{' || c == '}', .builtin, .stay⟩) (List.cons_ne_nil _ _) rfl

/-- A lone backslash. -/
theorem paint_lone {stk : List LexState} {u : Str} (h : ∀ c ∈ u.head?, isFnChar c = false ∧ isSpecial c = false) :
    paint (.root :: stk) ('\\' :: u) = .error :: paint (.root :: stk) u := by
  have e1 : callLen ('\\' :: u) = 0 := by
    rw [callLen]
    change (if '\\' = '\\' ∧ u.takeWhile isFnChar ≠ [] then (u.takeWhile isFnChar).length + 1 else 0) = 0
    cases u with
    | nil => rfl
    | cons c u => rw [List.takeWhile_cons, (h c rfl).1]; rfl
  have e2 : escLen ('\\' :: u) = 0 := by
    rw [escLen]
    cases u with
    | nil => rfl
    | cons c u => rw [List.takeWhile_cons, (h c rfl).2]; rfl
  refine paint_token (u := ['\\']) (List.cons_ne_nil _ _) ?_
  rw [List.singleton_append, lexStep, root_backslash, firstRule_miss e1, firstRule_miss e2]
  rfl

/-! ### Verbatim text -/

theorem paint_verbs {stk : List LexState} {c : Char} (hc : c ≠ '}') (s : Str) :
    paint (.verbatim :: stk) (c :: s) = .string :: paint (.verbatim :: stk) s := by
  refine paint_run (p := fun c => c != '}') (fun c s h => ?_) (by simpa using hc) s
  have h' : c ≠ '}' := by simpa using h
  rw [lexRules, firstRule_miss (fixed_miss h'), firstRule_hit (many1_hit (p := fun c => c != '}') h), many1_hit (p := fun c => c != '}') h]

theorem paint_brace {stk : List LexState} {d : Char} (hd : d ≠ '}') (s : Str) :
    paint (.verbatim :: stk) ('}' :: d :: s) = .string :: paint (.verbatim :: stk) (d :: s) := by
  have e1 : fixed q%"}}}" ('}' :: d :: s) = 0 := by
    rw [fixed, if_neg]
    intro h
    obtain ⟨v, hv⟩ := List.isPrefixOf_iff_prefix.1 h
    exact hd (List.cons.inj (List.cons.inj hv).2).1.symm
  have e3 : braceLen ('}' :: d :: s) = 1 + 1 := by rw [braceLen, if_pos ⟨rfl, hd⟩]
  have := paint_rule (stk := stk) (st := .verbatim) (u := ['}', d]) (r := s) (rule := ⟨braceLen, .string, .stay⟩) (List.cons_ne_nil _ _) (by
    show firstRule _ ('}' :: d :: s) = _
    rw [lexRules, firstRule_miss e1, firstRule_miss (many1_miss (by decide)), firstRule_hit e3]
    rfl)
  rw [paint_verbs hd]
  exact this

theorem paint_verb {stk : List LexState} (r : Str) : ∀ t : Str, (∀ a b, t ≠ a ++ '}' :: '}' :: b) → t.getLast? ≠ some '}' →
    paint (.verbatim :: stk) (t ++ (q%"}}}" ++ r)) = (t.map fun _ => Hue.string) ++ (.string :: .string :: .string :: paint stk r)
  | [], _, _ => by
    have := paint_rule (stk := stk) (st := .verbatim) (u := q%"}}}") (r := r) (rule := ⟨fixed q%"}}}", .string, .pop⟩) (List.cons_ne_nil _ _) (by
      rw [lexRules, firstRule_hit (k := 2) (fixed_hit q%"}}}" r)]
      rfl)
    exact this
  | c :: t, h1, h2 => by
    have h1' : ∀ a b, t ≠ a ++ '}' :: '}' :: b := fun a b e => h1 (c :: a) b (by rw [e]; rfl)
    by_cases hc : c = '}'
    · subst hc
      cases t with
      | nil => exact absurd rfl h2
      | cons d t =>
        have hd : d ≠ '}' := by
          rintro rfl
          exact h1 [] t rfl
        have h2' : (d :: t).getLast? ≠ some '}' := by rwa [List.getLast?_cons_cons] at h2
        rw [List.cons_append, List.cons_append, paint_brace hd, ← List.cons_append, paint_verb r (d :: t) h1' h2']
        rfl
    · have h2' : t.getLast? ≠ some '}' := by
        cases t with
        | nil => simp
        | cons d t => rwa [List.getLast?_cons_cons] at h2
      rw [List.cons_append, paint_verbs hc, paint_verb r t h1' h2']
      rfl

theorem paint_verbatim {stk : List LexState} (t r : Str) (h1 : ∀ a b, t ≠ a ++ '}' :: '}' :: b) (h2 : t.getLast? ≠ some '}') :
    paint (.root :: stk) (q%"{{{" ++ (t ++ (q%"}}}" ++ r))) =
      .string :: .string :: .string :: (t.map fun _ => Hue.string) ++ (.string :: .string :: .string :: paint (.root :: stk) r) := by
  have := paint_rule (stk := stk) (st := .root) (u := q%"{{{") (r := t ++ (q%"}}}" ++ r)) (rule := ⟨fixed q%"{{{", .string, .push .verbatim⟩)
    (List.cons_ne_nil _ _) (by
      rw [lexRules, firstRule_miss (many1_miss (by decide)), firstRule_hit (k := 2) (fixed_hit q%"{{{" (t ++ (q%"}}}" ++ r)))]
      rfl)
  rw [this]
  show _ ++ paint (.verbatim :: .root :: stk) _ = _
  rw [paint_verb r t h1 h2]
  rfl

/-! ### Comments -/

theorem paint_cmt {stk : List LexState} {c : Char} {s : Str} (h1 : ¬ (c = '-' ∧ s.head? = some '}')) (h2 : ¬ (c = '{' ∧ s.head? = some '-')) :
    paint (.comment :: stk) (c :: s) = .comment :: paint (.comment :: stk) s := by
  cases hc : (c == '-' || c == '{' || c == '}') with
  | false =>
    refine paint_run (p := fun c => !(c == '-' || c == '{' || c == '}')) (fun c s h => ?_) (by rw [hc]; rfl) s
    rw [lexRules, firstRule_hit (many1_hit h), many1_hit h]
  | true =>
    have e1 : fixed q%"{-" (c :: s) = 0 := by
      rw [fixed, if_neg]
      intro h
      obtain ⟨v, hv⟩ := List.isPrefixOf_iff_prefix.1 h
      obtain ⟨a, b⟩ := List.cons.inj hv
      exact h2 ⟨a.symm, by rw [← b]; rfl⟩
    have e2 : fixed q%"-}" (c :: s) = 0 := by
      rw [fixed, if_neg]
      intro h
      obtain ⟨v, hv⟩ := List.isPrefixOf_iff_prefix.1 h
      obtain ⟨a, b⟩ := List.cons.inj hv
      exact h1 ⟨a.symm, by rw [← b]; rfl⟩
    refine paint_rule (u := [c]) (rule := ⟨single fun c => c == '-' || c == '{' || c == '}', .comment, .stay⟩) (List.cons_ne_nil _ _) ?_
    rw [List.singleton_append, lexRules, firstRule_miss (many1_miss (by simp only [hc]; rfl)), firstRule_miss e1, firstRule_miss e2,
      firstRule_hit (k := 0) (by simp only [single, hc, if_true])]
    rfl

theorem paint_uncmt {stk : List LexState} (r : Str) : paint (.comment :: stk) ('-' :: '}' :: r) = .comment :: .comment :: paint stk r :=
  paint_rule (stk := stk) (st := .comment) (u := q%"-}") (r := r) (rule := ⟨fixed q%"-}", .comment, .pop⟩) (List.cons_ne_nil _ _) rfl

theorem paint_nest {stk : List LexState} (r : Str) :
    paint (.comment :: stk) ('{' :: '-' :: r) = .comment :: .comment :: paint (.comment :: .comment :: stk) r :=
  paint_rule (stk := stk) (st := .comment) (u := q%"{-") (r := r) (rule := ⟨fixed q%"{-", .comment, .again⟩) (List.cons_ne_nil _ _) (by
    rw [lexRules, firstRule_miss (many1_miss (by decide)), firstRule_hit (k := 1) (fixed_hit q%"{-" r)]
    rfl)

theorem paint_blanks {stk : List LexState} (r : Str) : ∀ bl : Str, Src.allBlank bl →
    paint (.comment :: stk) (bl ++ r) = (bl.map fun _ => Hue.comment) ++ paint (.comment :: stk) r
  | [], _ => rfl
  | c :: bl, h => by
    have hc : c = ' ' ∨ c = '\t' := by
      have := h c List.mem_cons_self
      simpa [Src.isBlank] using this
    rw [List.cons_append, paint_cmt, paint_blanks r bl fun d hd => h d (List.mem_cons_of_mem _ hd)]
    · rfl
    · rintro ⟨rfl, _⟩
      exact absurd hc (by decide)
    · rintro ⟨rfl, _⟩
      exact absurd hc (by decide)

theorem head_append (a b : Str) (c d : Char) : (a ++ c :: d :: b).head? = (a ++ [c, d]).head? := by
  cases a <;> rfl

theorem paint_body : ∀ (b : Src.CBody) (stk : List LexState) (r : Str), b.ok →
    paint (.comment :: stk) (b.print ++ '-' :: '}' :: r) = (b.print.map fun _ => Hue.comment) ++ (.comment :: .comment :: paint stk r)
  | .nil, stk, r, _ => by
    rw [Src.CBody.print]
    exact paint_uncmt r
  | .char c b, stk, r, h => by
    rw [Src.CBody.ok] at h
    rw [Src.CBody.print, List.cons_append, paint_cmt, paint_body b stk r h.1]
    · rfl
    · rw [head_append]; exact h.2.1
    · rw [head_append]; exact h.2.2
  | .nest bl i b, stk, r, h => by
    rw [Src.CBody.ok] at h
    rw [Src.CBody.print, List.append_assoc, paint_blanks _ bl h.1, List.cons_append, List.cons_append, paint_nest, List.append_assoc,
      List.cons_append, List.cons_append, paint_body i _ _ h.2.1, paint_body b stk r h.2.2]
    simp

theorem paint_comment {stk : List LexState} (b : Src.CBody) (r : Str) (h : b.ok) :
    paint (.root :: stk) (q%"{-" ++ (b.print ++ (q%"-}" ++ r))) =
      .comment :: .comment :: (b.print.map fun _ => Hue.comment) ++ (.comment :: .comment :: paint (.root :: stk) r) := by
  have := paint_rule (stk := stk) (st := .root) (u := q%"{-") (r := b.print ++ (q%"-}" ++ r)) (rule := ⟨fixed q%"{-", .comment, .push .comment⟩)
    (List.cons_ne_nil _ _) (by
      have e1 : ∀ s, fixed q%"{{{" ('{' :: '-' :: s) = 0 := by
        intro s
        rw [fixed, if_neg]
        intro h
        obtain ⟨v, hv⟩ := List.isPrefixOf_iff_prefix.1 h
        cases hv
      rw [lexRules, firstRule_miss (many1_miss (by decide)), firstRule_miss (e1 (b.print ++ (q%"-}" ++ r))), firstRule_hit (k := 1) (fixed_hit q%"{-" (b.print ++ (q%"-}" ++ r)))]
      rfl)
  rw [this]
  show _ ++ paint (.comment :: .root :: stk) (b.print ++ '-' :: '}' :: r) = _
  rw [paint_body b _ r h]
  rfl

/-- A part of code where it should be. -/
theorem paint_lexeme {stk : List LexState} {u : Str} : ∀ {l : Lexeme}, l.Sits u →
    paint (.root :: stk) (l.print ++ u) = (l.print.map fun _ => l.hue) ++ paint (.root :: stk) u
  | .text s, h => paint_texts u s h
  | .esc c, h => paint_esc h.1 h.2
  | .call fn, h => paint_call h.1 h.2.1 h.2.2
  | .opn, h => paint_open h.1 h.2
  | .cls, _ => paint_close u
  | .verb t, h => by
    rw [Lexeme.print, List.append_assoc, List.append_assoc, paint_verbatim t u h.1 h.2]
    simp [Lexeme.hue]
  | .cmt b, h => by
    rw [Lexeme.print, List.append_assoc, List.append_assoc, paint_comment b u h]
    simp [Lexeme.hue]

end Booklit
