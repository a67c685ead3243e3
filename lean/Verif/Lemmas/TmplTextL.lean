import Verif.Spec.TmplText

/-!
Templates are read as they are written (C100).
-/

namespace Booklit.Tmpl

open Booklit

/-! ### Tokens -/

theorem name_not_space {c : Char} (h : isName c = true) : isSpace c = false := by
  rw [Bool.eq_false_iff]
  intro h'
  simp only [isSpace, Bool.or_eq_true, decide_eq_true_eq] at h'
  rcases h' with ((rfl | rfl) | rfl) | rfl <;> simp [isName] at h <;> revert h <;> decide

theorem takeWhile_append {p : Char → Bool} {s r : Str} (h : ∀ c ∈ s, p c = true) (hr : ∀ c, r.head? = some c → p c = false) :
    (s ++ r).takeWhile p = s ∧ (s ++ r).dropWhile p = r := by
  induction s with
  | nil =>
    cases r with
    | nil => simp
    | cons c r => simp [hr c rfl]
  | cons c s ih =>
    have hc := h c (by simp)
    obtain ⟨h1, h2⟩ := ih fun d hd => h d (List.mem_cons_of_mem _ hd)
    simp [hc, h1, h2]

/-- After the end of a token there is no name and no field. -/
theorem Cuts.name {s : Str} (h : Cuts s) : ∀ c, s.head? = some c → isName c = false := by
  intro c hc
  rcases h c hc with h | rfl | rfl | rfl
  · rw [Bool.eq_false_iff]
    intro hn
    rw [name_not_space hn] at h
    cases h
  all_goals decide

theorem Cuts.dot {s : Str} (h : Cuts s) : ∀ c, s.head? = some c → c ≠ '.' := by
  intro c hc
  rcases h c hc with h | rfl | rfl | rfl
  · rintro rfl
    revert h; decide
  all_goals decide

theorem readFields_none {n : Nat} {s : Str} (h : ∀ c, s.head? = some c → c ≠ '.') : readFields n s = ([], s) := by
  cases n with
  | zero => rfl
  | succ n =>
    cases s with
    | nil => rfl
    | cons c s =>
      have := h c rfl
      unfold readFields
      split
      · next heq => cases heq; exact absurd rfl this
      · rfl

theorem flat_head {fs : List Str} {s : Str} (hs : Cuts s) : ∀ c, (fs.flatMap ('.' :: ·) ++ s).head? = some c → isName c = false := by
  cases fs with
  | nil => exact hs.name
  | cons f fs =>
    intro c hc
    simp only [List.flatMap_cons, List.cons_append, List.head?_cons, Option.some.injEq] at hc
    subst hc
    decide

theorem readFields_flat {n : Nat} {s : Str} (hs : Cuts s) : ∀ {fs : List Str}, fs.length ≤ n → (∀ f ∈ fs, NameOk f) →
    readFields n (fs.flatMap ('.' :: ·) ++ s) = (fs, s) := by
  intro fs
  induction fs generalizing n with
  | nil => intro _ _; exact readFields_none hs.dot
  | cons f fs ih =>
    intro hl hf
    cases n with
    | zero => simp at hl
    | succ n =>
      obtain ⟨h1, h2⟩ := takeWhile_append (p := isName) (s := f) (r := fs.flatMap ('.' :: ·) ++ s) (hf f (by simp)).2 (flat_head hs)
      have e : (f :: fs).flatMap ('.' :: ·) ++ s = '.' :: (f ++ (fs.flatMap ('.' :: ·) ++ s)) := by simp
      rw [e, readFields, h1, h2, if_neg (hf f (by simp)).1, ih (by simpa using hl) fun g hg => hf g (List.mem_cons_of_mem _ hg)]

theorem flat_length (fs : List Str) : fs.length ≤ (fs.flatMap ('.' :: ·)).length := by
  induction fs with
  | nil => simp
  | cons f fs ih => simp only [List.flatMap_cons, List.length_append, List.length_cons]; omega

theorem readString_quoted (s r : Str) : readString (s.flatMap Tok.text.quoted ++ '"' :: r) = some (s, r) := by
  induction s with
  | nil => rw [List.flatMap_nil, List.nil_append, readString]
  | cons c s ih =>
    rw [List.flatMap_cons, List.append_assoc]
    rw [Tok.text.quoted]
    by_cases h1 : c = '\n'
    · subst h1
      rw [if_pos rfl]
      show readString ('\\' :: 'n' :: (s.flatMap Tok.text.quoted ++ '"' :: r)) = _
      rw [readString, ih]; rfl
    · rw [if_neg h1]
      by_cases h2 : c = '"'
      · subst h2
        rw [if_pos rfl]
        show readString ('\\' :: '"' :: (s.flatMap Tok.text.quoted ++ '"' :: r)) = _
        rw [readString, ih]; rfl
      · rw [if_neg h2]
        by_cases h3 : c = '\\'
        · subst h3
          rw [if_pos rfl]
          show readString ('\\' :: '\\' :: (s.flatMap Tok.text.quoted ++ '"' :: r)) = _
          rw [readString, ih]; rfl
        · rw [if_neg h3]
          show readString (c :: (s.flatMap Tok.text.quoted ++ '"' :: r)) = _
          rw [readString.eq_def]
          split <;> simp_all

theorem tokens_cons (n : Nat) (c : Char) (cs : Str) : tokens (n + 1) (c :: cs) =
    if isSpace c then tokens n cs
    else if c = '(' then (tokens n cs).map (.lparen :: ·)
    else if c = ')' then (tokens n (readFields n cs).2).map (.rparen (readFields n cs).1 :: ·)
    else if c = '|' then (tokens n cs).map (.pipe :: ·)
    else if c = ',' then (tokens n cs).map (.comma :: ·)
    else if c = ':' then
      match cs with
      | '=' :: ds => (tokens n ds).map (.declare :: ·)
      | _ => none
    else if c = '`' then (breakOn ['`'] cs).bind fun p => (tokens n p.2).map (.str p.1 :: ·)
    else if c = '"' then (readString cs).bind fun p => (tokens n p.2).map (.str p.1 :: ·)
    else if c = '.' then
      if (readFields (n + 1) (c :: cs)).1 = [] then (tokens n cs).map (.dot :: ·)
      else (tokens n (readFields (n + 1) (c :: cs)).2).map (.fields (readFields (n + 1) (c :: cs)).1 :: ·)
    else if c = '$' then
      (tokens n (readFields n (cs.dropWhile isName)).2).map
        (.var (cs.takeWhile isName) (readFields n (cs.dropWhile isName)).1 :: ·)
    else if '0' ≤ c && c ≤ '9' then
      (tokens n ((c :: cs).dropWhile isName)).map (.num (readNum ((c :: cs).takeWhile isName)) :: ·)
    else if isName c then (tokens n ((c :: cs).dropWhile isName)).map (.ident ((c :: cs).takeWhile isName) :: ·)
    else none := by
  conv => lhs; unfold tokens
  rfl

theorem tokens_spaces {sp s : Str} (h : ∀ c ∈ sp, isSpace c = true) : ∀ {n : Nat}, (sp ++ s).length ≤ n → tokens n (sp ++ s) = tokens (n - sp.length) s := by
  induction sp with
  | nil => intro n _; rfl
  | cons c sp ih =>
    intro n hn
    cases n with
    | zero => simp at hn
    | succ n =>
      rw [List.cons_append, tokens_cons, if_pos (h c (by simp)), ih (fun d hd => h d (List.mem_cons_of_mem _ hd)) (by simpa using hn)]
      congr 1
      simp

theorem digit_facts {c : Char} (h : c.isDigit = true) : isName c = true ∧ ('0' ≤ c && c ≤ '9') = true := by
  simp only [Char.isDigit, Bool.and_eq_true, decide_eq_true_eq] at h
  have : ('0' ≤ c && c ≤ '9') = true := by
    simp only [Bool.and_eq_true, decide_eq_true_eq]
    exact h
  exact ⟨by rw [isName, this]; simp, this⟩

/-- What no character of a name is. -/
theorem name_facts {c : Char} (h : isName c = true) : isSpace c = false ∧ c ≠ '(' ∧ c ≠ ')' ∧ c ≠ '|' ∧ c ≠ ',' ∧ c ≠ ':' ∧ c ≠ '`' ∧ c ≠ '"' ∧ c ≠ '.' ∧
    c ≠ '$' ∧ c ≠ '-' ∧ c ≠ '/' := by
  refine ⟨name_not_space h, ?_, ?_, ?_, ?_, ?_, ?_, ?_, ?_, ?_, ?_, ?_⟩ <;> (rintro rfl; revert h; decide)

theorem readNum_digits (n : Nat) : readNum (Nat.toDigits 10 n) = n := by
  have : ∀ (ds : List Char) (m : Nat), ds.foldl (fun n c => 10 * n + (c.toNat - 48)) m = Nat.ofDigitChars 10 ds m := fun ds m => rfl
  rw [readNum, this]
  exact Nat.ofDigitChars_ten_toDigits

/-- One token. -/
theorem tokens_one {t : Tok} (ht : t.Ok) {s : Str} {ts : List Tok} (hs : t.open_ = true → Cuts s) (ih : ∀ n, s.length ≤ n → tokens n s = some ts) :
    ∀ n, (t.text ++ s).length ≤ n → tokens n (t.text ++ s) = some (t :: ts) := by
  intro n hn
  cases t with
  | ident w =>
    obtain ⟨⟨h1, h2⟩, h3⟩ := ht
    cases w with
    | nil => exact absurd rfl h1
    | cons c w =>
      cases n with
      | zero => simp [Tok.text] at hn
      | succ n =>
        obtain ⟨t1, t2⟩ := takeWhile_append (p := isName) (s := c :: w) (r := s) h2 (hs rfl).name
        have hc := h2 c (by simp)
        obtain ⟨f0, f1, f2, f3, f4, f5, f6, f7, f8, f9, -, -⟩ := name_facts hc
        have hd := h3 c rfl
        simp only [Tok.text, List.length_append, List.length_cons] at hn
        rw [List.cons_append] at t1 t2
        simp only [Tok.text, List.cons_append, tokens_cons, f0, f1, f2, f3, f4, f5, f6, f7, f8, f9, hc, if_false, Bool.false_eq_true, t1, t2, if_true]
        rw [if_neg (by simpa using hd), ih n (by omega)]
        rfl
  | dot =>
    cases n with
    | zero => simp [Tok.text] at hn
    | succ n =>
      simp only [Tok.text, List.length_append, List.length_cons, List.length_nil] at hn
      have e : readFields (n + 1) ('.' :: s) = ([], '.' :: s) := by
        rw [readFields, if_pos]
        have := (takeWhile_append (p := isName) (s := []) (r := s) (by simp) (hs rfl).name).1
        exact this
      show tokens (n + 1) ('.' :: s) = _
      rw [tokens_cons]
      simp only [show isSpace '.' = false by decide, e, show ('.' : Char) ≠ '(' by decide, show ('.' : Char) ≠ ')' by decide, show ('.' : Char) ≠ '|' by decide,
        show ('.' : Char) ≠ ',' by decide, show ('.' : Char) ≠ ':' by decide, show ('.' : Char) ≠ '`' by decide, show ('.' : Char) ≠ '"' by decide, if_false,
        Bool.false_eq_true, if_true]
      rw [ih n (by omega)]
      rfl
  | fields fs =>
    obtain ⟨h1, h2⟩ := ht
    cases n with
    | zero =>
      cases fs with
      | nil => exact absurd rfl h1
      | cons f fs => simp [Tok.text] at hn
    | succ n =>
      have hl := flat_length fs
      simp only [Tok.text, List.length_append] at hn
      have e := readFields_flat (n := n + 1) (hs rfl) (fs := fs) (by omega) h2
      cases fs with
      | nil => exact absurd rfl h1
      | cons f fs =>
        have e0 : Tok.text (.fields (f :: fs)) ++ s = '.' :: (f ++ (fs.flatMap ('.' :: ·) ++ s)) := by simp [Tok.text]
        rw [show (f :: fs).flatMap ('.' :: ·) ++ s = '.' :: (f ++ (fs.flatMap ('.' :: ·) ++ s)) by simp] at e
        rw [e0, tokens_cons]
        simp only [show isSpace '.' = false by decide, e, show ('.' : Char) ≠ '(' by decide, show ('.' : Char) ≠ ')' by decide, show ('.' : Char) ≠ '|' by decide,
          show ('.' : Char) ≠ ',' by decide, show ('.' : Char) ≠ ':' by decide, show ('.' : Char) ≠ '`' by decide, show ('.' : Char) ≠ '"' by decide, if_false,
          Bool.false_eq_true, if_true, reduceCtorEq]
        rw [ih n (by simp only [List.flatMap_cons, List.length_append, List.length_cons] at hn; omega)]
        rfl
  | var x fs =>
    obtain ⟨h1, h2⟩ := ht
    cases n with
    | zero => simp [Tok.text] at hn
    | succ n =>
      have hl := flat_length fs
      simp only [Tok.text, List.length_append, List.length_cons, List.cons_append] at hn
      have e := readFields_flat (n := n) (hs rfl) (fs := fs) (by omega) h2
      obtain ⟨t1, t2⟩ := takeWhile_append (p := isName) (s := x) (r := fs.flatMap ('.' :: ·) ++ s) h1 (flat_head (hs rfl))
      have e0 : Tok.text (.var x fs) ++ s = '$' :: (x ++ (fs.flatMap ('.' :: ·) ++ s)) := by simp [Tok.text]
      rw [e0, tokens_cons]
      simp only [show isSpace '$' = false by decide, t1, t2, e, show ('$' : Char) ≠ '(' by decide, show ('$' : Char) ≠ ')' by decide, show ('$' : Char) ≠ '|' by decide,
        show ('$' : Char) ≠ ',' by decide, show ('$' : Char) ≠ ':' by decide, show ('$' : Char) ≠ '`' by decide, show ('$' : Char) ≠ '"' by decide, if_false,
        Bool.false_eq_true, if_true, show ('$' : Char) ≠ '.' by decide]
      rw [ih n (by omega)]
      rfl
  | str w =>
    cases n with
    | zero => simp [Tok.text] at hn
    | succ n =>
      simp only [Tok.text, List.length_append, List.length_cons, List.cons_append, List.length_nil] at hn
      have e0 : Tok.text (.str w) ++ s = '"' :: (w.flatMap Tok.text.quoted ++ '"' :: s) := by simp [Tok.text]
      rw [e0, tokens_cons]
      simp only [show isSpace '"' = false by decide, show ('"' : Char) ≠ '(' by decide, show ('"' : Char) ≠ ')' by decide, show ('"' : Char) ≠ '|' by decide,
        show ('"' : Char) ≠ ',' by decide, show ('"' : Char) ≠ ':' by decide, show ('"' : Char) ≠ '`' by decide, if_false, Bool.false_eq_true, if_true]
      rw [readString_quoted]
      show (tokens n s).map _ = _
      rw [ih n (by omega)]
      rfl
  | num k =>
    have hd : ∀ c ∈ Nat.toDigits 10 k, c.isDigit = true := fun c hc => Nat.isDigit_of_mem_toDigits (by decide) (by decide) hc
    cases hk : Nat.toDigits 10 k with
    | nil => exact absurd hk Nat.toDigits_ne_nil
    | cons c ds =>
      cases n with
      | zero => simp [Tok.text, hk] at hn
      | succ n =>
        simp only [Tok.text, hk, List.length_append, List.length_cons] at hn
        obtain ⟨t1, t2⟩ := takeWhile_append (p := isName) (s := Nat.toDigits 10 k) (r := s) (fun c hc => (digit_facts (hd c hc)).1) (hs rfl).name
        have hc := digit_facts (hd c (by rw [hk]; simp))
        obtain ⟨f0, f1, f2, f3, f4, f5, f6, f7, f8, f9, -, -⟩ := name_facts hc.1
        rw [hk, List.cons_append] at t1 t2
        simp only [Tok.text, hk, List.cons_append, tokens_cons, f0, f1, f2, f3, f4, f5, f6, f7, f8, f9, hc.2, if_false, Bool.false_eq_true, t1, t2, if_true]
        rw [ih n (by omega), ← hk, readNum_digits]
        rfl
  | lparen =>
    cases n with
    | zero => simp [Tok.text] at hn
    | succ n =>
      simp only [Tok.text, List.length_append, List.length_cons, List.length_nil] at hn
      show tokens (n + 1) ('(' :: s) = _
      rw [tokens_cons]
      simp only [show isSpace '(' = false by decide, if_false, Bool.false_eq_true, if_true]
      rw [ih n (by omega)]
      rfl
  | rparen fs =>
    cases n with
    | zero => simp [Tok.text] at hn
    | succ n =>
      have hl := flat_length fs
      simp only [Tok.text, List.length_append, List.length_cons, List.cons_append] at hn
      have e := readFields_flat (n := n) (hs rfl) (fs := fs) (by omega) ht
      have e0 : Tok.text (.rparen fs) ++ s = ')' :: (fs.flatMap ('.' :: ·) ++ s) := by simp [Tok.text]
      rw [e0, tokens_cons]
      simp only [show isSpace ')' = false by decide, e, show (')' : Char) ≠ '(' by decide, if_false, Bool.false_eq_true, if_true]
      rw [ih n (by omega)]
      rfl
  | pipe =>
    cases n with
    | zero => simp [Tok.text] at hn
    | succ n =>
      simp only [Tok.text, List.length_append, List.length_cons, List.length_nil] at hn
      show tokens (n + 1) ('|' :: s) = _
      rw [tokens_cons]
      simp only [show isSpace '|' = false by decide, show ('|' : Char) ≠ '(' by decide, show ('|' : Char) ≠ ')' by decide, if_false, Bool.false_eq_true, if_true]
      rw [ih n (by omega)]
      rfl
  | comma =>
    cases n with
    | zero => simp [Tok.text] at hn
    | succ n =>
      simp only [Tok.text, List.length_append, List.length_cons, List.length_nil] at hn
      show tokens (n + 1) (',' :: s) = _
      rw [tokens_cons]
      simp only [show isSpace ',' = false by decide, show (',' : Char) ≠ '(' by decide, show (',' : Char) ≠ ')' by decide, show (',' : Char) ≠ '|' by decide, if_false,
        Bool.false_eq_true, if_true]
      rw [ih n (by omega)]
      rfl
  | declare =>
    cases n with
    | zero => simp [Tok.text] at hn
    | succ n =>
      simp only [Tok.text, List.length_append, List.length_cons, List.length_nil] at hn
      show tokens (n + 1) (':' :: '=' :: s) = _
      rw [tokens_cons]
      simp only [show isSpace ':' = false by decide, show (':' : Char) ≠ '(' by decide, show (':' : Char) ≠ ')' by decide, show (':' : Char) ≠ '|' by decide,
        show (':' : Char) ≠ ',' by decide, if_false, Bool.false_eq_true, if_true]
      rw [ih n (by omega)]
      rfl

/-- A text that spells tokens is read as these. -/
theorem tokens_spells {s : Str} {ts : List Tok} (h : Spells s ts) : ∀ n, s.length ≤ n → tokens n s = some ts := by
  induction h with
  | @nil sp hsp =>
    intro n hn
    have := tokens_spaces (s := []) hsp (n := n) (by simpa using hn)
    rw [List.append_nil] at this
    rw [this]
    cases n - sp.length <;> rfl
  | @cons sp s t ts hsp ht hs _ ih =>
    intro n hn
    rw [List.append_assoc] at hn ⊢
    rw [tokens_spaces hsp hn]
    refine tokens_one ht hs ih _ ?_
    rw [List.length_append] at hn
    omega

/-! ### Expressions -/

theorem chain_dotted (e : Expr) (fs : List Str) : Expr.chain e fs = e.dotted fs := by
  induction fs generalizing e with
  | nil => rfl
  | cons f fs ih => exact ih _

theorem given_nil (e : Expr) (fs : List Str) : Expr.given [] e fs = some (Expr.chain e fs) := by
  induction fs generalizing e with
  | nil => rfl
  | cons f fs ih =>
    cases fs with
    | nil => rfl
    | cons g fs => rw [Expr.given]; exact ih _; simp

theorem given_command {argops : List Operand} {piped : List Expr} {e e' : Expr} {fs : List Str}
    (h : Expr.given (argops.map Operand.arg ++ piped) e fs = some e') : command (.expr (Expr.chain e fs) :: argops) piped = some e' := by
  induction fs generalizing e with
  | nil =>
    rw [Expr.given] at h
    split at h
    · next hn =>
      cases h
      simp only [List.isEmpty_iff, List.append_eq_nil_iff, List.map_eq_nil_iff] at hn
      obtain ⟨rfl, rfl⟩ := hn
      show command [.expr e'] [] = some e'
      rw [command.eq_def]
      split
      · next heq => cases heq
      · next heq => cases heq
      · next heq => cases heq; rfl
      · next heq => cases heq; rfl
      · next heq => cases heq
    · cases h
  | cons f fs ih =>
    cases fs with
    | nil => cases h; rfl
    | cons g fs =>
      rw [Expr.given] at h
      · exact ih h
      · simp

/-- What the parser makes of an operand. -/
def OpReads (fns : List (Str × Fn)) (o : Op) (op : Operand) : Prop := ∀ args e, o.means fns args = some e →
  (∀ argops piped, args = argops.map Operand.arg ++ piped → command (op :: argops) piped = some e) ∧ (args = [] → op.arg = e)

theorem OpReads.of_given {fns : List (Str × Fn)} {o : Op} {e : Expr} {fs : List Str} (h : ∀ args, o.means fns args = Expr.given args e fs) :
    OpReads fns o (.expr (Expr.chain e fs)) := by
  intro args e' he
  rw [h] at he
  refine ⟨fun argops piped ha => given_command (ha ▸ he), fun ha => ?_⟩
  subst ha
  rw [given_nil] at he
  cases he
  rfl

theorem OpReads.of_paren {fns : List (Str × Fn)} {o : Op} {e : Expr} (h : ∀ args, o.means fns args = Expr.given args e []) :
    OpReads fns o (.paren e) := by
  intro args e' he
  rw [h, Expr.given] at he
  split at he
  · next hn =>
    cases he
    refine ⟨fun argops piped ha => ?_, fun _ => rfl⟩
    rw [ha] at hn
    simp only [List.isEmpty_iff, List.append_eq_nil_iff, List.map_eq_nil_iff] at hn
    obtain ⟨rfl, rfl⟩ := hn
    rfl
  · cases he

/-- What ends a command. -/
def Halts (rest : List Tok) : Prop := ∀ t, rest.head? = some t → t = .pipe ∨ (∃ fs, t = .rparen fs) ∨ t = .comma ∨ t = .declare

theorem halts_operands {fns : List (Str × Fn)} {n : Nat} {rest : List Tok} (h : Halts rest) : parseOperands fns (n + 1) rest = some ([], rest) := by
  rw [parseOperands.eq_def]
  cases rest with
  | nil => rfl
  | cons t rest => rcases h t rfl with rfl | ⟨fs, rfl⟩ | rfl | rfl <;> rfl

/-- What ends a pipeline. -/
def Stops (rest : List Tok) : Prop := ∀ t, rest.head? = some t → (∃ fs, t = .rparen fs) ∨ t = .comma ∨ t = .declare

theorem Stops.halts {rest : List Tok} (h : Stops rest) : Halts rest := fun t ht => .inr (h t ht)

theorem toks_pos (o : Op) : 1 ≤ o.toks.length := by cases o <;> simp [Op.toks]

theorem parsePipe_succ (fns : List (Str × Fn)) (n : Nat) (piped : List Expr) (ts : List Tok) : parsePipe fns (n + 1) piped ts =
    (parseOperands fns n ts).bind fun p => (command p.1 piped).bind fun e =>
      match p.2 with
      | .pipe :: rest => parsePipe fns n [e] rest
      | rest => some (e, rest) := by
  rw [parsePipe.eq_def]
  rfl

/-- The operands of a command. -/
inductive OpsRead (fns : List (Str × Fn)) : List Op → List Operand → Prop
  | nil : OpsRead fns [] []
  | cons {o : Op} {op : Operand} {os : List Op} {ops : List Operand} : OpReads fns o op → OpsRead fns os ops → OpsRead fns (o :: os) (op :: ops)

theorem OpsRead.args {fns : List (Str × Fn)} {os : List Op} {ops : List Operand} (h : OpsRead fns os ops) :
    ∀ {es : List Expr}, opsMean fns os = some es → ops.map Operand.arg = es := by
  induction h with
  | nil => intro es e; cases e; rfl
  | @cons o op os ops h1 _ ih =>
    intro es e
    rw [opsMean] at e
    obtain ⟨a, ha, e⟩ := Option.bind_eq_some_iff.1 e
    obtain ⟨as, has, e⟩ := Option.map_eq_some_iff.1 e
    subst e
    rw [List.map_cons, (h1 [] a ha).2 rfl, ih has]

mutual
theorem parse_op {fns : List (Str × Fn)} : ∀ (o : Op), o.ok = true → (∃ args e, o.means fns args = some e) →
    ∃ op, OpReads fns o op ∧ ∀ n rest, o.toks.length ≤ n →
      parseOperands fns (n + 1) (o.toks ++ rest) = (parseOperands fns n rest).map fun p => (op :: p.1, p.2)
  | .dot, _, _ => ⟨_, .of_given (e := .dot) (fs := []) fun _ => rfl, fun n rest _ => by
      rw [parseOperands.eq_def]; rfl⟩
  | .fields f fs, _, _ => ⟨_, .of_given (e := .dot) (fs := f :: fs) fun _ => rfl, fun n rest _ => by
      rw [parseOperands.eq_def]; rfl⟩
  | .var x fs, _, _ => ⟨_, .of_given (e := if x = [] then .root else .var x) (fs := fs) fun _ => rfl, fun n rest _ => by
      rw [parseOperands.eq_def]; rfl⟩
  | .str s, _, _ => ⟨_, .of_given (e := .str s) (fs := []) fun _ => rfl, fun n rest _ => by
      rw [parseOperands.eq_def]; rfl⟩
  | .num k, _, _ => ⟨_, .of_given (e := .num k) (fs := []) fun _ => rfl, fun n rest _ => by
      rw [parseOperands.eq_def]; rfl⟩
  | .bool b, _, _ => ⟨_, .of_paren (e := .ofBool b) fun _ => rfl, fun n rest _ => by
      rw [parseOperands.eq_def]; cases b <;> rfl⟩
  | .fn f, hok, ⟨args, e, he⟩ => by
    rw [Op.means] at he
    obtain ⟨p, hp, -⟩ := Option.map_eq_some_iff.1 he
    refine ⟨.fn p.2, fun args e he => ?_, fun n rest _ => ?_⟩
    · rw [Op.means, hp] at he
      cases he
      exact ⟨fun argops piped ha => by rw [ha]; rfl, fun ha => by rw [ha]; rfl⟩
    · rw [Op.ok, Bool.and_eq_true, bne_iff_ne, bne_iff_ne] at hok
      rw [parseOperands.eq_def]
      show (if _ then _ else _) = _
      rw [if_neg (fun h => h.elim hok.1 hok.2), hp]
      rfl
  | .paren cs fs, hok, ⟨args, e, he⟩ => by
    rw [Op.means] at he
    obtain ⟨x, hx, -⟩ := Option.bind_eq_some_iff.1 he
    have key : ∀ n rest, (Op.paren cs fs).toks.length ≤ n → parsePipe fns n [] (pipeToks cs ++ .rparen fs :: rest) = some (x, .rparen fs :: rest) := by
      intro n rest hn
      refine parse_pipe cs none [] (by rwa [Op.ok] at hok) hx rfl n _ (fun t ht => .inl ⟨fs, by cases ht; rfl⟩) ?_
      simp only [Op.toks, List.length_append, List.length_cons, List.length_nil] at hn
      omega
    have e0 : ∀ rest, (Op.paren cs fs).toks ++ rest = .lparen :: (pipeToks cs ++ .rparen fs :: rest) := by
      intro rest; simp [Op.toks]
    have hm : ∀ args, (Op.paren cs fs).means fns args = Expr.given args x fs := by
      intro args; rw [Op.means, hx]; rfl
    cases fs with
    | nil =>
      refine ⟨.paren x, .of_paren hm, fun n rest hn => ?_⟩
      rw [e0, parseOperands.eq_def]
      dsimp only
      rw [key n rest hn]
      rfl
    | cons f fs =>
      refine ⟨_, .of_given hm, fun n rest hn => ?_⟩
      rw [e0, parseOperands.eq_def]
      dsimp only
      rw [key n rest hn]
      rfl
theorem parse_ops {fns : List (Str × Fn)} : ∀ (os : List Op), opsOk os = true → (∃ es, opsMean fns os = some es) →
    ∃ ops, OpsRead fns os ops ∧ ∀ n rest, Halts rest → (opsToks os).length + 1 ≤ n → parseOperands fns n (opsToks os ++ rest) = some (ops, rest)
  | [], _, _ => ⟨[], .nil, fun n rest hr hn => by
      cases n with
      | zero => simp at hn
      | succ n => exact halts_operands hr⟩
  | o :: os, hok, ⟨es, he⟩ => by
    rw [opsMean] at he
    obtain ⟨a, ha, he⟩ := Option.bind_eq_some_iff.1 he
    obtain ⟨as, has, -⟩ := Option.map_eq_some_iff.1 he
    rw [opsOk, Bool.and_eq_true] at hok
    obtain ⟨op, h1, h2⟩ := parse_op o hok.1 ⟨_, _, ha⟩
    obtain ⟨ops, h3, h4⟩ := parse_ops os hok.2 ⟨_, has⟩
    refine ⟨op :: ops, .cons h1 h3, fun n rest hr hn => ?_⟩
    rw [opsToks, List.length_append] at hn
    have := toks_pos o
    cases n with
    | zero => omega
    | succ n =>
      rw [opsToks, List.append_assoc, h2 n _ (by omega), h4 n rest hr (by omega)]
      rfl
theorem parse_pipe {fns : List (Str × Fn)} : ∀ (cs : List (List Op)) (before : Option Expr) (piped : List Expr), pipeOk cs = true →
    ∀ {e : Expr}, pipeMeans fns before cs = some e → before.toList = piped → ∀ n rest, Stops rest → (pipeToks cs).length + 2 ≤ n →
      parsePipe fns n piped (pipeToks cs ++ rest) = some (e, rest)
  | [], _, _, hok, _, _, _, _, _, _, _ => by cases hok
  | [] :: cs, _, _, hok, _, _, _, _, _, _, _ => by cases cs <;> simp [pipeOk] at hok
  | (o :: os) :: cs, before, piped, hok, e, he, hb, n, rest, hr, hn => by
    rw [pipeMeans] at he
    obtain ⟨es, hes, he⟩ := Option.bind_eq_some_iff.1 he
    obtain ⟨x, hx, he⟩ := Option.bind_eq_some_iff.1 he
    have hok1 : o.ok = true ∧ opsOk os = true := by
      cases cs <;> simp only [pipeOk, opsOk, Bool.and_eq_true] at hok
      · exact hok.2
      · exact hok.1.2
    obtain ⟨op, h1, h2⟩ := parse_op o hok1.1 ⟨_, _, hx⟩
    obtain ⟨ops, h3, h4⟩ := parse_ops os hok1.2 ⟨_, hes⟩
    have hcmd : command (op :: ops) piped = some x := (h1 _ _ hx).1 ops piped (by rw [h3.args hes, hb])
    have hpos := toks_pos o
    obtain ⟨n, rfl⟩ : ∃ m, n = m + 2 := ⟨n - 2, by omega⟩
    cases cs with
    | nil =>
      rw [pipeMeans] at he
      cases he
      rw [pipeToks, opsToks, List.length_append] at hn
      rw [pipeToks, opsToks, List.append_assoc, parsePipe_succ, h2 n _ (by omega), h4 n rest hr.halts (by omega)]
      show (command (op :: ops) piped).bind _ = _
      rw [hcmd]
      cases rest with
      | nil => rfl
      | cons t rest => rcases hr t rfl with ⟨fs, rfl⟩ | rfl | rfl <;> rfl
    | cons c cs =>
      have hok2 : pipeOk (c :: cs) = true := by
        simp only [pipeOk, Bool.and_eq_true] at hok
        exact hok.2
      have := parse_pipe (c :: cs) (some x) [x] hok2 he rfl (n + 1) rest hr (by
        simp only [pipeToks, opsToks, List.length_append, List.length_cons] at hn ⊢
        omega)
      rw [pipeToks, opsToks, List.length_append, List.length_append, List.length_cons] at hn
      · rw [pipeToks, opsToks, parsePipe_succ]
        · rw [show (o.toks ++ opsToks os ++ Tok.pipe :: pipeToks (c :: cs)) ++ rest = o.toks ++ (opsToks os ++ .pipe :: (pipeToks (c :: cs) ++ rest)) by simp,
            h2 n _ (by omega), h4 n _ (fun t ht => .inl (by cases ht; rfl)) (by omega)]
          show (command (op :: ops) piped).bind _ = _
          rw [hcmd]
          exact this
        · simp
      · simp
end

theorem parseExpr_pipe {fns : List (Str × Fn)} {cs : List (List Op)} (hok : pipeOk cs = true) {e : Expr} (h : pipeMeans fns none cs = some e) :
    parseExpr fns (pipeToks cs) = some e := by
  have := parse_pipe cs none [] hok h rfl (2 * (pipeToks cs).length + 2) [] (fun t ht => by cases ht) (by omega)
  rw [List.append_nil] at this
  rw [parseExpr, this]

end Booklit.Tmpl
