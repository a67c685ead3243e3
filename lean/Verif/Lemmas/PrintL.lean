import Verif.Lemmas.ReportL

/-!
Reports on the terminal.
-/

namespace Booklit

theorem Ended.nil : Ended [] := .inl rfl

theorem Ended.line (l : List Byte) : Ended (l ++ [10]) := .inr (by simp)

theorem Ended.append {a b : List Byte} (ha : Ended a) (hb : Ended b) : Ended (a ++ b) := by
  rcases hb with rfl | hb
  · rw [List.append_nil]; exact ha
  · exact .inr (by rw [List.getLast?_append, hb]; rfl)

theorem Ended.after {a b : List Byte} (hb : b.getLast? = some 10) : Ended (a ++ b) :=
  .inr (by rw [List.getLast?_append, hb]; rfl)

theorem brokenUp_line (cur l rest : List Byte) (h : 10 ∉ l) :
    brokenUp cur (l ++ 10 :: rest) = ((cur ++ l) :: (brokenUp [] rest).1, (brokenUp [] rest).2) := by
  induction l generalizing cur with
  | nil => simp [brokenUp]
  | cons b l ih =>
    simp only [List.mem_cons, not_or] at h
    rw [List.cons_append, brokenUp, if_neg (Ne.symm h.1), ih _ h.2]
    simp

/-- Text that ends with a line feed, or is empty, is a list of lines. -/
theorem Ended.lines {a : List Byte} (h : Ended a) : ∃ ls : List (List Byte), a = ls.flatMap (· ++ [10]) ∧ ∀ l ∈ ls, 10 ∉ l := by
  have key : ∀ (n : Nat) (a : List Byte), a.length ≤ n → Ended a →
      ∃ ls : List (List Byte), a = ls.flatMap (· ++ [10]) ∧ ∀ l ∈ ls, 10 ∉ l := by
    intro n
    induction n with
    | zero =>
      intro a ha _
      exact ⟨[], by simpa using ha, by simp⟩
    | succ n ih =>
      intro a ha h
      by_cases h0 : a = []
      · exact ⟨[], by simpa using h0, by simp⟩
      · have h := h.resolve_left h0
        cases hc : cutLine a with
        | none => exact absurd (List.mem_of_mem_getLast? h) (cutLine_no hc)
        | some l =>
          obtain ⟨hl, r, rfl⟩ := cutLine_cut hc
          have hr : Ended r := by
            by_cases hr0 : r = []
            · exact .inl hr0
            · right
              rw [List.getLast?_append] at h
              cases r with
              | nil => exact absurd rfl hr0
              | cons x xs =>
                rw [List.getLast?_cons_cons] at h
                cases hx : (x :: xs).getLast? with
                | none => simp at hx
                | some y => rw [hx] at h; simpa using h
          obtain ⟨ls, rfl, hls⟩ := ih r (by simp at ha; omega) hr
          refine ⟨l :: ls, by simp, fun x hx => ?_⟩
          rcases List.mem_cons.1 hx with rfl | hx
          · exact hl
          · exact hls x hx
  exact key _ a (Nat.le_refl _) h

theorem brokenUp_lines {ls : List (List Byte)} (h : ∀ l ∈ ls, 10 ∉ l) : brokenUp [] (ls.flatMap (· ++ [10])) = (ls, []) := by
  induction ls with
  | nil => rfl
  | cons l ls ih =>
    rw [List.flatMap_cons, List.append_assoc, List.singleton_append, brokenUp_line _ _ _ (h l (by simp)),
      ih fun x hx => h x (by simp [hx])]
    rfl

theorem indented_lines {ls : List (List Byte)} (h : ∀ l ∈ ls, 10 ∉ l) :
    indented (ls.flatMap (· ++ [10])) = ls.flatMap fun l => [32, 32] ++ l ++ [10] := by
  rw [indented, brokenUp_lines h]

theorem indented_append {a b : List Byte} (ha : Ended a) (hb : Ended b) : indented (a ++ b) = indented a ++ indented b := by
  obtain ⟨la, rfl, ka⟩ := ha.lines
  obtain ⟨lb, rfl, kb⟩ := hb.lines
  rw [← List.flatMap_append, indented_lines (by
    intro l hl
    rcases List.mem_append.1 hl with hl | hl
    · exact ka l hl
    · exact kb l hl), indented_lines ka, indented_lines kb, List.flatMap_append]

theorem indented_line {l : List Byte} (h : 10 ∉ l) : indented (l ++ [10]) = [32, 32] ++ l ++ [10] := by
  have := indented_lines (ls := [l]) (by simpa using h)
  simpa using this

theorem indented_ended (a : List Byte) : Ended (indented a) := by
  unfold indented
  generalize (brokenUp [] a).1 = ls
  induction ls with
  | nil => exact .inl rfl
  | cons l ls ih => rw [List.flatMap_cons]; exact (Ended.line _).append ih

/-! Pairs of lines. -/

theorem PrintsBelow.here {k : Nat} {line below : List Byte} :
    PrintsBelow ((List.replicate k 32 ++ line ++ [10]) ++ (List.replicate k 32 ++ below ++ [10])) k line below :=
  ⟨[], [], by simp, .nil⟩

theorem PrintsBelow.left {r x line below : List Byte} {k : Nat} (h : PrintsBelow r k line below) : PrintsBelow (r ++ x) k line below := by
  obtain ⟨pre, post, rfl, hp⟩ := h
  exact ⟨pre, post ++ x, by simp, hp⟩

theorem PrintsBelow.right {r x line below : List Byte} {k : Nat} (h : PrintsBelow r k line below) (hx : Ended x) :
    PrintsBelow (x ++ r) k line below := by
  obtain ⟨pre, post, rfl, hp⟩ := h
  exact ⟨x ++ pre, post, by simp, hx.append hp⟩

theorem ended_rest {a b : List Byte} (h : Ended (a ++ b)) : Ended b := by
  by_cases h0 : b = []
  · exact .inl h0
  · right
    rcases h with h | h
    · simp at h; exact absurd h.2 h0
    · rw [List.getLast?_append] at h
      cases hb : b.getLast? with
      | none => simp at hb; exact absurd hb h0
      | some y => rw [hb] at h; simpa using h

theorem PrintsBelow.indent {r line below : List Byte} {k : Nat} (h : PrintsBelow r k line below) (hr : Ended r) (hl : 10 ∉ line)
    (hb : 10 ∉ below) : PrintsBelow (indented r) (k + 2) line below := by
  obtain ⟨pre, post, rfl, hp⟩ := h
  have sp : ∀ (l : List Byte), 10 ∉ l → 10 ∉ List.replicate k 32 ++ l := by
    intro l hl hm
    rcases List.mem_append.1 hm with hm | hm
    · exact absurd (List.eq_of_mem_replicate hm) (by decide)
    · exact hl hm
  have hr' := ended_rest (a := pre ++ (List.replicate k 32 ++ line ++ [10]) ++ (List.replicate k 32 ++ below ++ [10])) hr
  rw [indented_append ((hp.append (.line _)).append (.line _)) hr', indented_append (hp.append (.line _)) (.line _),
    indented_append hp (.line _), indented_line (sp line hl), indented_line (sp below hb)]
  refine ⟨indented pre, indented post, ?_, indented_ended pre⟩
  have : List.replicate (k + 2) (32 : Byte) = [32, 32] ++ List.replicate k 32 := by
    rw [List.replicate_succ, List.replicate_succ]
    rfl
  rw [this]
  simp only [List.append_assoc]

/-! Lines of files. -/

theorem readLine_no {bs l r : List Byte} (h : readLine bs = some (l, r)) : 10 ∉ l := by
  unfold readLine at h
  split at h
  · cases h
  · cases hc : cutLine (bs.take bufSize) with
    | some l' =>
      rw [hc] at h
      cases h
      obtain ⟨h1, _⟩ := cutLine_cut hc
      unfold dropCr
      split
      · exact fun hm => h1 (List.dropLast_subset _ hm)
      · exact h1
    | none =>
      have hn := cutLine_no hc
      rw [hc] at h
      dsimp only at h
      split at h
      · cases h
        rw [List.take_of_length_le (by omega)] at hn
        exact hn
      · split at h
        · cases h
          intro hm
          apply hn
          rw [show bs.take (bufSize - 1) = (bs.take bufSize).take (bufSize - 1) by
            rw [List.take_take, Nat.min_eq_left (by omega)]] at hm
          exact List.mem_of_mem_take hm
        · cases h
          exact hn

theorem lineInQuestion_no {bs t : List Byte} {n : Nat} (h : lineInQuestion bs n = some t) : 10 ∉ t := by
  unfold lineInQuestion at h
  cases hs : skipLines (n - 1) bs with
  | none => rw [hs] at h; cases h
  | some r =>
    rw [hs] at h
    dsimp only at h
    cases hr : readLine r with
    | none => rw [hr] at h; cases h; simp
    | some p => obtain ⟨l, r'⟩ := p; rw [hr] at h; cases h; exact readLine_no hr

theorem digitsOf_no : ∀ (k n : Nat), 10 ∉ digitsOf k n
  | 0, n => by simp [digitsOf]
  | k + 1, n => by
    rw [digitsOf]
    intro hm
    rcases List.mem_append.1 hm with hm | hm
    · split at hm
      · cases hm
      · exact digitsOf_no k _ hm
    · have := List.mem_singleton.1 hm
      unfold Byte at this
      omega

theorem gutter_no (n : Nat) : 10 ∉ gutter n := by
  unfold gutter lineno
  intro hm
  rcases List.mem_append.1 hm with hm | hm
  · dsimp only at hm
    rcases List.mem_append.1 hm with hm | hm
    · split at hm
      · exact absurd (List.eq_of_mem_replicate hm) (by decide)
      · simp at hm
    · exact digitsOf_no _ _ hm
  · simp at hm

theorem annotate_no {file : Option (List Byte)} {loc : Location} {len pad carets : Nat} {line : List Byte}
    (h : annotateLocation file loc len = .shown line pad carets) : 10 ∉ line := by
  unfold annotateLocation at h
  split at h
  · cases h
  · cases hf : (file.bind fun bs => lineInQuestion bs loc.line) with
    | none => rw [hf] at h; cases h
    | some t =>
      rw [hf] at h
      cases h
      cases file with
      | none => cases hf
      | some bs =>
        intro hm
        rcases List.mem_append.1 hm with hm | hm
        · exact gutter_no _ hm
        · exact lineInQuestion_no hf hm

theorem caretLine_no (pad n : Nat) : 10 ∉ caretLine pad n := by
  unfold caretLine
  intro hm
  simp only [List.mem_append] at hm
  rcases hm with ((hm | hm) | hm) | hm
  · exact absurd (List.eq_of_mem_replicate hm) (by decide)
  · revert hm; decide
  · exact absurd (List.eq_of_mem_replicate hm) (by decide)
  · revert hm; decide

/-! Reports. -/

theorem Spot.head_ended (sp : Spot) (msg : List Byte) : Ended (sp.head msg) := .after (by rfl)

theorem Spot.print_ended (M : Wording) (fs : Disk8) (sp : Spot) : Ended (sp.print M fs) := by
  unfold Spot.print
  split
  · exact .nil
  · exact .line _
  · exact .after (by rfl)

theorem Spot.print_shows {M : Wording} {fs : Disk8} {sp : Spot} {line : List Byte} {pad carets : Nat}
    (h : annotateLocation (fs sp.path) sp.loc sp.len = .shown line pad carets) :
    PrintsBelow (sp.print M fs) 0 line (caretLine pad carets) := by
  refine ⟨[], [], ?_, .nil⟩
  rw [Spot.print, h]
  dsimp only
  have : utf8 q%"\x1b[0m\n" = utf8 q%"\x1b[0m" ++ [10] := by decide
  rw [this]
  simp [caretLine]

theorem print_failed (M : Wording) (fs : Disk8) (fn : Str) (e : Err) (p : Str) (l : Location) : ∃ X,
    (Err.failed fn e p l).print M fs = (Err.failed fn e p l).spot.head (utf8 (q%"function \\" ++ fn ++ q%" returned an error"))
      ++ (Err.failed fn e p l).spot.print M fs ++ X ∧ Ended X ∧ (e.pretty = true → X = indented (e.print M fs)) := by
  cases e with
  | plain w =>
    refine ⟨_, by rw [Err.print], ?_, fun h => by cases h⟩
    exact .after (by decide)
  | _ =>
    refine ⟨indented (Err.print M fs _), ?_, indented_ended _, fun _ => rfl⟩
    rw [Err.print]
    first | rfl | (intro w h; cases h)

theorem Err.print_ended (M : Wording) (fs : Disk8) : ∀ e : Err, Ended (e.print M fs)
  | .plain w => by rw [Err.print]; exact .line _
  | .parse p l => by rw [Err.print]; exact (Spot.head_ended ..).append (Spot.print_ended ..)
  | .undefined fn p l => by rw [Err.print]; exact (Spot.head_ended ..).append (Spot.print_ended ..)
  | .failed fn e p l => by
    obtain ⟨X, e, h, _⟩ := print_failed M fs fn e p l
    rw [e]
    exact ((Spot.head_ended ..).append (Spot.print_ended ..)).append h
  | .titleTwice p first l => by rw [Err.print]; exact .after (by decide)
  | .unknownTag t known p l => by
    rw [Err.print]
    split
    · exact .after (by decide)
    · refine ((Spot.head_ended ..).append (Spot.print_ended ..)).append (.after (by decide))
  | .ambiguous t defined p l => by rw [Err.print]; exact .after (by decide)

theorem defined_ended {M : Wording} {fs : Disk8} (ds : List (Str × Location)) :
    Ended (ds.flatMap fun d => utf8 (q%"- " ++ d.1 ++ q%":\n") ++ indented ((Spot.mk d.1 d.2 0).print M fs)) := by
  induction ds with
  | nil => exact .nil
  | cons d ds ih =>
    rw [List.flatMap_cons]
    refine Ended.append (Ended.append ?_ (indented_ended _)) ih
    rw [utf8_append]
    exact .after (by decide)

theorem defined_shows {M : Wording} {fs : Disk8} {ds : List (Str × Location)} {d : Str × Location} (hd : d ∈ ds) {line : List Byte}
    {pad carets : Nat} (h : annotateLocation (fs d.1) d.2 0 = .shown line pad carets) :
    PrintsBelow (ds.flatMap fun d => utf8 (q%"- " ++ d.1 ++ q%":\n") ++ indented ((Spot.mk d.1 d.2 0).print M fs)) 2 line
      (caretLine pad carets) := by
  induction ds with
  | nil => cases hd
  | cons x ds ih =>
    rw [List.flatMap_cons]
    have hx : Ended (utf8 (q%"- " ++ x.1 ++ q%":\n")) := by
      rw [utf8_append]
      exact .after (by decide)
    rcases List.mem_cons.1 hd with rfl | hd
    · refine PrintsBelow.left (PrintsBelow.right ?_ hx)
      exact (Spot.print_shows (M := M) (sp := ⟨d.1, d.2, 0⟩) h).indent (Spot.print_ended ..) (annotate_no h) (caretLine_no pad carets)
    · exact (ih hd).right (hx.append (indented_ended _))

/-- Every place of an error is shown by its report. -/
theorem Err.print_shows (M : Wording) (fs : Disk8) : ∀ (e : Err), ∀ sp ∈ e.places, ∀ line pad carets,
    annotateLocation (fs sp.path) sp.loc sp.len = .shown line pad carets →
    ∃ k, PrintsBelow (e.print M fs) k line (caretLine pad carets)
  | .plain w, sp, hs, _, _, _, _ => by cases hs
  | .parse p l, sp, hs, line, pad, carets, h => by
    cases List.mem_singleton.1 hs
    rw [Err.print]
    exact ⟨0, (Spot.print_shows h).right (Spot.head_ended ..)⟩
  | .undefined fn p l, sp, hs, line, pad, carets, h => by
    cases List.mem_singleton.1 hs
    rw [Err.print]
    refine ⟨0, (Spot.print_shows (sp := (Err.undefined fn p l).spot) ?_).right (Spot.head_ended ..)⟩
    rw [← h]
    simp [Err.spot, utf8_cons, utf8Char]
  | .failed fn e p l, sp, hs, line, pad, carets, h => by
    rw [Err.places] at hs
    obtain ⟨X, hX, hE, hp⟩ := print_failed M fs fn e p l
    rw [hX]
    rcases List.mem_cons.1 hs with rfl | hs
    · refine ⟨0, PrintsBelow.left ((Spot.print_shows (sp := (Err.failed fn e p l).spot) ?_).right (Spot.head_ended ..))⟩
      rw [← h]
      simp [Err.spot, utf8_cons, utf8Char]
    · obtain ⟨k, hk⟩ := Err.print_shows M fs e sp hs line pad carets h
      have hi := hk.indent (Err.print_ended ..) (annotate_no h) (caretLine_no pad carets)
      refine ⟨k + 2, PrintsBelow.right ?_ ((Spot.head_ended ..).append (Spot.print_ended ..))⟩
      have : e.pretty = true := by
        cases e with
        | plain w => cases hs
        | _ => rfl
      rw [hp this]
      exact hi
  | .titleTwice p first l, sp, hs, line, pad, carets, h => by
    rw [Err.places] at hs
    rw [Err.print]
    refine ⟨0, PrintsBelow.left ?_⟩
    rcases List.mem_cons.1 hs with rfl | hs
    · exact PrintsBelow.left (PrintsBelow.left ((Spot.print_shows (sp := (Err.titleTwice p first l).spot) h).right (Spot.head_ended ..)))
    · cases List.mem_singleton.1 hs
      exact (Spot.print_shows (sp := ⟨p, first, 6⟩) h).right (.after (by decide))
  | .unknownTag t known p l, sp, hs, line, pad, carets, h => by
    cases List.mem_singleton.1 hs
    rw [Err.print]
    exact ⟨0, PrintsBelow.left ((Spot.print_shows (sp := (Err.unknownTag t known p l).spot) h).right (Spot.head_ended ..))⟩
  | .ambiguous t defined p l, sp, hs, line, pad, carets, h => by
    rw [Err.places] at hs
    rw [Err.print]
    rcases List.mem_cons.1 hs with rfl | hs
    · exact ⟨0, PrintsBelow.left (PrintsBelow.left (PrintsBelow.left
        ((Spot.print_shows (sp := (Err.ambiguous t defined p l).spot) h).right (Spot.head_ended ..))))⟩
    · obtain ⟨d, hd, rfl⟩ := List.mem_map.1 hs
      exact ⟨2, PrintsBelow.left ((defined_shows hd h).right (.after (by decide)))⟩

/-- The digits of numbers. -/
theorem digitsOf_eq : ∀ (k n : Nat), n < k → digitsOf k n = utf8 (decimal n)
  | 0, n, h => by omega
  | k + 1, n, h => by
    rw [digitsOf, decimal]
    have dig : ∀ d, d < 10 → utf8 [Nat.digitChar d] = [48 + d] := by decide
    by_cases hn : n < 10
    · rw [if_pos hn, Nat.toDigits_of_lt_base hn, dig n hn, Nat.mod_eq_of_lt hn]
      rfl
    · rw [if_neg hn, digitsOf_eq k (n / 10) (by omega), decimal, Nat.toDigits_of_base_le (b := 10) (n := n) (by omega) (by omega),
        utf8_append, dig _ (Nat.mod_lt _ (by omega))]

/-! Texts in reports. -/

theorem PrintsText.right {r x text : List Byte} (h : PrintsText r text) (hx : Ended x) : PrintsText (x ++ r) text := by
  obtain ⟨pre, post, rfl, hp⟩ := h
  exact ⟨x ++ pre, post, by simp, hx.append hp⟩

theorem PrintsText.left {r x text : List Byte} (h : PrintsText r text) : PrintsText (r ++ x) text := by
  obtain ⟨pre, post, rfl, hp⟩ := h
  exact ⟨pre, post ++ x, by simp, hp⟩

theorem PrintsText.self (r : List Byte) : PrintsText r r := ⟨[], [], by simp, .nil⟩

theorem head_eq (sp : Spot) (msg : List Byte) : sp.head msg =
    utf8 (sp.path ++ (if sp.loc.line = 0 then [] else ':' :: decimal sp.loc.line) ++ q%": ") ++ msg ++ [10, 10] := by
  unfold Spot.head
  rw [utf8_append, utf8_append, digitsOf_eq _ _ (Nat.lt_succ_self _)]
  have : utf8 q%": " = [58, 32] := by decide
  rw [this]
  congr 4
  split
  · rfl
  · rw [utf8_cons]; rfl

theorem listed {gs : List Str} {g : Str} (h : g ∈ gs) :
    PrintsText (gs.flatMap fun g => utf8 (q%"- " ++ g ++ q%"\n")) (utf8 (q%"- " ++ g ++ q%"\n")) := by
  induction gs with
  | nil => cases h
  | cons x gs ih =>
    rw [List.flatMap_cons]
    rcases List.mem_cons.1 h with rfl | h
    · exact (PrintsText.self _).left
    · refine (ih h).right ?_
      rw [utf8_append]
      exact .after (by decide)

theorem defined_listed {M : Wording} {fs : Disk8} {ds : List (Str × Location)} {d : Str × Location} (hd : d ∈ ds) {line : List Byte}
    {pad carets : Nat} (h : annotateLocation (fs d.1) d.2 0 = .shown line pad carets) :
    PrintsText (ds.flatMap fun d => utf8 (q%"- " ++ d.1 ++ q%":\n") ++ indented ((Spot.mk d.1 d.2 0).print M fs))
      (utf8 (q%"- " ++ d.1 ++ q%":\n") ++ [32, 32] ++ line ++ [10] ++ [32, 32] ++ caretLine pad carets ++ [10]) := by
  induction ds with
  | nil => cases hd
  | cons x ds ih =>
    rw [List.flatMap_cons]
    rcases List.mem_cons.1 hd with rfl | hd
    · have e : (Spot.mk d.1 d.2 0).print M fs = (line ++ [10]) ++ (caretLine pad carets ++ [10]) := by
        rw [Spot.print, h]
        dsimp only
        have : utf8 q%"\x1b[0m\n" = utf8 q%"\x1b[0m" ++ [10] := by decide
        rw [this]
        simp [caretLine]
      rw [e, indented_append (.line _) (.line _), indented_line (annotate_no h), indented_line (caretLine_no pad carets)]
      have := (PrintsText.self (utf8 (q%"- " ++ d.1 ++ q%":\n") ++ [32, 32] ++ line ++ [10] ++ [32, 32] ++ caretLine pad carets ++ [10])).left
        (x := ds.flatMap fun d => utf8 (q%"- " ++ d.1 ++ q%":\n") ++ indented ((Spot.mk d.1 d.2 0).print M fs))
      simpa only [List.append_assoc] using this
    · refine (ih hd).right (Ended.append ?_ (indented_ended _))
      rw [utf8_append]
      exact .after (by decide)

end Booklit
