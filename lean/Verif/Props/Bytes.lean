import Verif.Lemmas.BytesFar
import Verif.Props.Parser

/-!
C91: files that are not UTF-8.
-/

namespace Booklit.Props

open Booklit Booklit.Peg

/-- What the parser makes of bytes, from what the rules make of the characters. -/
theorem parseBytes_cases (data : List Byte) : ∃ r far,
    run booklit (fuelFor (seen (runes 0 data))) (.expr (.rule .booklit)) (PSt.start (seen (runes 0 data))) = some r ∧
      FarOk (seen (runes 0 data)) far r.st ∧ (∀ v st, r = .ok v st → far = 0) ∧ (∀ st, r ≠ .panic st) ∧
      parseBytes data = match firstBad far (Pos.init (seen (runes 0 data))) (runes 0 data) with
        | some pos => some (.err pos)
        | none =>
          match r with
          | .ok v _ => some (.ok v)
          | .fail st => some (.err st.maxFail)
          | .panic st => some (.panic st.pos) := by
  obtain ⟨r, hr⟩ := booklit_total (seen (runes 0 data)) _ (Nat.le_refl _) .booklit (PSt.start (seen (runes 0 data))) rfl
  have hp := runWith_run noteFar booklit (fuelFor (seen (runes 0 data))) (.expr (.rule .booklit)) (PSt.start (seen (runes 0 data))) (runes 0 data).length
  rw [hr] at hp
  obtain ⟨⟨r', far⟩, hx, rfl⟩ := Option.map_eq_some_iff.1 hp
  have h0 : FarOk (seen (runes 0 data)) (runes 0 data).length (PSt.start (seen (runes 0 data))) :=
    ⟨InDoc.start _, by simp [PSt.start, seen], .inl rfl⟩
  have ho := runFar_ok booklit _ _ _ _ _ _ h0 hx
  refine ⟨r', far, hr, ho.2, ?_, ?_, ?_⟩
  · rintro v st rfl
    have := booklit_all (run_sound _ _ _ _ _ hr)
    have hl := ho.2.left
    simp only [R.st, this, List.length_nil, Nat.le_zero] at hl
    exact hl
  · rintro st rfl
    exact con_all _ _ .booklit _ (InDoc.start _) _ (Nat.le_refl _) _ hr
  · unfold parseBytes
    simp only [hx]
    rfl

/-- **C91, good files.** A file that is the UTF-8 of a text is parsed as that text. -/
theorem C91_valid (s : Str) : parseBytes (utf8 s) = parseDoc s := by
  obtain ⟨r, far, hr, _, _, _, h⟩ := parseBytes_cases (utf8 s)
  rw [h]
  rw [runes_utf8, seen_some] at hr ⊢
  rw [firstBad_none]
  unfold parseDoc parse
  rw [hr]
  cases r <;> rfl

/-- Where the first bad byte is, and the error. -/
theorem bytes_bad (s : Str) (r : List Byte) (h1 : r ≠ []) (h2 : decodeRune r = none) :
    ∃ l, parseBytes (utf8 s ++ r) = some (.err l) ∧
      ((∃ v, parseDoc (seen (runes 0 (utf8 s ++ r))) = some (.ok v)) → l = ⟨lineOf s, colOf s, byteLen s⟩) ∧
      ∃ pre post, s = pre ++ post ∧ l.off = byteLen pre ∧
        ((l.line = lineOf pre ∧ l.col = colOf pre) ∨ (post.head? = some '\n' ∧ l.line = lineOf pre + 1 ∧ l.col = 0)) := by
  obtain ⟨b, r, rfl⟩ := List.exists_cons_of_ne_nil h1
  have hrs : runes 0 (utf8 s ++ b :: r) = s.map some ++ none :: runes 0 r := by
    rw [runes_text, runes, h2]
  obtain ⟨x, far, hx, ho, hz, hnp, h⟩ := parseBytes_cases (utf8 s ++ b :: r)
  rw [h]
  rw [hrs] at hx ho ⊢
  rw [Pos.init_eq, firstBad_text]
  by_cases hf : far ≤ (runes 0 r).length + 1
  · rw [if_pos hf, List.nil_append, posAt_bad]
    exact ⟨_, rfl, fun _ => rfl, s, [], by simp, rfl, .inl ⟨rfl, rfl⟩⟩
  · rw [if_neg hf]
    cases x with
    | ok v st => exact absurd (by rw [hz v st rfl]; exact Nat.zero_le _) hf
    | panic st => exact absurd rfl (hnp st)
    | fail st =>
      refine ⟨st.maxFail, rfl, ?_, ?_⟩
      · rintro ⟨v, hv⟩
        unfold parseDoc parse at hv
        rw [hx] at hv
        cases hv
      · have hm := ho.max
        simp only [R.st] at hm
        rcases hm with hm | ⟨pre, next, h3, h4, h5⟩
        · rw [hm]
          exact ⟨[], s, rfl, rfl, .inl ⟨rfl, rfl⟩⟩
        · have hlt : pre.length < s.length := by
            have := congrArg List.length h3
            simp only [seen, List.length_map, List.length_append, List.length_cons] at this
            omega
          rw [seen_append, seen_some] at h3
          obtain ⟨a, ha, hb⟩ : ∃ a, s = pre ++ a ∧ next = a ++ seen (none :: runes 0 r) := by
            rcases List.append_eq_append_iff.1 h3 with ⟨a, ha, hb⟩ | ⟨a, ha, hb⟩
            · exfalso
              have := congrArg List.length ha
              simp only [List.length_append] at this
              omega
            · exact ⟨a, ha, hb⟩
          refine ⟨pre, a, ha, ?_⟩
          have hane : a ≠ [] := by
            rintro rfl
            rw [List.append_nil] at ha
            rw [ha] at hlt
            omega
          obtain ⟨c, a, rfl⟩ := List.exists_cons_of_ne_nil hane
          rw [h4, hb]
          by_cases hc : c = '\n'
          · subst hc
            exact ⟨rfl, .inr ⟨rfl, rfl, rfl⟩⟩
          · rw [posAt_other (by simpa using hc)]
            exact ⟨rfl, .inl ⟨rfl, rfl⟩⟩

theorem byteLen_utf8 (s : Str) : byteLen s = (utf8 s).length := by
  induction s with
  | nil => rfl
  | cons c s ih =>
    rw [utf8_cons, List.length_append, ← ih, utf8Char_length]
    simp [byteLen]

/-- **C91.** A file that is not the UTF-8 of any text is refused: it has a longest beginning that is the UTF-8 of a text `s`, what
follows begins with no character, and the parser reports an error at a point of `s` or at its end — so at the latest where the first bad
byte stands. (The line and column are those of that point, except that at a newline they are those of C10.) -/
theorem C91_invalid (data : List Byte) (h : ∀ s, utf8 s ≠ data) :
    ∃ s r l, data = utf8 s ++ r ∧ (∀ c, ¬ utf8Char c <+: r) ∧ parseBytes data = some (.err l) ∧
      ∃ pre post, s = pre ++ post ∧ l.off = (utf8 pre).length ∧
        ((l.line = lineOf pre ∧ l.col = colOf pre) ∨ (post.head? = some '\n' ∧ l.line = lineOf pre + 1 ∧ l.col = 0)) := by
  rcases bytes_cases data.length data (Nat.le_refl _) with ⟨s, rfl⟩ | ⟨s, r, rfl, h1, h2⟩
  · exact absurd rfl (h s)
  · obtain ⟨l, h3, _, pre, post, h4, h5, h6⟩ := bytes_bad s r h1 h2
    exact ⟨s, r, l, rfl, decodeRune_none h2, h3, pre, post, h4, by rw [h5, byteLen_utf8], h6⟩

/-- Only UTF-8 is ever parsed. -/
theorem C91_only_utf8 (data : List Byte) (v : Val) (h : parseBytes data = some (.ok v)) :
    ∃ s, data = utf8 s ∧ parseDoc s = some (.ok v) := by
  rcases bytes_cases data.length data (Nat.le_refl _) with ⟨s, rfl⟩ | ⟨s, r, rfl, h1, h2⟩
  · exact ⟨s, rfl, by rw [← C91_valid]; exact h⟩
  · obtain ⟨l, h3, _⟩ := bytes_bad s r h1 h2
    rw [h3] at h
    cases h

/-- A byte that begins no character is not part of UTF-8 wherever it stands. -/
theorem stray_none {b : Nat} (hb : (0x80 ≤ b ∧ b < 0xC2) ∨ 0xF4 < b) (r : List Byte) : decodeRune (b :: r) = none := by
  rw [decodeRune, if_neg (by omega), if_pos (by omega)]

/-- **C91, exactly.** If a single byte that begins no character is all that is wrong with a file — the file would be parsed with U+FFFD in its
place — then the error is at that byte. -/
theorem C91_stray (s t : Str) (b : Nat) (hb : (0x80 ≤ b ∧ b < 0xC2) ∨ 0xF4 < b) (v : Val)
    (h : parseDoc (s ++ '�' :: t) = some (.ok v)) :
    parseBytes (utf8 s ++ b :: utf8 t) = some (.err ⟨lineOf s, colOf s, (utf8 s).length⟩) := by
  have hd := stray_none hb (utf8 t)
  obtain ⟨l, h1, h2, _⟩ := bytes_bad s (b :: utf8 t) (by simp) hd
  have hrs : runes 0 (utf8 s ++ b :: utf8 t) = s.map some ++ none :: t.map some := by
    rw [runes_text, runes, hd, runes_utf8]
  rw [h1, h2 ⟨v, ?_⟩, byteLen_utf8]
  rw [hrs, seen_append, seen_some]
  have : seen (none :: t.map some) = '�' :: t := by
    show runeError :: seen (t.map some) = _
    rw [seen_some]
    rfl
  rw [this]
  exact h

-- A file in Latin-1: `caf\xE9 au lait`, in the second line.
example : parseBytes (utf8 q%"un\ncaf" ++ [0xE9] ++ utf8 q%" au lait\n") = some (.err ⟨2, 4, 6⟩) := by decide +kernel

-- A lone byte that begins no character, where everything else is fine.
example : parseBytes (utf8 q%"un\ncaf" ++ 0xFF :: utf8 q%" au lait\n") = some (.err ⟨2, 4, 6⟩) :=
  have : ∃ v, parseDoc (q%"un\ncaf" ++ '�' :: q%" au lait\n") = some (.ok v) := by
    have hk : (match parseDoc (q%"un\ncaf" ++ '�' :: q%" au lait\n") with
      | some (.ok _) => true
      | _ => false) = true := by decide +kernel
    split at hk
    · rename_i v hv
      exact ⟨v, hv⟩
    · cases hk
  let ⟨v, hv⟩ := this
  C91_stray _ _ 0xFF (by decide) v hv

-- A syntax error before the first bad byte is reported first.
example : parseBytes (utf8 q%"a } b" ++ [0xFF]) = some (.err ⟨1, 3, 2⟩) := by decide +kernel

-- The hypothesis of `C91_invalid`.
example : ∀ s, utf8 s ≠ utf8 q%"caf" ++ [0xE9] := by
  intro s hs
  have := runes_utf8 s
  rw [hs, show runes 0 (utf8 q%"caf" ++ [0xE9]) = [some 'c', some 'a', some 'f', none] by decide +kernel] at this
  have hm : none ∈ s.map some := by rw [← this]; simp
  simp at hm

end Booklit.Props
