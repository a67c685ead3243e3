import Verif.Model.Annotate
import Verif.Spec.Lines

/-!
Lemmas about reading lines from bytes.
-/

namespace Booklit

theorem utf8_append (a b : Str) : utf8 (a ++ b) = utf8 a ++ utf8 b := by simp [utf8]

theorem utf8_cons (c : Char) (b : Str) : utf8 (c :: b) = utf8Char c ++ utf8 b := by simp [utf8]

theorem utf8Char_nl : utf8Char '\n' = [10] := rfl

theorem utf8Char_ascii {c : Char} (h : c.toNat < 128) : utf8Char c = [c.toNat] := by
  simp [utf8Char, h]

theorem utf8Char_length (c : Char) : (utf8Char c).length = c.utf8Size := by
  have e : c.toNat = c.val.toNat := rfl
  simp only [utf8Char, Char.utf8Size, e]
  have h1 : ∀ n : UInt32, c.val ≤ n ↔ c.val.toNat ≤ n.toNat := fun n => UInt32.le_iff_toNat_le
  simp only [h1]
  have a1 : (UInt32.ofNatLT 0x7F (by decide)).toNat = 127 := by decide
  have a2 : (UInt32.ofNatLT 0x7FF (by decide)).toNat = 2047 := by decide
  have a3 : (UInt32.ofNatLT 0xFFFF (by decide)).toNat = 65535 := by decide
  rw [a1, a2, a3]
  repeat' split
  all_goals first | rfl | omega

theorem utf8_length (t : Str) : (utf8 t).length = byteLen t := by
  induction t with
  | nil => rfl
  | cons c t ih => rw [utf8_cons, List.length_append, ih, utf8Char_length]; simp [byteLen]

theorem utf8Char_pos (c : Char) : 1 ≤ (utf8Char c).length := by
  simp only [utf8Char]; repeat' split
  all_goals simp

theorem length_le_utf8 (t : Str) : t.length ≤ (utf8 t).length := by
  induction t with
  | nil => simp
  | cons c t ih =>
    have := utf8Char_pos c
    rw [utf8_cons, List.length_append, List.length_cons]; omega

theorem utf8_ascii {t : Str} (h : Ascii t) : utf8 t = t.map Char.toNat := by
  induction t with
  | nil => rfl
  | cons c t ih =>
    rw [utf8_cons, utf8Char_ascii (h c (by simp)), ih fun d hd => h d (by simp [hd])]; rfl

theorem utf8_ascii_length {t : Str} (h : Ascii t) : (utf8 t).length = t.length := by simp [utf8_ascii h]

/-- Bytes below 128 only come from their own character. -/
theorem mem_utf8Char {b : Nat} {c : Char} (hb : b < 128) (h : b ∈ utf8Char c) : c.toNat = b := by
  simp only [utf8Char] at h
  repeat' split at h
  all_goals simp at h
  all_goals omega

theorem char_eq {c d : Char} (h : c.toNat = d.toNat) : c = d := Char.ext (UInt32.toNat_inj.1 h)

theorem mem_utf8 {b : Nat} {t : Str} {d : Char} (hd : d.toNat = b) (hb : b < 128) : b ∈ utf8 t ↔ d ∈ t := by
  constructor
  · intro h
    obtain ⟨c, hc, hm⟩ := List.mem_flatMap.1 h
    have := mem_utf8Char hb hm
    rwa [char_eq (this.trans hd.symm)] at hc
  · intro h
    refine List.mem_flatMap.2 ⟨d, h, ?_⟩
    rw [utf8Char_ascii (by omega), hd]; simp

theorem utf8_nil_iff (t : Str) : utf8 t = [] ↔ t = [] := by
  constructor
  · intro h
    have := length_le_utf8 t
    rw [h] at this
    exact List.length_eq_zero_iff.1 (by simpa using this)
  · rintro rfl; rfl

theorem getLast_utf8 (t : Str) (d : Char) (hd : d.toNat < 128) :
    (utf8 t).getLast? = some d.toNat ↔ t.getLast? = some d := by
  rcases List.eq_nil_or_concat t with rfl | ⟨t, c, rfl⟩
  · simp [utf8]
  · rw [List.concat_eq_append, utf8_append]
    have e : utf8 [c] = utf8Char c := by simp [utf8]
    have hl : (utf8 t ++ utf8Char c).getLast? = (utf8Char c).getLast? := by
      rw [List.getLast?_append]
      have := utf8Char_pos c
      cases h : utf8Char c with
      | nil => rw [h] at this; simp at this
      | cons x xs => simp [List.getLast?_eq_some_getLast]
    rw [e, hl]
    simp only [List.getLast?_append, List.getLast?_singleton, Option.some_or, Option.some.injEq]
    constructor
    · intro h
      exact char_eq (mem_utf8Char hd (List.mem_of_getLast? h))
    · rintro rfl
      rw [utf8Char_ascii hd]; rfl

theorem cutLine_nl : ∀ (l r : List Byte), 10 ∉ l → cutLine (l ++ 10 :: r) = some l
  | [], r, _ => by simp [cutLine]
  | b :: l, r, h => by
    simp only [List.mem_cons, not_or] at h
    rw [List.cons_append, cutLine, if_neg fun e => h.1 e.symm, cutLine_nl l r h.2]; rfl

theorem cutLine_none : ∀ (l : List Byte), 10 ∉ l → cutLine l = none
  | [], _ => rfl
  | b :: l, h => by
    simp only [List.mem_cons, not_or] at h
    rw [cutLine, if_neg fun e => h.1 e.symm, cutLine_none l h.2]; rfl

/-- A line ended by a line feed. -/
theorem readLine_nl {u : Str} (r : Str) (hu : '\n' ∉ u) (hs : byteLen u < bufSize) :
    readLine (utf8 (u ++ '\n' :: r)) = some (dropCr (utf8 u), utf8 r) := by
  have e : utf8 (u ++ '\n' :: r) = utf8 u ++ 10 :: utf8 r := by rw [utf8_append, utf8_cons, utf8Char_nl]; rfl
  have hm : 10 ∉ utf8 u := fun h => hu ((mem_utf8 (d := '\n') rfl (by decide)).1 h)
  rw [← utf8_length] at hs
  obtain ⟨k, hk⟩ : ∃ k, bufSize = (utf8 u).length + 1 + k := ⟨bufSize - (utf8 u).length - 1, by omega⟩
  have ht : (utf8 u ++ 10 :: utf8 r).take bufSize = utf8 u ++ 10 :: (utf8 r).take k := by
    rw [hk, List.take_append, List.take_of_length_le (by omega)]
    congr 1
    rw [show (utf8 u).length + 1 + k - (utf8 u).length = k + 1 by omega]; rfl
  rw [readLine, e, if_neg (by simp), ht, cutLine_nl _ _ hm]
  simp

/-- The last line. -/
theorem readLine_last {u : Str} (hn : u ≠ []) (hu : '\n' ∉ u) (hs : byteLen u < bufSize) :
    readLine (utf8 u) = some (utf8 u, []) := by
  have hm : 10 ∉ utf8 u := fun h => hu ((mem_utf8 (d := '\n') rfl (by decide)).1 h)
  rw [← utf8_length] at hs
  rw [readLine, if_neg fun h => hn ((utf8_nil_iff u).1 h), List.take_of_length_le (by omega), cutLine_none _ hm]
  simp [hs]

theorem srcLines_ne (s : Str) : srcLines s ≠ [] := by
  cases s with
  | nil => simp [srcLines]
  | cons c s =>
    rw [srcLines]
    split
    · simp
    · split <;> simp

theorem srcLines_nl : ∀ (u r : Str), '\n' ∉ u → srcLines (u ++ '\n' :: r) = u :: srcLines r
  | [], r, _ => by simp [srcLines]
  | c :: u, r, h => by
    simp only [List.mem_cons, not_or] at h
    rw [List.cons_append, srcLines, if_neg fun e => h.1 e.symm, srcLines_nl u r h.2]

theorem srcLines_last : ∀ (u : Str), '\n' ∉ u → srcLines u = [u]
  | [], _ => rfl
  | c :: u, h => by
    simp only [List.mem_cons, not_or] at h
    rw [srcLines, if_neg fun e => h.1 e.symm, srcLines_last u h.2]

/-- The first line of a text that has a line feed. -/
theorem split_nl : ∀ (s : Str), '\n' ∈ s → ∃ u r, s = u ++ '\n' :: r ∧ '\n' ∉ u
  | [], h => by cases h
  | c :: s, h => by
    by_cases hc : c = '\n'
    · exact ⟨[], s, by simp [hc], by simp⟩
    · obtain ⟨u, r, e, hu⟩ := split_nl s (by
        rcases List.mem_cons.1 h with h | h
        · exact absurd h.symm hc
        · exact h)
      exact ⟨c :: u, r, by simp [e], by simp [hu, Ne.symm hc]⟩

theorem skipLines_run : ∀ (n : Nat) (pre rest : Str), pre.count '\n' = n →
    (pre = [] ∨ pre.getLast? = some '\n') → ShortLines bufSize (pre ++ rest) →
    skipLines n (utf8 (pre ++ rest)) = some (utf8 rest) ∧ ShortLines bufSize rest
  | 0, pre, rest, hc, he, hs => by
    rcases he with rfl | he
    · exact ⟨rfl, hs⟩
    · exact absurd (List.mem_of_getLast? he) (List.count_eq_zero.1 hc)
  | n + 1, pre, rest, hc, he, hs => by
    have hm : '\n' ∈ pre := by
      refine Classical.byContradiction fun h => ?_
      rw [List.count_eq_zero.2 h] at hc; omega
    obtain ⟨u, r, rfl, hu⟩ := split_nl pre hm
    rw [List.append_assoc, List.cons_append] at hs ⊢
    have hsl := hs
    rw [ShortLines, srcLines_nl _ _ hu] at hsl
    rw [skipLines, readLine_nl _ hu (hsl u (by simp))]
    refine skipLines_run n r rest ?_ ?_ fun l hl => hsl l (by simp [hl])
    · simp only [List.count_append, List.count_cons_self, List.count_eq_zero.2 hu] at hc; omega
    · rcases List.eq_nil_or_concat r with rfl | ⟨r', c, rfl⟩
      · exact .inl rfl
      · right
        rcases he with he | he
        · simp at he
        · have e2 : u ++ '\n' :: r'.concat c = (u ++ '\n' :: r') ++ [c] := by simp
          rw [e2, List.getLast?_append] at he
          simpa using he

/-- The line in question is the line with the number asked for. -/
theorem lineInQuestion_eq {d t : Str} {l : Nat} (hl : LineAt d l t) (hs : ShortLines bufSize d) :
    lineInQuestion (utf8 d) l = some (utf8 t) := by
  obtain ⟨pre, post, rfl, rfl, hp, hn, he⟩ := hl
  rw [List.append_assoc] at hs ⊢
  obtain ⟨h1, h2⟩ := skipLines_run _ pre (t ++ post) rfl hp hs
  rw [lineInQuestion, show lineOf pre - 1 = pre.count '\n' by simp [lineOf], h1]
  rcases he with rfl | ⟨he, hr⟩ | he
  · rw [List.append_nil] at h2 ⊢
    by_cases ht : t = []
    · subst ht; rfl
    · rw [ShortLines, srcLines_last _ hn] at h2
      simp only [readLine_last ht hn (h2 t (by simp))]
  · cases post with
    | nil => cases he
    | cons c r =>
      simp only [List.head?_cons, Option.some.injEq] at he
      subst he
      rw [ShortLines, srcLines_nl _ _ hn] at h2
      simp only [readLine_nl r hn (h2 t (by simp))]
      rw [dropCr, if_neg (c := (utf8 t).getLast? = some 13) fun h => hr ((getLast_utf8 t '\r' (by decide)).1 h)]
  · obtain ⟨r, rfl⟩ : ∃ r, post = '\r' :: '\n' :: r := by
      match post, he with
      | [], he => simp at he
      | [a], he => simp at he
      | a :: b :: r, he => simp at he; exact ⟨r, by rw [he.1, he.2]⟩
    have hn' : '\n' ∉ t ++ ['\r'] := by simpa using hn
    have e : t ++ '\r' :: '\n' :: r = (t ++ ['\r']) ++ '\n' :: r := by simp
    rw [e] at h2 ⊢
    rw [ShortLines, srcLines_nl _ _ hn'] at h2
    simp only [readLine_nl r hn' (h2 _ (by simp))]
    have e2 : utf8 (t ++ ['\r']) = utf8 t ++ [13] := by rw [utf8_append]; rfl
    rw [e2, dropCr]
    simp

/-- The rest of a line. -/
theorem rest_of_line (s : Str) : ∃ t post, s = t ++ post ∧ '\n' ∉ t ∧
    (post = [] ∨ (post.head? = some '\n' ∧ t.getLast? ≠ some '\r') ∨ post.take 2 = ['\r', '\n']) := by
  by_cases h : '\n' ∈ s
  · obtain ⟨u, r, rfl, hu⟩ := split_nl s h
    by_cases hr : u.getLast? = some '\r'
    · obtain ⟨v, rfl⟩ : ∃ v, u = v ++ ['\r'] := by
        rcases List.eq_nil_or_concat u with rfl | ⟨v, c, rfl⟩
        · simp at hr
        · simp at hr; exact ⟨v, by simp [hr]⟩
      exact ⟨v, '\r' :: '\n' :: r, by simp, by simp at hu; exact hu, .inr (.inr rfl)⟩
    · exact ⟨u, '\n' :: r, rfl, hu, .inr (.inl ⟨rfl, hr⟩)⟩
  · exact ⟨s, [], by simp, h, .inl rfl⟩

theorem mem_takeWhile {α : Type} (p : α → Bool) (x : α) : ∀ (l : List α), x ∈ l.takeWhile p → p x = true
  | [], h => by cases h
  | y :: l, h => by
    rw [List.takeWhile_cons] at h
    split at h
    · rcases List.mem_cons.1 h with rfl | h
      · assumption
      · exact mem_takeWhile p x l h
    · cases h

/-- The beginning of a line. -/
theorem start_of_line (pre : Str) : ∃ p a, pre = p ++ a ∧ '\n' ∉ a ∧ (p = [] ∨ p.getLast? = some '\n') ∧
    lineOf p = lineOf pre ∧ colOf pre = a.length + 1 := by
  refine ⟨(pre.reverse.dropWhile (· != '\n')).reverse, (pre.reverse.takeWhile (· != '\n')).reverse, ?_, ?_, ?_, ?_, ?_⟩
  · rw [← List.reverse_append, List.takeWhile_append_dropWhile, List.reverse_reverse]
  · intro h
    have := mem_takeWhile _ _ _ (List.mem_reverse.1 h)
    simp at this
  · cases h : pre.reverse.dropWhile (· != '\n') with
    | nil => exact .inl rfl
    | cons c cs =>
      right
      have hh := List.head?_dropWhile_not (p := (· != '\n')) (l := pre.reverse)
      rw [h] at hh
      simp at hh
      simp [hh]
  · have e : pre = (pre.reverse.dropWhile (· != '\n')).reverse ++ (pre.reverse.takeWhile (· != '\n')).reverse := by
      rw [← List.reverse_append, List.takeWhile_append_dropWhile, List.reverse_reverse]
    have hc : (pre.reverse.takeWhile (· != '\n')).reverse.count '\n' = 0 := by
      refine List.count_eq_zero.2 fun h => ?_
      have := mem_takeWhile _ _ _ (List.mem_reverse.1 h)
      simp at this
    have := congrArg (List.count '\n') e
    rw [List.count_append, hc] at this
    simp only [lineOf]; omega
  · simp [colOf]; omega

/-- The line of a position, when what stands there is not the end of a line. -/
theorem line_around (pre mid post : Str) (hm : '\n' ∉ mid) (hn : mid ≠ []) (hr : mid.getLast? ≠ some '\r') :
    ∃ a b, LineAt (pre ++ (mid ++ post)) (lineOf pre) (a ++ mid ++ b) ∧ colOf pre = a.length + 1 ∧
      (∃ p, pre = p ++ a) ∧ ∃ q, post = b ++ q := by
  obtain ⟨p, a, rfl, ha, hp, hl, hc⟩ := start_of_line pre
  obtain ⟨b, q, rfl, hb, he⟩ := rest_of_line post
  refine ⟨a, b, ⟨p, q, by simp, hl.symm, hp, by simp [ha, hm, hb], ?_⟩, hc, ⟨p, rfl⟩, q, rfl⟩
  rcases he with he | ⟨he, h2⟩ | he
  · exact .inl he
  · refine .inr (.inl ⟨he, ?_⟩)
    rcases List.eq_nil_or_concat b with rfl | ⟨b', c, rfl⟩
    · rcases List.eq_nil_or_concat mid with rfl | ⟨m', c, rfl⟩
      · exact absurd rfl hn
      · simpa [List.getLast?_append] using hr
    · simpa [List.getLast?_append] using h2
  · exact .inr (.inr he)

end Booklit
