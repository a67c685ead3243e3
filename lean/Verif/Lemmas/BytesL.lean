import Verif.Model.Bytes
import Verif.Lemmas.PegMaxFail
import Verif.Lemmas.PegCon
import Verif.Lemmas.AnnotateL

/-!
The parser on bytes: decoding, and how far it reads.
-/

namespace Booklit.Peg

open Booklit

/-! ### Decoding -/

theorem char_range (c : Char) : c.toNat < 0xD800 ∨ (0xDFFF < c.toNat ∧ c.toNat < 0x110000) := c.valid

theorem ofNat_toNat (c : Char) : Char.ofNat c.toNat = c := by simp

/-- What is encoded is decoded. -/
theorem decodeRune_utf8 (c : Char) (r : List Byte) : decodeRune (utf8Char c ++ r) = some (c, (utf8Char c).length) := by
  have hr := char_range c
  have hc := ofNat_toNat c
  generalize hn : c.toNat = n at *
  have hu : utf8Char c = (if n < 128 then ([n] : List Nat) else if n < 2048 then [192 + n / 64, 128 + n % 64]
      else if n < 65536 then [224 + n / 4096, 128 + n / 64 % 64, 128 + n % 64]
      else [240 + n / 262144, 128 + n / 4096 % 64, 128 + n / 64 % 64, 128 + n % 64]) := by rw [← hn]; rfl
  rw [hu]
  clear hu
  split
  · simp [decodeRune, *]
  · split
    · rename_i h1 h2
      have e : n = (192 + n / 64) % 32 * 64 + (128 + n % 64) % 64 := by omega
      simp only [List.cons_append, List.nil_append, decodeRune, decode2, decode3, decode4, List.length_cons, List.length_nil]
      rw [if_neg (by omega), if_neg (by omega), if_neg, if_pos (by omega), ← e, hc]
      unfold acceptLo acceptHi
      rw [if_neg (by omega), if_neg (by omega), if_neg (by omega), if_neg (by omega)]
      omega
    · split
      · rename_i h1 h2 h3
        have e : n = (224 + n / 4096) % 16 * 4096 + (128 + n / 64 % 64) % 64 * 64 + (128 + n % 64) % 64 := by omega
        simp only [List.cons_append, List.nil_append, decodeRune, decode2, decode3, decode4, List.length_cons, List.length_nil]
        rw [if_neg (by omega), if_neg (by omega), if_neg, if_neg (by omega), if_neg (by omega), if_pos (by omega), ← e, hc]
        unfold acceptLo acceptHi
        repeat' split
        all_goals omega
      · rename_i h1 h2 h3
        have e : n = (240 + n / 262144) % 8 * 262144 + (128 + n / 4096 % 64) % 64 * 4096 + (128 + n / 64 % 64) % 64 * 64 + (128 + n % 64) % 64 := by omega
        simp only [List.cons_append, List.nil_append, decodeRune, decode2, decode3, decode4, List.length_cons, List.length_nil]
        rw [if_neg (by omega), if_neg (by omega), if_neg, if_neg (by omega), if_neg (by omega), if_neg (by omega), if_neg (by omega), ← e, hc]
        unfold acceptLo acceptHi
        repeat' split
        all_goals omega

theorem toNat_ofNat {n : Nat} (h : n < 0xD800 ∨ (0xDFFF < n ∧ n < 0x110000)) : (Char.ofNat n).toNat = n := by
  have hv : n.isValidChar := h
  unfold Char.ofNat
  rw [dif_pos hv]
  rfl

/-- What is decoded was encoded. -/
theorem decodeRune_some {bs : List Nat} {c : Char} {w : Nat} (h : decodeRune bs = some (c, w)) : ∃ r, bs = utf8Char c ++ r ∧ w = (utf8Char c).length := by
  cases bs with
  | nil => cases h
  | cons p0 p =>
    rw [decodeRune] at h
    split at h
    · rename_i h0
      cases h
      have := toNat_ofNat (n := p0) (by omega)
      refine ⟨p, ?_, ?_⟩ <;> simp [utf8Char, this, h0]
    · split at h
      · cases h
      · rename_i h0 h1
        cases p with
        | nil => cases h
        | cons b1 p =>
          rw [decode2] at h
          split at h
          · cases h
          · rename_i h2
            split at h
            · rename_i h3
              cases h
              unfold acceptLo acceptHi at h2
              rw [if_neg (show ¬ p0 = 0xE0 by omega), if_neg (show ¬ p0 = 0xF0 by omega), if_neg (show ¬ p0 = 0xED by omega), if_neg (show ¬ p0 = 0xF4 by omega)] at h2
              have := toNat_ofNat (n := p0 % 32 * 64 + b1 % 64) (by omega)
              have e1 : 192 + (p0 % 32 * 64 + b1 % 64) / 64 = p0 := by omega
              have e2 : 128 + (p0 % 32 * 64 + b1 % 64) % 64 = b1 := by omega
              have e : utf8Char (Char.ofNat (p0 % 32 * 64 + b1 % 64)) = [p0, b1] := by
                simp only [utf8Char, this]
                rw [if_neg (by omega), if_pos (by omega), e1, e2]
              exact ⟨p, by rw [e]; rfl, by rw [e]; rfl⟩
            · rename_i h3
              cases p with
              | nil => cases h
              | cons b2 p =>
                rw [decode3] at h
                split at h
                · cases h
                · rename_i h4
                  split at h
                  · rename_i h5
                    cases h
                    have h6 : (p0 = 0xE0 → 0xA0 ≤ b1) ∧ (p0 = 0xED → b1 ≤ 0x9F) ∧ 0x80 ≤ b1 ∧ b1 ≤ 0xBF := by
                      revert h2
                      unfold acceptLo acceptHi
                      repeat' split
                      all_goals omega
                    have := toNat_ofNat (n := p0 % 16 * 4096 + b1 % 64 * 64 + b2 % 64) (by omega)
                    have e1 : 224 + (p0 % 16 * 4096 + b1 % 64 * 64 + b2 % 64) / 4096 = p0 := by omega
                    have e2 : 128 + (p0 % 16 * 4096 + b1 % 64 * 64 + b2 % 64) / 64 % 64 = b1 := by omega
                    have e3 : 128 + (p0 % 16 * 4096 + b1 % 64 * 64 + b2 % 64) % 64 = b2 := by omega
                    have e : utf8Char (Char.ofNat (p0 % 16 * 4096 + b1 % 64 * 64 + b2 % 64)) = [p0, b1, b2] := by
                      simp only [utf8Char, this]
                      rw [if_neg (by omega), if_neg (by omega), if_pos (by omega), e1, e2, e3]
                    exact ⟨p, by rw [e]; rfl, by rw [e]; rfl⟩
                  · rename_i h5
                    cases p with
                    | nil => cases h
                    | cons b3 p =>
                      rw [decode4] at h
                      split at h
                      · cases h
                      · rename_i h7
                        cases h
                        have h6 : (p0 = 0xF0 → 0x90 ≤ b1) ∧ (p0 = 0xF4 → b1 ≤ 0x8F) ∧ 0x80 ≤ b1 ∧ b1 ≤ 0xBF := by
                          revert h2
                          unfold acceptLo acceptHi
                          repeat' split
                          all_goals omega
                        have := toNat_ofNat (n := p0 % 8 * 262144 + b1 % 64 * 4096 + b2 % 64 * 64 + b3 % 64) (by omega)
                        have e1 : 240 + (p0 % 8 * 262144 + b1 % 64 * 4096 + b2 % 64 * 64 + b3 % 64) / 262144 = p0 := by omega
                        have e2 : 128 + (p0 % 8 * 262144 + b1 % 64 * 4096 + b2 % 64 * 64 + b3 % 64) / 4096 % 64 = b1 := by omega
                        have e3 : 128 + (p0 % 8 * 262144 + b1 % 64 * 4096 + b2 % 64 * 64 + b3 % 64) / 64 % 64 = b2 := by omega
                        have e4 : 128 + (p0 % 8 * 262144 + b1 % 64 * 4096 + b2 % 64 * 64 + b3 % 64) % 64 = b3 := by omega
                        have e : utf8Char (Char.ofNat (p0 % 8 * 262144 + b1 % 64 * 4096 + b2 % 64 * 64 + b3 % 64)) = [p0, b1, b2, b3] := by
                          simp only [utf8Char, this]
                          rw [if_neg (by omega), if_neg (by omega), if_neg (by omega), e1, e2, e3, e4]
                        exact ⟨p, by rw [e]; rfl, by rw [e]; rfl⟩

theorem runes_skip : ∀ (u r : List Byte), runes u.length (u ++ r) = runes 0 r
  | [], r => by simp
  | _ :: u, r => by rw [List.cons_append, List.length_cons, runes, runes_skip u r]

theorem utf8Char_ne (c : Char) : utf8Char c ≠ [] := by
  unfold utf8Char
  dsimp only
  repeat' split
  all_goals simp

theorem runes_char (c : Char) (r : List Byte) : runes 0 (utf8Char c ++ r) = some c :: runes 0 r := by
  have h := decodeRune_utf8 c r
  cases hc : utf8Char c with
  | nil => exact absurd hc (utf8Char_ne c)
  | cons b u =>
    rw [hc] at h
    rw [List.cons_append] at h ⊢
    rw [runes, h]
    simp only [List.length_cons, Nat.add_sub_cancel, runes_skip]

theorem runes_text (s : Str) (r : List Byte) : runes 0 (utf8 s ++ r) = s.map some ++ runes 0 r := by
  induction s with
  | nil => rfl
  | cons c s ih => rw [utf8_cons, List.append_assoc, runes_char, ih]; rfl

theorem runes_nil (k : Nat) : runes k [] = [] := by cases k <;> rfl

theorem runes_utf8 (s : Str) : runes 0 (utf8 s) = s.map some := by
  have := runes_text s []
  simpa [runes_nil] using this

theorem seen_some (s : Str) : seen (s.map some) = s := by
  induction s with
  | nil => rfl
  | cons c s ih => simpa [seen] using ih

/-- Bytes are UTF-8, or there is a first place where they are not. -/
theorem bytes_cases : ∀ (n : Nat) (bs : List Byte), bs.length ≤ n → (∃ s, bs = utf8 s) ∨
    ∃ s r, bs = utf8 s ++ r ∧ r ≠ [] ∧ decodeRune r = none
  | 0, bs, h => .inl ⟨[], by cases bs with | nil => rfl | cons _ _ => cases h⟩
  | n + 1, [], _ => .inl ⟨[], rfl⟩
  | n + 1, b :: bs, h => by
    cases hd : decodeRune (b :: bs) with
    | none => exact .inr ⟨[], b :: bs, rfl, by simp, hd⟩
    | some cw =>
      obtain ⟨c, w⟩ := cw
      obtain ⟨r, h1, h2⟩ := decodeRune_some hd
      have hlen : r.length ≤ n := by
        have := congrArg List.length h1
        have h3 : 0 < (utf8Char c).length := List.length_pos_iff.2 (utf8Char_ne c)
        simp only [List.length_cons, List.length_append] at this h
        omega
      rcases bytes_cases n r hlen with ⟨s, rfl⟩ | ⟨s, r', rfl, h3, h4⟩
      · exact .inl ⟨c :: s, by rw [h1, utf8_cons]⟩
      · exact .inr ⟨c :: s, r', by rw [h1, utf8_cons, List.append_assoc], h3, h4⟩

theorem decodeRune_none {r : List Byte} (h : decodeRune r = none) (c : Char) : ¬ utf8Char c <+: r := by
  rintro ⟨t, rfl⟩
  rw [decodeRune_utf8] at h
  cases h

/-! ### How far the parser reads -/

theorem litFar_le (s : Str) (rest : Str) : litFar s rest ≤ rest.length := by
  induction s generalizing rest with
  | nil => exact Nat.le_refl _
  | cons c s ih =>
    cases rest with
    | nil => exact Nat.le_refl _
    | cons d r =>
      rw [litFar]
      split
      · have := ih r
        simp
        omega
      · simp

theorem litFar_ok (s : Str) (next : Str) : litFar s (s ++ next) = next.length := by
  induction s with
  | nil => rfl
  | cons c s ih => simp [litFar, ih]

end Booklit.Peg
