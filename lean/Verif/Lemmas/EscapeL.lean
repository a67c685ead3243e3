import Verif.Lemmas.DomL
import Verif.Model.Escape

/-!
Escaped texts, as the reader sees them.
-/

namespace Booklit

theorem digitValue_hexDigit {k : Nat} (h : k < 16) : digitValue (hexDigit k) = some k := by
  revert k
  decide

theorem hexDigit_ne {k : Nat} (h : k < 16) : hexDigit k ≠ ';' := by
  revert k
  decide

theorem Reads.plain {c : Char} (h1 : c ≠ '<') (h2 : c ≠ '&') : Reads [c] [.char c] := by
  intro cur opens rest
  rw [List.cons_append, Reader.run]
  simp [Reader.next, h1, h2]

theorem Reads.escChar (c : Char) : Reads (Booklit.escChar c) [.char (arriving c)] := by
  unfold Booklit.escChar arriving
  split
  · exact .plain (by decide) (by decide)
  split
  · subst c; intro cur opens rest; rfl
  split
  · subst c; intro cur opens rest; rfl
  split
  · subst c; intro cur opens rest; rfl
  split
  · subst c; intro cur opens rest; rfl
  split
  · subst c; intro cur opens rest; rfl
  split
  · subst c; intro cur opens rest; rfl
  · exact .plain (by assumption) (by assumption)

/-- An escaped text is read as its characters. -/
theorem Reads.escText (s : Str) : Reads (Booklit.escText s) (chars (s.map arriving)) := by
  induction s with
  | nil => exact .nil
  | cons c s ih =>
    rw [Booklit.escText, List.flatMap_cons]
    exact (Reads.escChar c).append ih

/-- A piece of an attribute value that is read as this, wherever it stands. -/
def ReadsV (s v : Str) : Prop :=
  ∀ cur opens n as a v0 rest, Reader.run ⟨.value n as a v0, cur, opens⟩ (s ++ rest)
    = Reader.run ⟨.value n as a (v0 ++ v), cur, opens⟩ rest

theorem ReadsV.plain {c : Char} (h1 : c ≠ '<') (h2 : c ≠ '&') (h3 : c ≠ '"') : ReadsV [c] [c] := by
  intro cur opens n as a v0 rest
  rw [List.cons_append, Reader.run]
  simp [Reader.next, h1, h2, h3]

theorem ReadsV.append {s t a b : Str} (h1 : ReadsV s a) (h2 : ReadsV t b) : ReadsV (s ++ t) (a ++ b) := by
  intro cur opens n as x v0 rest
  rw [List.append_assoc, h1, h2, List.append_assoc]

theorem ReadsV.escAttrChar (c : Char) : ReadsV (Booklit.escAttrChar c) [arriving c] := by
  unfold Booklit.escAttrChar
  split
  · rename_i hb
    have hn : c.toNat < 65536 := by
      simp [badRune] at hb
      omega
    have h0 : arriving c = c := by
      rw [arriving, if_neg]
      rintro rfl
      simp [badRune] at hb
    rw [h0]
    intro cur opens n as a v0 rest
    have hr : charRef ['#', 'x', hexDigit (c.toNat / 4096 % 16), hexDigit (c.toNat / 256 % 16),
        hexDigit (c.toNat / 16 % 16), hexDigit (c.toNat % 16)] = some c := by
      simp only [charRef, numberIn, digitValue_hexDigit (Nat.mod_lt _ (by decide : 0 < 16)),
        Nat.mod_lt _ (by decide : 0 < 16), if_true, Option.map]
      have : (((0 * 16 + c.toNat / 4096 % 16) * 16 + c.toNat / 256 % 16) * 16 + c.toNat / 16 % 16) * 16
          + c.toNat % 16 = c.toNat := by omega
      rw [this, Char.ofNat_toNat]
    have h1 := hexDigit_ne (Nat.mod_lt (c.toNat / 4096) (by decide : 0 < 16))
    have h2 := hexDigit_ne (Nat.mod_lt (c.toNat / 256) (by decide : 0 < 16))
    have h3 := hexDigit_ne (Nat.mod_lt (c.toNat / 16) (by decide : 0 < 16))
    have h4 := hexDigit_ne (Nat.mod_lt c.toNat (by decide : 0 < 16))
    simp [Reader.run, Reader.next, h1, h2, h3, h4, hr]
  · unfold Booklit.escChar arriving
    split
    · exact .plain (by decide) (by decide) (by decide)
    split
    · subst c; intro cur opens n as a v0 rest; rfl
    split
    · subst c; intro cur opens n as a v0 rest; rfl
    split
    · subst c; intro cur opens n as a v0 rest; rfl
    split
    · subst c; intro cur opens n as a v0 rest; rfl
    split
    · subst c; intro cur opens n as a v0 rest; rfl
    split
    · subst c; intro cur opens n as a v0 rest; rfl
    · exact .plain (by assumption) (by assumption) (by assumption)

/-- An escaped attribute is read as its text. -/
theorem ReadsV.escAttr (s : Str) : ReadsV (Booklit.escAttr s) (s.map arriving) := by
  induction s with
  | nil => intro cur opens n as a v0 rest; simp [Booklit.escAttr]
  | cons c s ih =>
    rw [Booklit.escAttr, List.flatMap_cons]
    exact (ReadsV.escAttrChar c).append ih

theorem isEscape_head {b : Byte} {bs : List Byte} (h : isEscape (b :: bs) = true) : b = 37 := by
  cases bs with
  | nil => cases h
  | cons x bs =>
    cases bs with
    | nil => cases h
    | cons y bs =>
      simp [isEscape] at h
      exact h.1.1

theorem normBytes_ascii (bs : List Byte) : ∀ c ∈ normBytes bs, c ≠ '\x00' := by
  have hx : ∀ k : Nat, k < 16 → hexDigit k ≠ '\x00' := by decide
  have hu : ∀ b : Nat, (urlByte b = true ∨ b = 37) → b < 128 ∧ b ≠ 0 := by
    intro b h
    rcases h with h | h
    · simp only [urlByte, Bool.or_eq_true, Bool.and_eq_true, decide_eq_true_eq, List.contains_iff_mem, List.mem_cons,
        List.not_mem_nil, or_false] at h
      unfold Byte at h
      omega
    · omega
  have h1 : ∀ b : Nat, b < 128 → b ≠ 0 → Char.ofNat b ≠ '\x00' := by decide
  induction bs with
  | nil => intro c h; cases h
  | cons b bs ih =>
    intro c hc
    rw [normBytes] at hc
    split at hc
    · rename_i hk
      rcases List.mem_cons.1 hc with rfl | h
      · have : urlByte b = true ∨ b = 37 := by
          rw [Bool.or_eq_true] at hk
          rcases hk with hk | hk
          · exact .inl hk
          · exact .inr (isEscape_head hk)
        obtain ⟨a, z⟩ := hu b this
        exact h1 b a z
      · exact ih c h
    · simp only [List.mem_cons] at hc
      rcases hc with rfl | rfl | rfl | h
      · decide
      · exact hx _ (Nat.mod_lt _ (by decide))
      · exact hx _ (Nat.mod_lt _ (by decide))
      · exact ih c h

/-- The link in an attribute. -/
theorem ReadsV.escURL (s : Str) : ReadsV (Booklit.escURL s) (linkTo s) := by
  have h := ReadsV.escAttr (linkTo s)
  have e : (linkTo s).map arriving = linkTo s := by
    conv => rhs; rw [← List.map_id (linkTo s)]
    apply List.map_congr_left
    intro c hc
    rw [arriving, if_neg (normBytes_ascii _ c hc)]
    rfl
  rw [e] at h
  exact h

end Booklit
