import Verif.Spec.Dom

/-!
Reading HTML piece by piece.
-/

namespace Booklit

/-- A piece of HTML that is read as these nodes, wherever it stands. -/
def Reads (s : Str) (ds : List Dom) : Prop :=
  ∀ cur opens rest, Reader.run ⟨.text, cur, opens⟩ (s ++ rest) = Reader.run ⟨.text, cur ++ ds, opens⟩ rest

theorem Reader.run_append (r : Reader) (s t : Str) :
    Reader.run r (s ++ t) = (Reader.run r s).bind fun r' => r'.run t := by
  induction s generalizing r with
  | nil => rfl
  | cons c s ih =>
    rw [List.cons_append, Reader.run, Reader.run]
    cases r.next c with
    | none => rfl
    | some r' => exact ih r'

/-- The elements around, put inside others. -/
def upOpens (cur0 : List Dom) (os0 : List Open) : List Open → List Open
  | [] => os0
  | [o] => { o with before := cur0 ++ o.before } :: os0
  | o :: os => o :: upOpens cur0 os0 os

/-- A reader, put inside other elements. -/
def Reader.up (cur0 : List Dom) (os0 : List Open) (r : Reader) : Reader :=
  ⟨r.mode, if r.opens = [] then cur0 ++ r.cur else r.cur, upOpens cur0 os0 r.opens⟩

theorem upOpens_cons (cur0 os0 o os) :
    upOpens cur0 os0 (o :: os)
      = { o with before := if os = [] then cur0 ++ o.before else o.before } :: upOpens cur0 os0 os := by
  cases os with
  | nil => rfl
  | cons a as => rfl

theorem Reader.up_start (cur0 os0 cur opens n as) :
    (Reader.start cur opens n as).up cur0 os0
      = Reader.start (if opens = [] then cur0 ++ cur else cur) (upOpens cur0 os0 opens) n as := by
  rw [Reader.start, Reader.start]
  split
  · rw [Reader.up]
    dsimp only
    split <;> simp
  · rw [Reader.up]
    dsimp only
    rw [upOpens_cons]
    simp

theorem Reader.up_next {r r' : Reader} {c : Char} (cur0 os0) (e : r.next c = some r') :
    (r.up cur0 os0).next c = some (r'.up cur0 os0) := by
  obtain ⟨m, cur, opens⟩ := r
  cases m with
  | text =>
    simp only [Reader.next, Reader.up] at e ⊢
    split at e
    · cases e; simp_all
    · split at e
      · cases e; simp_all
      · cases e
        simp_all
        split <;> simp
  | ref acc =>
    simp only [Reader.next, Reader.up] at e ⊢
    split at e
    · rename_i hc
      rw [if_pos hc]
      cases hd : charRef acc with
      | none => rw [hd] at e; cases e
      | some d =>
        rw [hd] at e
        cases e
        simp only [Option.map]
        split <;> simp
    · rename_i hc
      rw [if_neg hc]
      cases e; rfl
  | lt =>
    simp only [Reader.next, Reader.up] at e ⊢
    repeat' split at e
    all_goals first | cases e | skip
    all_goals simp_all
  | decl =>
    simp only [Reader.next, Reader.up] at e ⊢
    repeat' split at e
    all_goals first | cases e | skip
    all_goals simp_all
  | close n =>
    simp only [Reader.next, Reader.up] at e ⊢
    split at e
    · rename_i hc
      rw [if_pos hc]
      cases opens with
      | nil => cases e
      | cons o os =>
        dsimp only at e ⊢
        split at e
        · rename_i hn
          cases e
          rw [upOpens_cons]
          dsimp only
          rw [if_pos hn]
          simp only [reduceCtorEq, if_false]
          split <;> simp
        · cases e
    · rename_i hc
      rw [if_neg hc]
      split at e
      · rename_i hm
        rw [if_pos hm]
        cases e; rfl
      · cases e
  | name n =>
    simp only [Reader.next] at e ⊢
    split at e
    · rename_i hc
      cases e
      rw [Reader.up_start]
      simp [Reader.up, hc]
    · rename_i hc
      split at e
      · rename_i hs
        cases e; simp [Reader.up, hs]
      · rename_i hs
        split at e
        · rename_i hm
          cases e; simp [Reader.up, hc, hs, hm]
        · cases e
  | attrs n as =>
    simp only [Reader.next] at e ⊢
    split at e
    · rename_i hc
      cases e
      rw [Reader.up_start]
      simp [Reader.up, hc]
    · rename_i hc
      split at e
      · rename_i hs
        cases e; simp [Reader.up, hs]
      · rename_i hs
        split at e
        · rename_i hm
          cases e; simp [Reader.up, hm]
        · rename_i hm
          split at e
          · rename_i hk
            cases e; simp [Reader.up, hc, hs, hm, hk]
          · cases e
  | slash n as =>
    simp only [Reader.next] at e ⊢
    split at e
    · rename_i hc
      cases e
      rw [Reader.up_start]
      simp [Reader.up, hc]
    · cases e
  | attrName n as a =>
    simp only [Reader.next, Reader.up] at e ⊢
    repeat' split at e
    all_goals first | cases e | skip
    all_goals simp_all
  | equals n as a =>
    simp only [Reader.next, Reader.up] at e ⊢
    repeat' split at e
    all_goals first | cases e | skip
    all_goals simp_all
  | value n as a v =>
    simp only [Reader.next, Reader.up] at e ⊢
    repeat' split at e
    all_goals first | cases e | skip
    all_goals simp_all
  | valueRef n as a v acc =>
    simp only [Reader.next, Reader.up] at e ⊢
    split at e
    · rename_i hc
      rw [if_pos hc]
      cases hd : charRef acc with
      | none => rw [hd] at e; cases e
      | some d =>
        rw [hd] at e
        cases e
        rfl
    · rename_i hc
      rw [if_neg hc]
      cases e; rfl

theorem Reader.up_run {s : Str} {r r' : Reader} (cur0 os0) (e : r.run s = some r') :
    (r.up cur0 os0).run s = some (r'.up cur0 os0) := by
  induction s generalizing r with
  | nil => cases e; rfl
  | cons c s ih =>
    rw [Reader.run] at e
    cases hn : r.next c with
    | none => rw [hn] at e; cases e
    | some x =>
      rw [hn] at e
      rw [Reader.run, Reader.up_next cur0 os0 hn]
      exact ih e

/-- What is well formed by itself is read the same everywhere. -/
theorem reads_iff {s : Str} {ds : List Dom} : Reads s ds ↔ readHtml s = some ds := by
  constructor
  · intro h
    have e := h [] [] []
    rw [List.append_nil] at e
    rw [readHtml, e]
    rfl
  · intro h cur opens rest
    rw [readHtml] at h
    cases hr : Reader.run ⟨.text, [], []⟩ s with
    | none => rw [hr] at h; cases h
    | some r =>
      rw [hr] at h
      obtain ⟨m, c, os⟩ := r
      cases m <;> cases os <;> cases h
      have e := Reader.up_run cur opens hr
      simp only [Reader.up, upOpens, if_true, List.append_nil] at e
      rw [Reader.run_append, e]
      rfl

theorem Reads.nil : Reads [] [] := by
  intro cur opens rest
  simp

theorem Reads.append {s t : Str} {a b : List Dom} (h1 : Reads s a) (h2 : Reads t b) : Reads (s ++ t) (a ++ b) := by
  intro cur opens rest
  rw [List.append_assoc, h1, h2, List.append_assoc]

theorem Reads.flatten {ss : List Str} {ds : List (List Dom)} (hl : ss.length = ds.length)
    (h : ∀ p ∈ ss.zip ds, Reads p.1 p.2) : Reads ss.flatten ds.flatten := by
  induction ss generalizing ds with
  | nil =>
    cases ds with
    | nil => exact .nil
    | cons d ds => cases hl
  | cons s ss ih =>
    cases ds with
    | nil => cases hl
    | cons d ds =>
      exact (h (s, d) (by simp)).append (ih (by simpa using hl) fun p hp => h p (by simp [hp]))

/-- A start tag, content and the end tag. -/
theorem Reads.elem {a z s : Str} {name as ds} (ha : ∀ cur opens rest,
      Reader.run ⟨.text, cur, opens⟩ (a ++ rest) = Reader.run ⟨.text, [], ⟨name, as, cur⟩ :: opens⟩ rest)
    (hz : ∀ cur opens o rest, o.name = name → Reader.run ⟨.text, cur, o :: opens⟩ (z ++ rest)
      = Reader.run ⟨.text, o.before ++ [.elem o.name o.attrs cur], opens⟩ rest)
    (h : Reads s ds) : Reads (a ++ s ++ z) [.elem name as ds] := by
  intro cur opens rest
  rw [List.append_assoc, List.append_assoc, ha, h, hz _ _ _ _ rfl]
  simp

end Booklit
