import Verif.Lemmas.PegWp
import Verif.Lemmas.PegTerm
import Verif.Spec.Syntax

/-!
Invariants of all values the booklit grammar produces.
-/

namespace Booklit.Peg

open Booklit

/-! ### positions -/

theorem Pos.adv_snoc (p : Pos) (u : Str) (c : Char) (next : Str) :
    p.adv (u ++ [c]) next = (p.adv u (c :: next)).step c.utf8Size next := by
  rw [Pos.adv_append]; rfl

theorem byteLen_snoc (u : Str) (c : Char) : byteLen (u ++ [c]) = byteLen u + c.utf8Size := by
  simp [byteLen]

theorem lineOf_snoc (u : Str) (c : Char) : lineOf (u ++ [c]) = lineOf u + (if c = '\n' then 1 else 0) := by
  simp only [lineOf, List.count_append, List.count_cons, List.count_nil, beq_iff_eq]
  split <;> omega

theorem colOf_snoc (u : Str) (c : Char) : colOf (u ++ [c]) = if c = '\n' then 1 else colOf u + 1 := by
  simp only [colOf, List.reverse_append, List.reverse_cons, List.reverse_nil, List.nil_append,
    List.singleton_append, List.takeWhile_cons, bne_iff_ne, ne_eq]
  split <;> simp_all <;> omega

/-- The position reached after reading `pre` from the start, when `next` follows: at a newline it is
column 0 of the following line, otherwise the ordinary line and column. -/
def posAt (pre next : Str) : Pos :=
  match next with
  | '\n' :: _ => ⟨lineOf pre + 1, 0, byteLen pre⟩
  | _ => ⟨lineOf pre, colOf pre, byteLen pre⟩

theorem posAt_nl (pre next : Str) : posAt pre ('\n' :: next) = ⟨lineOf pre + 1, 0, byteLen pre⟩ := rfl

theorem posAt_other {pre next : Str} (h : next.head? ≠ some '\n') :
    posAt pre next = ⟨lineOf pre, colOf pre, byteLen pre⟩ := by
  unfold posAt; split
  · simp at h
  · rfl

theorem Pos.step_nl (p : Pos) (w : Nat) (next : Str) : p.step w ('\n' :: next) = ⟨p.line + 1, 0, p.off + w⟩ := rfl

theorem Pos.step_other {p : Pos} {w : Nat} {next : Str} (h : next.head? ≠ some '\n') :
    p.step w next = ⟨p.line, p.col + 1, p.off + w⟩ := by
  unfold Pos.step; split
  · simp at h
  · rfl

theorem posAt_snoc (u : Str) (c : Char) (next : Str) :
    (posAt u (c :: next)).step c.utf8Size next = posAt (u ++ [c]) next := by
  by_cases hn : next.head? = some '\n'
  · obtain ⟨next', rfl⟩ : ∃ t, next = '\n' :: t := by
      cases next with
      | nil => simp at hn
      | cons a t => exact ⟨t, by simpa using hn⟩
    rw [Pos.step_nl, posAt_nl, byteLen_snoc, lineOf_snoc]
    by_cases hc : c = '\n'
    · subst hc; rw [posAt_nl]; simp
    · rw [posAt_other (by simpa using hc)]; simp [hc]
  · rw [Pos.step_other hn, posAt_other hn, byteLen_snoc, lineOf_snoc, colOf_snoc]
    by_cases hc : c = '\n'
    · subst hc; rw [posAt_nl]; simp
    · rw [posAt_other (by simpa using hc)]; simp [hc]

theorem Pos.init_eq (doc : Str) : Pos.init doc = posAt [] doc := by
  by_cases h : doc.head? = some '\n'
  · obtain ⟨t, rfl⟩ : ∃ t, doc = '\n' :: t := by
      cases doc with
      | nil => simp at h
      | cons a t => exact ⟨t, by simpa using h⟩
    rfl
  · rw [posAt_other h]; unfold Pos.init; rw [Pos.step_other h]; rfl

/-- The state stands inside the document at the place its position says. -/
def InDoc (doc : Str) (st : PSt) : Prop := ∃ pre, doc = pre ++ st.rest ∧ st.pos = posAt pre st.rest

theorem InDoc.start (doc : Str) : InDoc doc (PSt.start doc) := ⟨[], rfl, Pos.init_eq doc⟩

theorem posAt_adv (u w next : Str) : (posAt u (w ++ next)).adv w next = posAt (u ++ w) next := by
  induction w generalizing u with
  | nil => simp [Pos.adv]
  | cons c w ih =>
    simp only [List.cons_append, Pos.adv]
    rw [posAt_snoc u c (w ++ next), ih (u ++ [c])]
    simp

theorem adv_init (pre next : Str) : (Pos.init (pre ++ next)).adv pre next = posAt pre next := by
  rw [Pos.init_eq, posAt_adv]; rfl

theorem InDoc.moved {doc : Str} {a b : PSt} {w : Str} (h : InDoc doc a) (m : Moved a w b) : InDoc doc b := by
  obtain ⟨pre, h1, h2⟩ := h
  refine ⟨pre ++ w, by rw [h1, m.1, List.append_assoc], ?_⟩
  rw [m.2, h2, m.1, posAt_adv]

theorem InDoc.same {doc : Str} {a b : PSt} (hr : a.rest = b.rest) (hp : a.pos = b.pos) (h : InDoc doc a) : InDoc doc b := by
  obtain ⟨pre, h1, h2⟩ := h
  exact ⟨pre, by rw [← hr]; exact h1, by rw [← hr, ← hp]; exact h2⟩

/-! ### character classes, exactly -/

theorem push_skip (st : PSt) (w next : Str) : (st.skip w next).push = st.push.skip w next := rfl

/-- A loop over a character class reads exactly the longest matching prefix. -/
theorem big_star_cls (g : Grammar) (neg cs rs) : ∀ (w : Str) (st : PSt) (next : Str), st.rest = w ++ next →
    (∀ c ∈ w, clsMatches neg cs rs c = true) → (∀ c ∈ next.head?, clsMatches neg cs rs c = false) →
    ∃ st', Big g (.star (.cls neg cs rs)) st (.ok (.list (w.map fun c => .bytes [c])) st') ∧
      Moved st w st' ∧ st'.store = st.store ∧ st'.env = st.env ∧ st'.invert = st.invert := by
  intro w
  induction w with
  | nil =>
    intro st next hr _ hn
    have hf : runCls neg cs rs st.push = .fail (st.push.failAt false st.push.pos) := by
      apply runCls_fail
      intro c r hc
      apply hn
      have : st.rest = c :: r := hc
      rw [hr, List.nil_append] at this
      simp [this]
    have hb := Big.cls (g := g) neg cs rs st.push
    rw [hf] at hb
    exact ⟨_, .starStop hb, ⟨by simp [PSt.pop, PSt.push], by simp [PSt.pop, PSt.push, Pos.adv]⟩,
      by simp [PSt.pop, PSt.push], rfl, by simp [PSt.pop, PSt.push]⟩
  | cons c w ih =>
    intro st next hr hw hn
    have hs : runCls neg cs rs st.push = _ := runCls_ok (st := st.push) (c := c) (r := w ++ next) hr (hw c (by simp))
    have hb := Big.cls (g := g) neg cs rs st.push
    rw [hs] at hb
    obtain ⟨st', h1, h2, h3, h4, h5⟩ := ih (((st.push.skip [c] (w ++ next)).failAt true st.push.pos).pop st) next
      (by simp [PSt.pop, PSt.skip]) (fun d hd => hw d (by simp [hd])) hn
    refine ⟨st', .starMore hb h1, ?_, ?_, ?_, ?_⟩
    · have hm : Moved st [c] (((st.push.skip [c] (w ++ next)).failAt true st.push.pos).pop st) :=
        ⟨by simp [PSt.pop, PSt.skip, hr], by simp [PSt.pop, PSt.skip, PSt.push]⟩
      exact hm.trans h2
    · simpa [PSt.pop, PSt.skip, PSt.push] using h3
    · simpa [PSt.pop, PSt.skip, PSt.push] using h4
    · simpa [PSt.pop, PSt.skip, PSt.push] using h5

theorem takeWhile_split (p : Char → Bool) (l : Str) : ∃ w next, l = w ++ next ∧ (∀ c ∈ w, p c = true) ∧
    (∀ c ∈ next.head?, p c = false) := by
  refine ⟨l.takeWhile p, l.dropWhile p, (List.takeWhile_append_dropWhile).symm, ?_, ?_⟩
  · intro c hc; exact (List.all_eq_true.mp (List.all_takeWhile (p := p) (l := l))) c hc
  · intro c hc
    induction l with
    | nil => simp at hc
    | cons d l ih =>
      rw [List.dropWhile_cons] at hc
      split at hc
      · exact ih hc
      · rename_i hd; simp at hc; subst hc; simpa using hd

theorem wp_of_big {g n t st v st'} {K : Val → PSt → Prop} (h : Big g t st (.ok v st')) (hk : K v st') : wp g n t st K := by
  intro m _ r hr
  have := (run_sound _ _ _ _ _ hr).det h
  subst this; exact hk

theorem wp_of_fail {g n t st st'} {K : Val → PSt → Prop} (h : Big g t st (.fail st')) : wp g n t st K := by
  intro m _ r hr
  have := (run_sound _ _ _ _ _ hr).det h
  subst this; trivial

theorem wp_star_cls {g n neg cs rs st} {K : Val → PSt → Prop}
    (h : ∀ w next st', st.rest = w ++ next → (∀ c ∈ w, clsMatches neg cs rs c = true) →
      (∀ c ∈ next.head?, clsMatches neg cs rs c = false) → Moved st w st' → st'.rest = next → st'.env = st.env →
      st'.store = st.store → K (.list (w.map fun c => .bytes [c])) st') :
    wp g n (.star (.cls neg cs rs)) st K := by
  obtain ⟨w, next, hr, hw, hn⟩ := takeWhile_split (clsMatches neg cs rs) st.rest
  obtain ⟨st', h1, h2, h3, h4, h5⟩ := big_star_cls g neg cs rs w st next hr hw hn
  refine wp_of_big h1 (h w next st' hr hw hn h2 ?_ h4 h3)
  have := h2.1; rw [hr] at this; exact (List.append_cancel_left this).symm

theorem big_plus_cls (g : Grammar) (neg cs rs) (c : Char) (w : Str) (st : PSt) (next : Str) (hr : st.rest = c :: w ++ next)
    (hw : ∀ d ∈ c :: w, clsMatches neg cs rs d = true) (hn : ∀ d ∈ next.head?, clsMatches neg cs rs d = false) :
    ∃ st', Big g (.expr (.plus (.cls neg cs rs))) st (.ok (.list ((c :: w).map fun c => .bytes [c])) st') ∧
      Moved st (c :: w) st' ∧ st'.store = st.store ∧ st'.env = st.env ∧ st'.invert = st.invert := by
  have hs : runCls neg cs rs st.push = _ := runCls_ok (st := st.push) (c := c) (r := w ++ next) hr (hw c (by simp))
  have hb := Big.cls (g := g) neg cs rs st.push
  rw [hs] at hb
  obtain ⟨st', h1, h2, h3, h4, h5⟩ := big_star_cls g neg cs rs w
    (((st.push.skip [c] (w ++ next)).failAt true st.push.pos).pop st) next
    (by simp [PSt.pop, PSt.skip]) (fun d hd => hw d (by simp [hd])) hn
  refine ⟨st', .plusOk hb h1, ?_, ?_, ?_, ?_⟩
  · have hm : Moved st [c] (((st.push.skip [c] (w ++ next)).failAt true st.push.pos).pop st) :=
      ⟨by simpa [PSt.pop, PSt.skip] using hr, by simp [PSt.pop, PSt.skip, PSt.push]⟩
    exact hm.trans h2
  · simpa [PSt.pop, PSt.skip, PSt.push] using h3
  · simpa [PSt.pop, PSt.skip, PSt.push] using h4
  · simpa [PSt.pop, PSt.skip, PSt.push] using h5

theorem big_plus_cls_fail (g : Grammar) (neg cs rs) (st : PSt)
    (hn : ∀ d ∈ st.rest.head?, clsMatches neg cs rs d = false) :
    ∃ st', Big g (.expr (.plus (.cls neg cs rs))) st (.fail st') ∧ st'.store = st.store := by
  have hf : runCls neg cs rs st.push = .fail (st.push.failAt false st.push.pos) := by
    apply runCls_fail
    intro c r hc
    apply hn
    have : st.rest = c :: r := hc
    simp [this]
  have hb := Big.cls (g := g) neg cs rs st.push
  rw [hf] at hb
  exact ⟨_, .plusFail hb, by simp [PSt.pop, PSt.push]⟩

theorem wp_plus_cls {g n neg cs rs st} {K : Val → PSt → Prop}
    (h : ∀ w next st', w ≠ [] → st.rest = w ++ next → (∀ c ∈ w, clsMatches neg cs rs c = true) →
      (∀ c ∈ next.head?, clsMatches neg cs rs c = false) → Moved st w st' → st'.rest = next → st'.env = st.env →
      st'.store = st.store → K (.list (w.map fun c => .bytes [c])) st') :
    wp g n (.expr (.plus (.cls neg cs rs))) st K := by
  obtain ⟨w, next, hr, hw, hn⟩ := takeWhile_split (clsMatches neg cs rs) st.rest
  cases w with
  | nil =>
    obtain ⟨st', h1, _⟩ := big_plus_cls_fail g neg cs rs st (by rw [hr]; exact hn)
    exact wp_of_fail h1
  | cons c w =>
    obtain ⟨st', h1, h2, h3, h4, h5⟩ := big_plus_cls g neg cs rs c w st next hr hw hn
    refine wp_of_big h1 (h (c :: w) next st' (by simp) hr hw hn h2 ?_ h4 h3)
    have := h2.1; rw [hr] at this; exact (List.append_cancel_left this).symm

end Booklit.Peg
