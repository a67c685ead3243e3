import Verif.Lemmas.PegFwd
import Verif.Spec.Surface

/-!
Reading the leaves of surface documents: blanks, line breaks, comments, verbatim text.
-/

namespace Booklit.Peg

open Booklit Booklit.Src

variable {inp next mid : Str} {s s' s1 : Option Nat} {env : Env} {K K1 : Val → Env → Prop}

/-- Line endings. -/
def IsNl (nl : Str) : Prop := nl = ['\n'] ∨ nl = ['\r', '\n']

/-- Text at which words end. -/
def Stop (u : Str) : Prop := ∀ c ∈ u.head?, c = '\n' ∨ c = '\r' ∨ c = '}'

theorem blank_cls (c : Char) : clsMatches false [' ', '\t'] [] c = isBlank c := by
  simp only [clsMatches, isBlank, List.contains, List.elem, List.any_nil, Bool.or_false, Bool.bne_false]
  cases c == ' ' <;> cases c == '\t' <;> rfl

theorem text_cls (c : Char) : clsMatches true ['\\', '{', '}', '\r', '\n'] [] c = isText c := by
  simp only [clsMatches, isText, List.contains, List.elem, List.any_nil, Bool.or_false]
  cases c == '\\' <;> cases c == '{' <;> cases c == '}' <;> cases c == '\r' <;> cases c == '\n' <;> rfl

theorem stop_not_blank {u : Str} (h : Stop u) : ∀ c ∈ u.head?, isBlank c = false := by
  intro c hc; rcases h c hc with rfl | rfl | rfl <;> decide

theorem stop_nil : Stop [] := by simp [Stop]
theorem stop_brace (u : Str) : Stop ('}' :: u) := by simp [Stop]
theorem stop_nl {nl : Str} (h : IsNl nl) (u : Str) : Stop (nl ++ u) := by
  rcases h with rfl | rfl <;> simp [Stop]

theorem nl_ne {nl : Str} (h : IsNl nl) : nl ≠ [] := by rcases h with rfl | rfl <;> simp

theorem ok_blanks {bl : Str} (h : inp = bl ++ next) (hb : allBlank bl) (hn : ∀ c ∈ next.head?, isBlank c = false)
    (hk : ∀ v, K v env) : Ok (.expr blanks) inp s env next s K :=
  ok_star_cls h (fun c hc => by rw [blank_cls]; exact hb c hc) (fun c hc => by rw [blank_cls]; exact hn c hc) (hk _)

theorem blank_split (inp : Str) : ∃ bl next, inp = bl ++ next ∧ allBlank bl ∧ ∀ c ∈ next.head?, isBlank c = false :=
  takeWhile_split isBlank inp

theorem ok_lineBreak {nl : Str} (h : IsNl nl) : OkR .lineBreak (nl ++ next) s next s fun _ => True := by
  apply ok_rule; apply ok_choice
  rcases h with rfl | rfl
  · exact ok_alt (ok_lit rfl trivial)
  · refine ok_next (no_lit ?_) (ok_alt (ok_lit rfl trivial))
    rintro ⟨n, hn⟩; simp at hn

theorem no_lineBreak (h1 : inp.head? ≠ some '\n') (h2 : inp.head? ≠ some '\r') : NoR .lineBreak inp s s := by
  apply no_rule; apply no_choice
  refine no_next (no_lit ?_) (no_next (no_lit ?_) no_choice_nil)
  · rintro ⟨n, rfl⟩; simp at h1
  · rintro ⟨n, rfl⟩; simp at h2

/-! ### comments -/

theorem no_comment (h : noCmt inp) : NoR .comment inp s s := by
  apply no_rule; apply no_seq
  obtain ⟨bl, rest, e, hb, hn⟩ := blank_split inp
  refine no_cons' (mid := rest) (s1 := s) (K1 := fun _ _ => True) (fun env => ok_blanks e hb hn fun _ => trivial) (no_cons (no_lit ?_))
  rintro ⟨n, rfl⟩
  exact h bl n hb e

theorem noCmt_of_head {c : Char} {t : Str} (h1 : isBlank c = false) (h2 : ¬ (c = '{' ∧ t.head? = some '-')) : noCmt (c :: t) := by
  intro bl t' hb he
  cases bl with
  | nil => simp at he; exact h2 ⟨he.1, by simp [he.2]⟩
  | cons b bl => simp at he; have := hb b (by simp); rw [← he.1, h1] at this; simp at this

theorem noCmt_nil : noCmt [] := by intro bl t _ h; simp at h

theorem noCmt_stop {u : Str} (h : Stop u) : noCmt u := by
  cases u with
  | nil => exact noCmt_nil
  | cons c t =>
    apply noCmt_of_head (stop_not_blank h c (by simp))
    rintro ⟨rfl, _⟩; have := h '{' (by simp); simp at this

theorem noCmt_blank {c : Char} {t : Str} (hc : isBlank c = true) : noCmt (c :: t) ↔ noCmt t := by
  constructor
  · intro h bl t' hb he
    exact h (c :: bl) t' (by intro d hd; rcases List.mem_cons.mp hd with rfl | hd; exact hc; exact hb d hd) (by simp [he])
  · intro h bl t' hb he
    cases bl with
    | nil => simp at he; rw [he.1] at hc; simp [isBlank] at hc
    | cons b bl => simp at he; exact h bl t' (fun d hd => hb d (by simp [hd])) he.2

theorem noCmt_blanks {bl t : Str} (hb : allBlank bl) : noCmt (bl ++ t) ↔ noCmt t := by
  induction bl with
  | nil => rfl
  | cons b bl ih =>
    rw [List.cons_append, noCmt_blank (hb b (by simp))]
    exact ih fun c hc => hb c (by simp [hc])

/-- Something that ends words does not complete a comment opening. -/
theorem noCmt_app {x u : Str} (h : noCmt x) (hu : Stop u) : noCmt (x ++ u) := by
  induction x with
  | nil => exact noCmt_stop hu
  | cons c x ih =>
    by_cases hc : isBlank c = true
    · rw [List.cons_append, noCmt_blank hc]; exact ih ((noCmt_blank hc).mp h)
    · apply noCmt_of_head (by simpa using hc)
      rintro ⟨rfl, h2⟩
      cases x with
      | nil =>
        have h2 : u.head? = some '-' := h2
        have := hu '-' (by rw [h2]; simp); simp at this
      | cons d x =>
        simp at h2; subst h2
        exact h [] x (by intro c hc; simp at hc) rfl

/-- The body of a comment, with the character and nested-comment alternatives. -/
abbrev cBody : Expr := .choice [.rule .comment, .seq [.not (.lit ['-', '}']), .any]]

theorem cBody_char {c : Char} {t : Str} (h1 : noCmt (c :: t)) (h2 : ¬ (c = '-' ∧ t.head? = some '}')) :
    Ok (.expr cBody) (c :: t) s env t s fun _ _ => True := by
  apply ok_choice
  refine ok_next (no_comment h1) (ok_alt (ok_seq (ok_cons (K1 := fun _ _ => True) (ok_not (no_lit ?_) trivial) ?_)))
  · rintro ⟨n, hn⟩; simp at hn; exact h2 ⟨hn.1, by simp [hn.2]⟩
  · intro v e _; exact ok_cons (K1 := fun _ _ => True) (ok_any rfl trivial) fun _ _ _ => ok_nil fun _ _ _ _ => trivial

theorem cBody_stop : No (.expr cBody) ('-' :: '}' :: next) s s := by
  apply no_choice
  refine no_next (no_comment (noCmt_of_head (by decide) (by simp))) (no_next (no_seq (no_cons (no_not (next := next) (ok_lit rfl trivial)))) no_choice_nil)

theorem ok_moreT {e} (h : Ok (.expr e) inp s [] mid s1 fun _ _ => True) (h' : Ok (.star e) mid s1 env next s' fun _ _ => True) :
    Ok (.star e) inp s env next s' fun _ _ => True :=
  ok_more (Q := fun _ => True) h fun _ _ => h'.mono fun _ _ _ _ _ => trivial

/-- Blanks before something that is not a comment are read one by one. -/
theorem cBody_blanks {t : Str} (ht : noCmt t) (k : Ok (.star cBody) t s env next s fun _ _ => True) :
    ∀ bl : Str, allBlank bl → Ok (.star cBody) (bl ++ t) s env next s fun _ _ => True
  | [], _ => k
  | b :: bl, hb => by
    have hb' : allBlank bl := fun c hc => hb c (by simp [hc])
    refine ok_moreT (mid := bl ++ t) (s1 := s) (cBody_char ?_ ?_) (cBody_blanks ht k bl hb')
    · exact (noCmt_blank (hb b (by simp))).mpr ((noCmt_blanks hb').mpr ht)
    · rintro ⟨rfl, _⟩; have := hb '-' (by simp); simp [isBlank] at this

theorem okComment_of {bl body : Str} (hb : allBlank bl)
    (h : ∀ env, Ok (.star cBody) (body ++ '-' :: '}' :: next) s env ('-' :: '}' :: next) s fun _ _ => True) :
    OkR .comment (bl ++ '{' :: '-' :: (body ++ '-' :: '}' :: next)) s next s fun _ => True := by
  apply ok_rule; apply ok_seq
  refine ok_cons (K1 := fun _ _ => True) (ok_blanks rfl hb (by simp [isBlank]) fun _ => trivial) fun _ _ _ => ?_
  refine ok_cons (K1 := fun _ _ => True) (mid := body ++ '-' :: '}' :: next) (ok_lit rfl trivial) fun _ _ _ => ?_
  refine ok_cons (K1 := fun _ _ => True) (ok_star (h _)) fun _ _ _ => ?_
  refine ok_cons (K1 := fun _ _ => True) (ok_lit rfl trivial) fun _ _ _ => ?_
  exact ok_nil fun _ _ _ _ _ _ _ _ => trivial

theorem cBody_ok : ∀ (b : CBody), b.ok → ∀ (bl : Str), allBlank bl → ∀ (next : Str) (env : Env),
    Ok (.star cBody) (bl ++ (b.print ++ '-' :: '}' :: next)) s env ('-' :: '}' :: next) s fun _ _ => True
  | .nil, _, bl, hb, next, env => by
    exact cBody_blanks (noCmt_of_head (by decide) (by simp)) (ok_stop cBody_stop trivial) bl hb
  | .char c r, h, bl, hb, next, env => by
    obtain ⟨hr, h1, h2⟩ := h
    by_cases hc : isBlank c = true
    · have := cBody_ok r hr (bl ++ [c]) (by
        intro d hd; rcases List.mem_append.mp hd with hd | hd
        · exact hb d hd
        · simp at hd; subst hd; exact hc) next env
      simpa [CBody.print] using this
    · have hh : ∀ d, (r.print ++ ['-', '}']).head? = some d ↔ (r.print ++ '-' :: '}' :: next).head? = some d := by
        intro d; cases r.print <;> simp
      have hno : noCmt (c :: (r.print ++ '-' :: '}' :: next)) :=
        noCmt_of_head (by simpa using hc) (by rintro ⟨rfl, h⟩; exact h2 ⟨rfl, (hh _).mpr h⟩)
      have htail := cBody_ok r hr [] (by intro c hc; simp at hc) next env
      simp only [List.nil_append] at htail
      have := cBody_blanks (s := s) (t := c :: (r.print ++ '-' :: '}' :: next)) hno
        (ok_moreT (cBody_char hno (by rintro ⟨rfl, h⟩; exact h1 ⟨rfl, (hh _).mpr h⟩)) htail) bl hb
      simpa [CBody.print] using this
  | .nest bl2 i r, h, bl, hb, next, env => by
    obtain ⟨hb2, hi, hr⟩ := h
    have htail := cBody_ok r hr [] (by intro c hc; simp at hc) next env
    have hin : ∀ env, Ok (.star cBody) (i.print ++ '-' :: '}' :: (r.print ++ '-' :: '}' :: next)) s env
        ('-' :: '}' :: (r.print ++ '-' :: '}' :: next)) s fun _ _ => True := by
      intro env
      have := cBody_ok i hi [] (by intro c hc; simp at hc) (r.print ++ '-' :: '}' :: next) env
      simpa using this
    have hc := okComment_of (s := s) (next := r.print ++ '-' :: '}' :: next) (bl := bl ++ bl2) (by
      intro d hd; rcases List.mem_append.mp hd with hd | hd
      · exact hb d hd
      · exact hb2 d hd) hin
    have : Ok (.expr cBody) _ s [] (r.print ++ '-' :: '}' :: next) s fun _ _ => True :=
      ok_choice (ok_alt (hc.ok fun _ _ => trivial))
    have := ok_moreT this htail
    simpa [CBody.print] using this

theorem ok_comment {c : Str × CBody} (h : cmtOk c) : OkR .comment (printCmt c ++ next) s next s fun _ => True := by
  have := okComment_of (s := s) (next := next) (bl := c.1) (body := c.2.print) h.1 fun env => by
    simpa using cBody_ok (s := s) c.2 h.2 [] (by intro c hc; simp at hc) next env
  simpa [printCmt] using this

/-! ### spacing between paragraphs -/

theorem ok_spacing {nl : Str} (hnl : IsNl nl) {x : Sp} (h : x.ok) :
    OkR .commentSpacing (x.print nl ++ next) s next s fun _ => True := by
  apply ok_rule; apply ok_choice
  cases x with
  | nl => exact ok_alt ((ok_lineBreak hnl).ok fun _ _ => trivial)
  | cmt bl b =>
    refine ok_next (no_lineBreak ?_ ?_) (ok_alt ((ok_comment h).ok fun _ _ => trivial))
    · have hb := h.1
      simp only [Sp.print, printCmt]
      cases bl with
      | nil => simp
      | cons c bl => have := hb c (by simp); rintro h; simp at h; subst h; simp [isBlank] at this
    · have hb := h.1
      simp only [Sp.print, printCmt]
      cases bl with
      | nil => simp
      | cons c bl => have := hb c (by simp); rintro h; simp at h; subst h; simp [isBlank] at this

theorem no_spacing (h1 : noCmt inp) (h2 : inp.head? ≠ some '\n') (h3 : inp.head? ≠ some '\r') :
    NoR .commentSpacing inp s s := by
  apply no_rule; apply no_choice
  exact no_next (no_lineBreak h2 h3) (no_next (no_comment h1) no_choice_nil)

theorem ok_spacings {nl : Str} (hnl : IsNl nl) (h1 : noCmt next) (h2 : next.head? ≠ some '\n') (h3 : next.head? ≠ some '\r')
    (env : Env) : ∀ (sp : List Sp), (∀ x ∈ sp, x.ok) →
    Ok (.star (.rule .commentSpacing)) (printSp nl sp ++ next) s env next s fun _ e => e = env
  | [], _ => ok_stop (no_spacing h1 h2 h3) rfl
  | x :: sp, h => by
    refine ok_more (Q := fun _ => True) (mid := printSp nl sp ++ next) (s1 := s) ?_ ?_
    · have := ok_spacing (s := s) (next := printSp nl sp ++ next) hnl (h x (by simp))
      simpa [printSp] using this.ok (env := []) fun _ _ => trivial
    · intro v _
      exact (ok_spacings hnl h1 h2 h3 env sp fun y hy => h y (by simp [hy])).mono fun _ _ h _ _ => h

/-! ### words -/

theorem no_string (h : ∀ c ∈ inp.head?, isText c = false) (h' : inp.head? ≠ some '\\') : NoR .string inp s s := by
  apply no_rule; apply no_choice
  refine no_next (no_act (no_label (no_plus_cls ?_))) (no_next (no_act (no_seq (no_cons (no_lit ?_)))) no_choice_nil)
  · intro c hc; rw [text_cls]; exact h c hc
  · rintro ⟨n, rfl⟩; simp at h'

theorem no_invoke (h' : inp.head? ≠ some '\\') : NoR .invoke inp s s := by
  apply no_rule
  refine no_act (no_seq (no_cons (no_lit ?_)))
  rintro ⟨n, rfl⟩; simp at h'

theorem no_interpolated (h' : inp.head? ≠ some '{') : NoR .interpolated inp s s := by
  apply no_rule
  refine no_act (no_seq (no_cons (no_lit ?_)))
  rintro ⟨n, rfl⟩; simp at h'

theorem no_word (h : Stop inp) : NoR .word inp s s := by
  apply no_rule; apply no_act; apply no_seq
  refine no_cons' (K1 := fun _ _ => True) (s1 := s) (fun _ => ok_none (no_comment (noCmt_stop h)) trivial) (no_cons (no_label ?_))
  apply no_choice
  have h1 : inp.head? ≠ some '\\' := by intro e; have := h '\\' (by rw [e]; simp); simp at this
  have h2 : inp.head? ≠ some '{' := by intro e; have := h '{' (by rw [e]; simp); simp at this
  refine no_next (no_string ?_ h1) (no_next (no_invoke h1) (no_next (no_interpolated h2) no_choice_nil))
  intro c hc; rcases h c hc with rfl | rfl | rfl <;> decide

end Booklit.Peg
