import Verif.Lemmas.SurfaceParse
import Verif.Lemmas.PegTerm

/-!
The mutual induction: every part of a surface document is read as its tree.
-/

namespace Booklit.Peg

open Booklit Booklit.Src

variable {inp next mid : Str} {s s' s1 : Option Nat} {env : Env} {K K1 : Val → Env → Prop}

theorem isText_ne {c : Char} (h : isText c = true) : c ≠ '\n' ∧ c ≠ '\r' ∧ c ≠ '{' ∧ c ≠ '\\' ∧ c ≠ '}' := by
  simp only [isText, Bool.not_eq_true', Bool.or_eq_false_iff, beq_eq_false_iff_ne, ne_eq] at h
  exact ⟨h.2, h.1.2, h.1.1.1.2, h.1.1.1.1, h.1.1.2⟩

mutual
/-- How a word's text begins. -/
theorem word_head (nl : Str) : ∀ (w : Word) (u : Str), w.ok nl u → ∃ c t, w.print nl = c :: t ∧ c ≠ '\n' ∧ c ≠ '\r' ∧
    (c = '{' → ∃ d t', t = d :: t' ∧ d ≠ '\n' ∧ d ≠ '\r')
  | .mk v t, u, h => by
    simp only [Word.ok] at h
    obtain ⟨c, t', e, h1, h2, h3⟩ := vl_head nl v h.1
    refine ⟨c, t' ++ printTrail t, by simp [Word.print, e], h1, h2, ?_⟩
    intro hc
    obtain ⟨d, t'', e', hd⟩ := h3 hc
    exact ⟨d, t'' ++ printTrail t, by simp [e'], hd⟩
theorem vl_head (nl : Str) : ∀ (v : Vl), v.ok nl → ∃ c t, v.print nl = c :: t ∧ c ≠ '\n' ∧ c ≠ '\r' ∧
    (c = '{' → ∃ d t', t = d :: t' ∧ d ≠ '\n' ∧ d ≠ '\r')
  | .text [], h => by simp [Vl.ok] at h
  | .text (c :: t), h => by
    simp only [Vl.ok] at h
    have := isText_ne (h.2 c (by simp))
    exact ⟨c, t, rfl, this.1, this.2.1, fun e => absurd e this.2.2.1⟩
  | .esc c, _ => ⟨'\\', [c], rfl, by decide, by decide, by simp⟩
  | .call fn args, _ => ⟨'\\', _, rfl, by decide, by decide, by simp⟩
  | .group w, h => by
    simp only [Vl.ok] at h
    obtain ⟨c, t, e, h1, h2, _⟩ := word_head nl w [] h
    exact ⟨'{', w.print nl ++ ['}'], rfl, by decide, by decide, fun _ => ⟨c, t ++ ['}'], by simp [e], h1, h2⟩⟩
  | .empty, _ => ⟨'{', ['}'], rfl, by decide, by decide, fun _ => ⟨'}', [], rfl, by decide, by decide⟩⟩
end

theorem ends_app {v : Vl} {u u0 : Str} (h : v.ends u) (h0 : Stop u0) : v.ends (u ++ u0) := by
  have hh : ∀ c ∈ (u ++ u0).head?, c ∈ u.head? ∨ (c = '\n' ∨ c = '\r' ∨ c = '}') := by
    intro c hc
    cases u with
    | nil => exact Or.inr (h0 c (by simpa using hc))
    | cons => exact Or.inl (by simpa using hc)
  cases v with
  | text s =>
    simp only [Vl.ends] at h ⊢
    intro c hc
    rcases hh c hc with hc | rfl | rfl | rfl
    · exact h c hc
    all_goals decide
  | call fn args =>
    simp only [Vl.ends] at h ⊢
    refine ⟨fun ha c hc => ?_, fun hc => ?_⟩
    · rcases hh c hc with hc | rfl | rfl | rfl
      · exact h.1 ha c hc
      all_goals decide
    · rcases hh '{' hc with hc | hc | hc | hc
      · exact h.2 hc
      all_goals simp at hc
  | esc => trivial
  | group => trivial
  | empty => trivial

theorem ends_trail {v : Vl} {c : Str × CBody} {f : Str} (hc : cmtOk c) (h : v.trailOk c) : v.ends (printCmt c ++ f) := by
  obtain ⟨bl, b⟩ := c
  cases v with
  | text s => simp only [Vl.trailOk] at h; subst h; simp [Vl.ends, printCmt, isText]
  | call fn args =>
    simp only [Vl.trailOk] at h
    cases bl with
    | nil => simp at h
    | cons d bl =>
      have hd := hc.1 d (by simp)
      simp only [isBlank, Bool.or_eq_true, beq_iff_eq] at hd
      simp only [Vl.ends, printCmt, List.cons_append, List.head?_cons, Option.mem_def, Option.some.injEq]
      refine ⟨fun _ e he => ?_, fun he => ?_⟩
      · subst he; rcases hd with rfl | rfl <;> decide
      · simp at he; subst he; simp at hd
  | esc => trivial
  | group => trivial
  | empty => trivial

/-- How values are read. -/
abbrev valE : Expr := .choice [.rule .string, .rule .invoke, .rule .interpolated]

/-- A word, given how its value is read. -/
theorem ok_word {nl : Str} {lead : Option CBody} {v : Vl} {t : Option (Str × CBody)} {u u0 : Str}
    (hl : ∀ b ∈ lead, b.ok) (h : (Word.mk v t).ok nl u) (h0 : Stop u0)
    (hv : ∀ f, v.ends f → Ok (.expr valE) (v.print nl ++ f) s [] f s fun x _ => IsNode v.tree x) :
    OkR .word (printLead lead ++ ((Word.mk v t).print nl ++ (u ++ u0))) s (u ++ u0) s (IsNode (Word.mk v t).tree) := by
  simp only [Word.ok] at h
  obtain ⟨hok, hno, ht⟩ := h
  apply ok_rule
  refine ok_act (w := printLead lead ++ (Word.mk v t).print nl) (s1 := s)
    (K1 := fun _ e => IsNode v.tree (look e .val)) (ok_seq ?_) (by simp) ?_
  · refine ok_cons (mid := (Word.mk v t).print nl ++ (u ++ u0)) (s1 := s) (K1 := fun _ e => e = []) ?_ ?_
    · cases lead with
      | none =>
        refine ok_none (no_comment ?_) rfl
        have := noCmt_app hno h0
        simpa [printLead, Word.print] using this
      | some b =>
        exact ok_opt ((ok_comment (c := ([], b)) ⟨by intro c hc; simp at hc, hl b (by simp)⟩).ok fun _ _ => rfl)
    · rintro _ _ rfl
      refine ok_cons (mid := printTrail t ++ (u ++ u0)) (s1 := s) (K1 := fun x e => IsNode v.tree x ∧ e = [(.val, x)]) ?_ ?_
      · have : v.ends (printTrail t ++ (u ++ u0)) := by
          cases t with
          | none => simp only [printTrail, List.nil_append]; exact ends_app ht.1 h0
          | some c => exact ends_trail ht.1 ht.2
        have := hv _ this
        simp only [Word.print, List.append_assoc]
        exact ok_label (this.mono fun x _ hx => ⟨hx, rfl⟩)
      · rintro x _ ⟨hx, rfl⟩
        have hx' : IsNode v.tree (look [(.val, x)] .val) := by rw [look_hd]; exact hx
        refine ok_cons (mid := u ++ u0) (s1 := s) (K1 := fun _ e => e = [(.val, x)]) ?_ ?_
        · cases t with
          | none => exact ok_none (inp := u ++ u0) (no_comment (noCmt_app ht.2 h0)) rfl
          | some c => exact ok_opt ((ok_comment ht.1).ok fun _ _ => rfl)
        · rintro _ _ rfl
          exact ok_nil fun _ _ _ _ _ _ => hx'
  · intro _ e pos he
    exact ⟨look e .val, rfl, he⟩

theorem no_arg {f : Str} (h : f.head? ≠ some '{') : NoR .argument f s s := by
  apply no_rule; apply no_choice
  refine no_next (no_rule (no_act (no_seq (no_cons (no_lit ?_))))) (no_next (no_rule (no_act (no_seq (no_cons (no_lit ?_)))))
    (no_next (no_rule (no_act (no_seq (no_cons (no_lit ?_))))) no_choice_nil))
  all_goals rintro ⟨n, rfl⟩; simp at h

theorem no_verbatimArg {f : Str} (h : ¬ ∃ r, f = '{' :: '{' :: '{' :: r) : NoR .verbatimArg f s s := by
  apply no_rule
  exact no_act (no_seq (no_cons (no_lit (by rintro ⟨n, hn⟩; exact h ⟨n, hn⟩))))

theorem no_preformattedArg {f : Str} (h : ∀ r, f = '{' :: '{' :: r → r.head? ≠ some '\n' ∧ r.head? ≠ some '\r') :
    NoR .preformattedArg f s s := by
  apply no_rule; apply no_act; apply no_seq
  by_cases hf : ∃ r, f = '{' :: '{' :: r
  · obtain ⟨r, rfl⟩ := hf
    refine no_cons' (K1 := fun _ _ => True) (mid := r) (s1 := s) (fun _ => ok_lit rfl trivial) (no_cons (no_label (no_rule (no_act (no_seq (no_cons ?_))))))
    exact no_lineBreak (h r rfl).1 (h r rfl).2
  · exact no_cons (no_lit (by rintro ⟨n, hn⟩; exact hf ⟨n, hn⟩))

/-- `{ ... }` whose inside is read by one of the three alternatives. -/
theorem ok_arg {body f : Str} {n : Node}
    (h1 : ¬ ∃ r, body ++ '}' :: f = '{' :: '{' :: r)
    (h2 : ∀ r, body ++ '}' :: f = '{' :: r → r.head? ≠ some '\n' ∧ r.head? ≠ some '\r')
    (h : Ok (.choice [.rule .wrappedLine, .rule .paraArg, .rule .emptyArg]) (body ++ '}' :: f) s [] ('}' :: f) s
      fun v _ => IsNode n v ∨ (v = .nil ∧ n = .str [])) :
    OkR .argument ('{' :: (body ++ '}' :: f)) s f s (IsNode n) := by
  apply ok_rule; apply ok_choice
  refine ok_next (no_verbatimArg ?_) (ok_next (no_preformattedArg ?_) (ok_alt ?_))
  · rintro ⟨r, hr⟩; simp at hr; exact h1 ⟨r, hr⟩
  · intro r hr; simp at hr; exact h2 r hr
  refine OkR.ok (Q := IsNode n) (ok_rule ?_) fun _ h => h
  refine ok_act (w := '{' :: (body ++ ['}'])) (s1 := s) (K1 := fun _ e => IsNode n (look e .node) ∨ (look e .node = .nil ∧ n = .str []))
    (ok_seq ?_) (by simp) ?_
  · refine ok_cons (K1 := fun _ e => e = []) (mid := body ++ '}' :: f) (s1 := s) (ok_lit rfl rfl) ?_
    rintro _ _ rfl
    refine ok_cons (K1 := fun x e => (IsNode n x ∨ (x = .nil ∧ n = .str [])) ∧ e = [(.node, x)]) (mid := '}' :: f) (s1 := s)
      (ok_label (ok_opt (ok_choice (h.mono fun x _ hx => ⟨hx, rfl⟩)))) ?_
    rintro x _ ⟨hx, rfl⟩
    refine ok_cons (K1 := fun _ e => e = [(.node, x)]) (mid := f) (s1 := s) (ok_lit rfl rfl) ?_
    rintro _ _ rfl
    refine ok_nil fun _ _ _ _ _ _ => ?_
    rw [look_hd]; exact hx
  · intro _ e pos he
    rcases he with ⟨m, h1, h2⟩ | ⟨h1, h2⟩
    · exact ⟨.node m, by simp [act, h1], m, rfl, h2⟩
    · exact ⟨.node (.str []), by simp [act, h1], _, rfl, by simp [h2, Node.erase]⟩

/-- Spacing then something that is neither spacing nor a paragraph. -/
theorem head_not_nl {f : Str} (h : ∀ c ∈ f.head?, c ≠ '\n' ∧ c ≠ '\r') : f.head? ≠ some '\n' ∧ f.head? ≠ some '\r' :=
  ⟨fun e => (h '\n' (by rw [e]; simp)).1 rfl, fun e => (h '\r' (by rw [e]; simp)).2 rfl⟩

/-- One line of a paragraph and the line break after it. -/
abbrev lineItem : Expr := .act .retL (.seq [.label .ln (.rule .line), .opt (.rule .lineBreak)])

/-- A paragraph and the spacing after it. -/
abbrev paraItem : Expr := .act .retP (.seq [.label .p (.rule .paragraph), .star (.rule .commentSpacing)])

theorem no_line {bl f : Str} (hb : allBlank bl) (hf : Stop f) : NoR .line (bl ++ f) s s := by
  apply no_rule; apply no_act; apply no_seq
  refine no_cons' (K1 := fun _ _ => True) (mid := f) (s1 := s) (fun _ => ok_blanks rfl hb (stop_not_blank hf) fun _ => trivial) ?_
  exact no_cons (no_label (no_plus (no_word hf)))

theorem no_lineItem {bl f : Str} (hb : allBlank bl) (hf : Stop f) : No (.expr lineItem) (bl ++ f) s s :=
  no_act (no_seq (no_cons (no_label (no_line hb hf))))

theorem no_paragraph {bl f : Str} (hb : allBlank bl) (hf : Stop f) : NoR .paragraph (bl ++ f) s s :=
  no_rule (no_act (no_label (no_plus (no_lineItem hb hf))))

theorem no_paraItem {bl f : Str} (hb : allBlank bl) (hf : Stop f) : No (.expr paraItem) (bl ++ f) s s :=
  no_act (no_seq (no_cons (no_label (no_paragraph hb hf))))

/-- A line, given how its words are read. -/
theorem ok_lineItem {nl sep f : Str} {bl : Str} {body : Str} {ns : List Node} (hb : allBlank bl)
    (hh : ∀ c ∈ (body ++ (sep ++ f)).head?, isBlank c = false)
    (hsep : (sep = nl ∧ IsNl nl) ∨ (sep = [] ∧ f.head? ≠ some '\n' ∧ f.head? ≠ some '\r'))
    (h : Ok (.expr (.plus (.rule .word))) (body ++ (sep ++ f)) s [] (sep ++ f) s fun v _ => IsNodes ns v) :
    Ok (.expr lineItem) (bl ++ body ++ sep ++ f) s env f s fun v _ => IsSeq ns v := by
  have hline : OkR .line (bl ++ body ++ sep ++ f) s (sep ++ f) s (IsSeq ns) := by
    apply ok_rule
    refine ok_act (w := bl ++ body) (s1 := s) (K1 := fun _ e => IsNodes ns (look e .words)) (ok_seq ?_) (by simp) ?_
    · refine ok_cons (K1 := fun _ e => e = []) (mid := body ++ (sep ++ f)) (s1 := s) (ok_blanks (by simp) hb hh fun _ => rfl) ?_
      rintro _ _ rfl
      refine ok_cons (K1 := fun x e => IsNodes ns x ∧ e = [(.words, x)]) (ok_label (h.mono fun x _ hx => ⟨hx, rfl⟩)) ?_
      rintro x _ ⟨hx, rfl⟩
      refine ok_nil fun _ _ _ _ => ?_
      rw [look_hd]; exact hx
    · rintro _ e pos ⟨ms, h1, h2⟩
      exact ⟨.node (.seq ms), by simp [act, h1, ifaceNodes_map], _, rfl, h2⟩
  refine ok_act (w := bl ++ body ++ sep) (s1 := s) (K1 := fun _ e => IsSeq ns (look e .ln)) (ok_seq ?_) rfl ?_
  · refine ok_cons (K1 := fun x e => IsSeq ns x ∧ e = (.ln, x) :: env) (mid := sep ++ f) (s1 := s)
      (ok_label (hline.ok fun x hx => ⟨hx, rfl⟩)) ?_
    rintro x _ ⟨hx, rfl⟩
    refine ok_cons (K1 := fun _ e => e = (.ln, x) :: env) (mid := f) (s1 := s) ?_ ?_
    · rcases hsep with ⟨rfl, hnl⟩ | ⟨rfl, h1, h2⟩
      · exact ok_opt ((ok_lineBreak hnl).ok fun _ _ => rfl)
      · exact ok_none (no_lineBreak h1 h2) rfl
    · rintro _ _ rfl
      refine ok_nil fun _ _ _ _ => ?_
      rw [look_hd]; exact hx
  · intro _ e pos he
    exact ⟨look e .ln, rfl, he⟩

/-- A paragraph with its spacing, given how its lines are read. -/
theorem ok_paraItem {nl body f : Str} {ls : List (List Node)} {sp : List Sp} (hnl : IsNl nl) (hsp : ∀ x ∈ sp, x.ok)
    (hf1 : noCmt f) (hf2 : f.head? ≠ some '\n') (hf3 : f.head? ≠ some '\r')
    (h : Ok (.expr (.plus lineItem)) (body ++ (printSp nl sp ++ f)) s [] (printSp nl sp ++ f) s fun v _ => IsSeqs ls v) :
    Ok (.expr paraItem) (body ++ printSp nl sp ++ f) s env f s fun v _ => IsNode (.para ls) v := by
  have hp : OkR .paragraph (body ++ (printSp nl sp ++ f)) s (printSp nl sp ++ f) s (IsNode (.para ls)) := by
    apply ok_rule
    refine ok_act (w := body) (s1 := s) (K1 := fun _ e => IsSeqs ls (look e .lines)) (ok_label (h.mono ?_)) rfl ?_
    · intro v _ hv; rw [look_hd]; exact hv
    · rintro _ e pos ⟨ms, h1, h2⟩
      exact ⟨.node (.para ms), by simp [act, h1, ifaceSequences_map], _, rfl, by simp [Node.erase, h2]⟩
  refine ok_act (w := body ++ printSp nl sp) (s1 := s) (K1 := fun _ e => IsNode (.para ls) (look e .p)) (ok_seq ?_) rfl ?_
  · refine ok_cons (K1 := fun x e => IsNode (.para ls) x ∧ e = (.p, x) :: env) (mid := printSp nl sp ++ f) (s1 := s)
      (ok_label (by
        rw [List.append_assoc]
        exact hp.ok fun x hx => ⟨hx, rfl⟩)) ?_
    rintro x _ ⟨hx, rfl⟩
    refine ok_cons (K1 := fun _ e => e = (.p, x) :: env) (ok_star (ok_spacings hnl hf1 hf2 hf3 _ sp hsp)) ?_
    rintro _ _ rfl
    refine ok_nil fun _ _ _ _ => ?_
    rw [look_hd]; exact hx
  · intro _ e pos he
    exact ⟨look e .p, rfl, he⟩

/-- Paragraphs with the spacing before them, given how each is read. -/
theorem ok_paragraphs {nl body f : Str} {ns : List Node} {sp : List Sp} (hnl : IsNl nl) (hsp : ∀ x ∈ sp, x.ok)
    (hb1 : noCmt (body ++ f)) (hb2 : (body ++ f).head? ≠ some '\n') (hb3 : (body ++ f).head? ≠ some '\r')
    (h : Ok (.expr (.plus paraItem)) (body ++ f) s [] f s fun v _ => IsNodes ns v) :
    OkR .paragraphs (printSp nl sp ++ body ++ f) s f s (IsNode (.seq ns)) := by
  apply ok_rule
  refine ok_act (w := printSp nl sp ++ body) (s1 := s) (K1 := fun _ e => IsNodes ns (look e .paragraphs)) (ok_seq ?_) rfl ?_
  · refine ok_cons (K1 := fun _ e => e = []) (mid := body ++ f) (s1 := s)
      (by simpa using ok_star (ok_spacings hnl hb1 hb2 hb3 _ sp hsp)) ?_
    rintro _ _ rfl
    refine ok_cons (K1 := fun x e => IsNodes ns x ∧ e = [(.paragraphs, x)]) (ok_label (h.mono fun x _ hx => ⟨hx, rfl⟩)) ?_
    rintro x _ ⟨hx, rfl⟩
    refine ok_nil fun _ _ _ _ => ?_
    rw [look_hd]; exact hx
  · rintro _ e pos ⟨ms, h1, h2⟩
    exact ⟨.node (.seq ms), by simp [act, h1, ifaceNodes_map], _, rfl, by simp [Node.erase, h2]⟩

end Booklit.Peg
