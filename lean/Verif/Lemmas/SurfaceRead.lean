import Verif.Lemmas.SurfaceMain

namespace Booklit.Peg

open Booklit Booklit.Src

variable {next mid : Str} {s s' s1 : Option Nat} {K K1 : Val → Env → Prop}

/-- Where a group of paragraphs ends. -/
def AtEnd (f : Str) : Prop := f = [] ∨ f.head? = some '}'

theorem AtEnd.stop {f : Str} (h : AtEnd f) : Stop f := by
  rcases h with rfl | h
  · exact stop_nil
  · intro c hc; rw [h] at hc; simp at hc; simp [← hc]

theorem AtEnd.head {f : Str} (h : AtEnd f) : f.head? ≠ some '\n' ∧ f.head? ≠ some '\r' := by
  rcases h with rfl | h
  · simp
  · rw [h]; simp

theorem blank_ne {c : Char} (h : isBlank c = true) : c ≠ '\n' ∧ c ≠ '\r' := by
  constructor <;> (rintro rfl; simp [isBlank] at h)

theorem head_blanks {bl f : Str} (hb : allBlank bl) (hf : f.head? ≠ some '\n' ∧ f.head? ≠ some '\r') :
    (bl ++ f).head? ≠ some '\n' ∧ (bl ++ f).head? ≠ some '\r' := by
  cases bl with
  | nil => exact hf
  | cons b bl => have := blank_ne (hb b (by simp)); simp [this]

theorem words_start {nl : Str} {ws : List Word} (h : okWords nl ws) (hne : ws ≠ []) :
    noCmt (printWords nl ws) ∧ ∃ c t, printWords nl ws = c :: t ∧ c ≠ '\n' ∧ c ≠ '\r' := by
  cases ws with
  | nil => exact absurd rfl hne
  | cons w ws =>
    simp only [okWords] at h
    obtain ⟨c, t, e, h1, h2, _⟩ := word_head nl w _ h.1
    refine ⟨?_, c, t ++ printWords nl ws, by simp [printWords, e], h1, h2⟩
    cases w with
    | mk v t =>
      simp only [Word.ok] at h
      have := h.1.2.1
      simpa [printWords, Word.print] using this

/-- The text of a line, and of paragraphs, does not look like spacing. -/
theorem lines_start {nl : Str} (hnl : IsNl nl) {e : Bool} {ls : List Line} {F : Str} (h : okLines nl ls) (hne : ls ≠ [])
    (hl : ∀ b c ws, ls.head? ≠ some (.mk b (some c) ws)) (hF : e = false → Stop F) :
    noCmt (printLines nl e ls ++ F) ∧ (printLines nl e ls ++ F).head? ≠ some '\n' ∧ (printLines nl e ls ++ F).head? ≠ some '\r' := by
  cases ls with
  | nil => exact absurd rfl hne
  | cons l ls =>
    cases l with
    | mk bl lead ws =>
      cases lead with
      | some c => exact absurd rfl (hl bl c ws)
      | none =>
        simp only [okLines] at h
        obtain ⟨hb, _, hws, _, hw, _⟩ := h
        obtain ⟨h1, c, t, e1, h2, h3⟩ := words_start hw hws
        have hstop : Stop ((if ls.isEmpty && !e then [] else nl) ++ (printLines nl e ls ++ F)) := by
          split
          · rename_i hc
            simp only [Bool.and_eq_true, List.isEmpty_iff, Bool.not_eq_true'] at hc
            obtain ⟨rfl, rfl⟩ := hc
            exact hF rfl
          · exact stop_nl hnl _
        have heq : printLines nl e (.mk bl none ws :: ls) ++ F =
            bl ++ (printWords nl ws ++ ((if ls.isEmpty && !e then [] else nl) ++ (printLines nl e ls ++ F))) := by
          simp [printLines, Line.print, printLead]
        rw [heq]
        refine ⟨(noCmt_blanks hb).mpr (noCmt_app h1 hstop), ?_⟩
        apply head_blanks hb
        rw [e1]; simp [h2, h3]

theorem paras_start {nl bl : Str} (hnl : IsNl nl) {ps : List Para} {f0 : Str} (h : okParas nl bl ps) (hb : allBlank bl)
    (hf : AtEnd f0) :
    noCmt (printParas nl ps ++ (bl ++ f0)) ∧ (printParas nl ps ++ (bl ++ f0)).head? ≠ some '\n' ∧
      (printParas nl ps ++ (bl ++ f0)).head? ≠ some '\r' := by
  cases ps with
  | nil =>
    simp only [printParas, List.nil_append]
    exact ⟨(noCmt_blanks hb).mpr (noCmt_stop hf.stop), head_blanks hb hf.head⟩
  | cons p ps =>
    cases p with
    | mk ls e sp =>
      simp only [okParas] at h
      obtain ⟨h1, h2, h3, _, h5, _⟩ := h
      have := lines_start (e := e) hnl (F := printSp nl sp ++ (printParas nl ps ++ (bl ++ f0))) h3 h1 h2 (by
        intro he
        obtain ⟨rfl, rfl, rfl⟩ := h5 he
        simpa [printSp, printParas] using hf.stop)
      simpa [printParas, Para.print] using this

theorem IsSeq.toNode {ns v} (h : IsSeq ns v) : IsNode (.seq ns) v := by
  obtain ⟨ms, e, h⟩ := h; exact ⟨_, e, by simp [Node.erase, h]⟩

theorem printSp_cons_stop {nl : Str} (hnl : IsNl nl) {sp : List Sp} (h : spOk sp) (hne : sp ≠ []) (F : Str) :
    Stop (printSp nl sp ++ F) := by
  rcases h.2 with rfl | ⟨r, rfl⟩
  · exact absurd rfl hne
  · have := stop_nl hnl (printSp nl r ++ F)
    simpa [printSp, Sp.print] using this

mutual

theorem read_word {nl : Str} (hnl : IsNl nl) : ∀ (w : Word) (lead : Option CBody) (u u0 : Str) (s : Option Nat),
    w.ok nl u → Stop u0 → (∀ b ∈ lead, b.ok) → (s = none ∨ w.flat) →
    OkR .word (printLead lead ++ (w.print nl ++ (u ++ u0))) s (u ++ u0) s (IsNode w.tree)
  | .mk v t, lead, u, u0, s, h, h0, hl, hs => by
    refine ok_word hl h h0 fun f hf => ?_
    simp only [Word.ok] at h
    exact read_vl hnl v s f h.1 hf (by simpa only [Word.flat] using hs)

theorem read_vl {nl : Str} (hnl : IsNl nl) : ∀ (v : Vl) (s : Option Nat) (f : Str),
    v.ok nl → v.ends f → (s = none ∨ v.flat) →
    Ok (.expr valE) (v.print nl ++ f) s [] f s fun x _ => IsNode v.tree x
  | .text t, s, f, h, he, _ => by
    simp only [Vl.ok] at h
    simp only [Vl.ends] at he
    apply ok_choice
    refine ok_alt (OkR.ok (Q := IsNode (.str t)) (ok_rule (ok_choice (ok_alt ?_))) fun _ h => h)
    refine ok_act (K1 := fun _ _ => True) (w := t) (s1 := s) (ok_label (ok_plus_cls rfl h.1 ?_ ?_ trivial)) rfl ?_
    · intro c hc; rw [text_cls]; exact h.2 c hc
    · intro c hc; rw [text_cls]; exact he c hc
    · intro _ _ _ _; exact ⟨_, rfl, _, rfl, rfl⟩
  | .esc c, s, f, h, _, _ => by
    simp only [Vl.ok] at h
    apply ok_choice
    refine ok_alt (OkR.ok (Q := IsNode (.str [c])) (ok_rule (ok_choice (ok_next (s1 := s) ?_ (ok_alt ?_)))) fun _ h => h)
    · refine no_act (no_label (no_plus_cls ?_))
      intro d hd; rw [text_cls]; simp [Vl.print] at hd; subst hd; decide
    · refine ok_act (K1 := fun _ _ => True) (w := ['\\', c]) (s1 := s) (ok_seq ?_) rfl ?_
      · refine ok_cons (K1 := fun _ _ => True) (mid := c :: f) (s1 := s) (ok_lit rfl trivial) fun _ _ _ => ?_
        refine ok_cons (K1 := fun _ _ => True) (mid := f) (s1 := s) (ok_cls rfl ?_ trivial) fun _ _ _ => ok_nil fun _ _ _ _ => trivial
        rcases h with rfl | rfl | rfl <;> decide
      · intro _ _ _ _; exact ⟨_, rfl, _, rfl, rfl⟩
  | .call fn args, s, f, h, he, hs => by
    simp only [Vl.ok] at h
    simp only [Vl.ends] at he
    obtain ⟨hne, hfn, hargs⟩ := h
    have hfc : ∀ c, clsMatches false ['-'] [('a', 'z')] c = Vl.ends.isFnChar' c := by
      intro c
      simp only [clsMatches, Vl.ends.isFnChar', List.contains, List.elem, List.any_cons, List.any_nil, Bool.or_false, Bool.bne_false]
      cases c == '-' <;> rfl
    apply ok_choice
    refine ok_next (s1 := s) (no_rule (no_choice ?_)) (ok_alt (OkR.ok (Q := IsNode (.invoke fn (treeArgs args) Location.zero)) (ok_rule ?_) fun _ h => h))
    · refine no_next (no_act (no_label (no_plus_cls ?_))) (no_next (no_act (no_seq ?_)) no_choice_nil)
      · intro d hd; rw [text_cls]; simp [Vl.print] at hd; subst hd; decide
      · refine no_cons' (K1 := fun _ _ => True) (mid := fn ++ printArgs nl args ++ f) (s1 := s) (fun _ => ok_lit (by simp [Vl.print]) trivial) (no_cons (no_cls ?_))
        intro d hd
        cases fn with
        | nil => exact absurd rfl hne
        | cons c fn =>
          simp at hd; subst hd
          have := hfn c (by simp)
          simp only [Vl.ends.isFnChar', Bool.or_eq_true, beq_iff_eq, Bool.and_eq_true, decide_eq_true_eq] at this
          have hcc : c ≠ '\\' ∧ c ≠ '{' ∧ c ≠ '}' := by
            refine ⟨?_, ?_, ?_⟩ <;> (rintro rfl; revert this; decide)
          simp [clsMatches, hcc]
    · have hhead : ∀ c ∈ (printArgs nl args ++ f).head?, Vl.ends.isFnChar' c = false := by
        cases args with
        | nil => intro c hc; exact he.1 rfl c (by simpa [printArgs] using hc)
        | cons a as =>
          intro c hc
          have : (printArgs nl (a :: as) ++ f).head? = some '{' := by
            cases a <;> simp [printArgs, Arg.print]
          rw [this] at hc; simp at hc; subst hc; decide
      refine ok_act (w := '\\' :: fn ++ printArgs nl args) (s1 := s)
        (K1 := fun _ e => look e .name = .list (fn.map fun c => .bytes [c]) ∧ IsNodes (treeArgs args) (look e .args)) (ok_seq ?_) rfl ?_
      · refine ok_cons (K1 := fun _ e => e = []) (mid := fn ++ (printArgs nl args ++ f)) (s1 := s) (ok_lit (by simp [Vl.print]) rfl) ?_
        rintro _ _ rfl
        refine ok_cons (K1 := fun _ e => e = [(.name, .list (fn.map fun c => .bytes [c]))]) (mid := printArgs nl args ++ f) (s1 := s)
          (ok_label (ok_plus_cls rfl hne ?_ ?_ rfl)) ?_
        · intro c hc; rw [hfc]; exact hfn c hc
        · intro c hc; rw [hfc]; exact hhead c hc
        rintro _ _ rfl
        refine ok_cons (K1 := fun x e => IsNodes (treeArgs args) x ∧ e = [(.args, x), (.name, .list (fn.map fun c => .bytes [c]))])
          (ok_label (ok_star ((read_args hnl args s f [] hargs he.2 (by simpa only [Vl.flat] using hs)).mono fun x _ hx => ⟨hx, rfl⟩))) ?_
        rintro x _ ⟨hx, rfl⟩
        refine ok_nil fun _ _ _ _ _ _ => ⟨?_, ?_⟩
        · rw [look_tl _ _ rfl, look_hd]
        · rw [look_hd]; exact hx
      · rintro _ e pos ⟨h1, ms, h2, h3⟩
        exact ⟨.node (.invoke fn ms pos), by simp [act, h1, h2, ifaceNodes_map, ifaceStr_bytes], _, rfl, by simp [Node.erase, h3]⟩
  | .group w, s, f, h, _, hs => by
    simp only [Vl.ok] at h
    apply ok_choice
    refine ok_next (no_string (by simp [Vl.print, isText]) (by simp [Vl.print])) (ok_next (no_invoke (by simp [Vl.print])) (ok_alt ?_))
    have hw := read_word hnl w none [] ('}' :: f) s h (stop_brace f) (by simp) (by simpa only [Vl.flat] using hs)
    simp only [printLead, List.nil_append] at hw
    refine OkR.ok (Q := IsNode w.tree) (ok_rule ?_) fun _ h => by simpa [Vl.tree] using h
    refine ok_act (w := '{' :: w.print nl ++ ['}']) (s1 := s) (K1 := fun _ e => IsNode w.tree (look e .word)) (ok_seq ?_) rfl ?_
    · refine ok_cons (K1 := fun _ e => e = []) (mid := w.print nl ++ '}' :: f) (s1 := s) (ok_lit (by simp [Vl.print]) rfl) ?_
      rintro _ _ rfl
      refine ok_cons (K1 := fun x e => IsNode w.tree x ∧ e = [(.word, x)]) (mid := '}' :: f) (s1 := s)
        (ok_label (ok_opt (hw.ok fun x hx => ⟨hx, rfl⟩))) ?_
      rintro x _ ⟨hx, rfl⟩
      refine ok_cons (K1 := fun _ e => e = [(.word, x)]) (mid := f) (s1 := s) (ok_lit rfl rfl) ?_
      rintro _ _ rfl
      refine ok_nil fun _ _ _ _ _ _ => ?_
      rw [look_hd]; exact hx
    · rintro _ e pos ⟨m, h1, h2⟩
      exact ⟨.node m, by simp [act, h1], _, rfl, h2⟩
  | .empty, s, f, _, _, _ => by
    apply ok_choice
    refine ok_next (no_string (by simp [Vl.print, isText]) (by simp [Vl.print])) (ok_next (no_invoke (by simp [Vl.print])) (ok_alt ?_))
    refine OkR.ok (Q := IsNode (.seq [])) (ok_rule ?_) fun _ h => by simpa [Vl.tree] using h
    refine ok_act (w := ['{', '}']) (s1 := s) (K1 := fun _ e => look e .word = .nil) (ok_seq ?_) rfl ?_
    · refine ok_cons (K1 := fun _ e => e = []) (mid := '}' :: f) (s1 := s) (ok_lit rfl rfl) ?_
      rintro _ _ rfl
      refine ok_cons (K1 := fun _ e => e = [(.word, .nil)]) (mid := '}' :: f) (s1 := s)
        (ok_label (ok_none (no_word (stop_brace f)) rfl)) ?_
      rintro _ _ rfl
      refine ok_cons (K1 := fun _ e => e = [(.word, .nil)]) (mid := f) (s1 := s) (ok_lit rfl rfl) ?_
      rintro _ _ rfl
      exact ok_nil fun _ _ _ _ _ _ => look_hd _ _ _
    · intro _ e pos h1
      exact ⟨.node (.seq []), by simp [act, h1], _, rfl, rfl⟩

theorem read_args {nl : Str} (hnl : IsNl nl) : ∀ (as : List Arg) (s : Option Nat) (f : Str) (env : Env),
    okArgs nl as → f.head? ≠ some '{' → (s = none ∨ flatArgs as) →
    Ok (.star (.rule .argument)) (printArgs nl as ++ f) s env f s fun x _ => IsNodes (treeArgs as) x
  | [], s, f, env, _, hf, _ => ok_stop (no_arg hf) IsNodes.nil
  | a :: as, s, f, env, h, hf, hs => by
    simp only [okArgs] at h
    simp only [flatArgs] at hs
    have ha := read_arg hnl a s (printArgs nl as ++ f) h.1 (hs.imp id And.left)
    have := ok_more (e := .rule .argument) (env := env) (K := fun x _ => IsNodes (treeArgs (a :: as)) x)
      (ha.ok (env := []) (K := fun x _ => IsNode a.tree x) fun _ h => h)
      (fun v hv => (read_args hnl as s f env h.2 hf (hs.imp id And.right)).mono fun w _ hw vs e => by
        subst e; exact IsNodes.cons hv hw)
    simpa [printArgs] using this

theorem read_arg {nl : Str} (hnl : IsNl nl) : ∀ (a : Arg) (s : Option Nat) (f : Str),
    a.ok nl → (s = none ∨ a.flat) → OkR .argument (a.print nl ++ f) s f s (IsNode a.tree)
  | .inline w ps, s, f, h, hs => by
    simp only [Arg.ok] at h
    simp only [Arg.flat] at hs
    obtain ⟨hw, hp, h2⟩ := h
    obtain ⟨c, t, e, hc1, hc2, hc3⟩ := word_head nl w _ hw
    have hword := read_word hnl w none (printPieces nl ps) ('}' :: f) s hw (stop_brace f) (by simp) (hs.imp id And.left)
    have hpieces := read_pieces hnl ps s f hp (hs.imp id And.right)
    have := ok_arg (s := s) (body := w.print nl ++ printPieces nl ps) (f := f) (n := .seq (w.tree :: treePieces ps)) ?_ ?_ ?_
    · simpa [Arg.print, Arg.tree] using this
    · rintro ⟨r, hr⟩
      rw [e] at hr
      simp only [List.cons_append, List.cons.injEq] at hr
      obtain ⟨d, t', e', _⟩ := hc3 hr.1
      rw [e'] at hr
      simp only [List.cons_append, List.cons.injEq] at hr
      exact h2 ⟨t', by rw [e, e', hr.1, hr.2.1]⟩
    · intro r hr
      rw [e] at hr
      simp only [List.cons_append, List.cons.injEq] at hr
      obtain ⟨d, t', e', hd⟩ := hc3 hr.1
      rw [← hr.2, e']; simp [hd]
    · refine ok_alt (OkR.ok (Q := IsNode (.seq (w.tree :: treePieces ps))) (ok_rule ?_) fun _ h => Or.inl h)
      simp only [printLead, List.nil_append, ← List.append_assoc] at hword
      refine ok_act (w := w.print nl ++ printPieces nl ps) (s1 := s)
        (K1 := fun _ e => IsNode w.tree (look e .firstWord) ∧ IsNodes (treePieces ps) (look e .words)) (ok_seq ?_) rfl ?_
      · refine ok_cons (K1 := fun x e => IsNode w.tree x ∧ e = [(.firstWord, x)]) (ok_label (hword.ok fun x hx => ⟨hx, rfl⟩)) ?_
        rintro x _ ⟨hx, rfl⟩
        refine ok_cons (K1 := fun y e => IsNodes (treePieces ps) y ∧ e = [(.words, y), (.firstWord, x)])
          (ok_label (ok_star (hpieces.mono fun y _ hy => ⟨hy, rfl⟩))) ?_
        rintro y _ ⟨hy, rfl⟩
        refine ok_nil fun _ _ _ _ => ⟨?_, ?_⟩
        · rw [look_tl _ _ rfl, look_hd]; exact hx
        · rw [look_hd]; exact hy
      · rintro _ e pos ⟨⟨m, h1, h1'⟩, ms, h2, h2'⟩
        have := ifaceNodes_map (m :: ms)
        simp only [List.map_cons] at this
        exact ⟨.node (.seq (m :: ms)), by simp [act, h1, h2, this], _, rfl, by simp [Node.erase, eraseL, h1', h2']⟩
  | .paras sp ps bl, s, f, h, hs => by
    simp only [Arg.ok] at h
    simp only [Arg.flat] at hs
    obtain ⟨hne, hsp, hps, hok, hb⟩ := h
    obtain ⟨r0, rfl⟩ : ∃ r, sp = .nl :: r := by
      rcases hsp.2 with rfl | h
      · exact absurd rfl hne
      · exact h
    have hst := paras_start (f0 := '}' :: f) hnl hok hb (Or.inr rfl)
    have hread : Ok (.expr (.plus paraItem)) (printParas nl ps ++ (bl ++ '}' :: f)) s [] (bl ++ '}' :: f) s
        fun v _ => IsNodes (treeParas ps) v := by
      cases ps with
      | nil => exact absurd rfl hps
      | cons p ps =>
        have h1 := read_para hnl p ps bl ('}' :: f) s hok hb (Or.inr rfl) (hs.imp id fun h => by simp only [flatParas] at h; exact h.1)
        have h2 := read_paras hnl ps bl ('}' :: f) s [] (by cases p; simp only [okParas] at hok; exact hok.2.2.2.2.2.2) hb (Or.inr rfl)
          (hs.imp id fun h => by simp only [flatParas] at h; exact h.2)
        have := ok_plus (K := fun v _ => IsNodes (treeParas (p :: ps)) v) h1 (fun v hv => h2.mono fun w _ hw vs e => by
          subst e; exact IsNodes.cons hv hw)
        simpa [printParas] using this
    have hp := ok_paragraphs (sp := .nl :: r0) hnl hsp.1 hst.1 hst.2.1 hst.2.2 hread
    have := ok_arg (s := s) (body := printSp nl (.nl :: r0) ++ printParas nl ps ++ bl) (f := f) (n := .seq (treeParas ps)) ?_ ?_ ?_
    · simpa [Arg.print, Arg.tree] using this
    · rintro ⟨r, hr⟩; rcases hnl with rfl | rfl <;> simp [printSp, Sp.print] at hr
    · intro r hr; rcases hnl with rfl | rfl <;> simp [printSp, Sp.print] at hr
    · refine ok_next (s1 := s) ?_ (ok_alt (OkR.ok (Q := IsNode (.seq (treeParas ps))) (ok_rule ?_) fun _ h => Or.inl h))
      · apply no_rule; apply no_act; apply no_seq
        refine no_cons (no_label (no_word ?_))
        have := printSp_cons_stop hnl hsp hne (printParas nl ps ++ bl ++ '}' :: f)
        simpa using this
      · refine ok_act (w := printSp nl (.nl :: r0) ++ printParas nl ps ++ bl) (s1 := s)
          (K1 := fun _ e => IsNode (.seq (treeParas ps)) (look e .paras)) (ok_seq ?_) rfl ?_
        · refine ok_cons (K1 := fun x e => IsNode (.seq (treeParas ps)) x ∧ e = [(.paras, x)]) (mid := bl ++ '}' :: f) (s1 := s)
            (ok_label (by simpa using (hp.ok (env := []) fun x hx => ⟨hx, rfl⟩ : Ok _ _ _ _ _ _ (fun x _ => IsNode (.seq (treeParas ps)) x ∧ ((Lbl.paras, x) :: ([] : Env)) = [(Lbl.paras, x)])))) ?_
          rintro x _ ⟨hx, rfl⟩
          refine ok_cons (K1 := fun _ e => e = [(.paras, x)]) (ok_blanks rfl hb (by simp [isBlank]) fun _ => rfl) ?_
          rintro _ _ rfl
          refine ok_nil fun _ _ _ _ => ?_
          rw [look_hd]; exact hx
        · intro _ e pos he
          exact ⟨look e .paras, rfl, he⟩
  | .blank sp, s, f, h, hs => by
    simp only [Arg.ok] at h
    have hsp := ok_spacings (s := s) (nl := nl) (next := '}' :: f) hnl (noCmt_stop (stop_brace f)) (by simp) (by simp)
    have hstop : Stop (printSp nl sp ++ '}' :: f) := by
      by_cases hne : sp = []
      · subst hne; exact stop_brace f
      · exact printSp_cons_stop hnl h hne _
    have := ok_arg (s := s) (body := printSp nl sp) (f := f) (n := .str []) ?_ ?_ ?_
    · simpa [Arg.print, Arg.tree] using this
    · rintro ⟨r, hr⟩; have := hstop '{' (by rw [hr]; simp); simp at this
    · intro r hr; have := hstop '{' (by rw [hr]; simp); simp at this
    · refine ok_next (s1 := s) ?_ (ok_next (s1 := s) ?_ (ok_alt (OkR.ok (Q := fun v => v = .nil) (ok_rule ?_) fun _ h => Or.inr ⟨h, rfl⟩)))
      · apply no_rule; apply no_act; apply no_seq
        exact no_cons (no_label (no_word hstop))
      · apply no_rule; apply no_act; apply no_seq
        refine no_cons (no_label (no_rule (no_act (no_seq ?_))))
        refine no_cons' (K1 := fun _ _ => True) (mid := '}' :: f) (s1 := s)
          (fun env => ok_star ((hsp env sp h.1).mono fun _ _ _ => trivial)) (no_cons (no_label (no_plus ?_)))
        exact no_paraItem (bl := []) (by intro c hc; simp at hc) (stop_brace f)
      · refine ok_act (w := printSp nl sp) (s1 := s) (K1 := fun _ _ => True) (ok_star ((hsp _ sp h.1).mono fun _ _ _ => trivial)) rfl ?_
        intro _ e pos _
        exact ⟨.nil, rfl, rfl⟩
  | .pre ls bl, s, f, h, hs => by
    simp only [Arg.ok] at h
    have hs : s = none := by rcases hs with h | h; exact h; simp [Arg.flat] at h
    subst hs
    have key : ∃ s', Ok (.star (.rule .preformattedBlockLine)) (printPLines nl ls ++ (bl ++ '}' :: '}' :: f)) none []
        (bl ++ '}' :: '}' :: f) s' fun v _ => IsSeqs (treePLines (baseOf (ls.map PLine.indent)) ls) v := by
      cases ls with
      | nil =>
        exact ⟨_, ok_stop (no_rule (no_blockLine (s := none) (bl := bl) (f := '}' :: '}' :: f) h.2 rfl (no_word (stop_brace _)))) IsSeqs.nil⟩
      | cons l ls =>
        cases l with
        | mk i ws =>
          refine ⟨some i.length, ?_⟩
          have h1 := read_pline hnl (.mk i ws) none (printPLines nl ls ++ (bl ++ '}' :: '}' :: f)) ls h.1
          have h2 := read_plines hnl ls i.length bl ('}' :: f) [] (by have := h.1; simp only [okPLines] at this; exact this.2.2.2.2) h.2
          have := ok_more (e := .rule .preformattedBlockLine) (env := [])
            (K := fun v _ => IsSeqs (treePLines i.length (.mk i ws :: ls)) v)
            (h1.ok (env := []) (K := fun v _ => IsSeq ((PLine.mk i ws).tree i.length) v) fun _ h => h)
            (fun v hv => h2.mono fun w _ hw vs e => by subst e; exact IsSeqs.cons hv hw)
          simpa [printPLines, baseOf, PLine.indent] using this
    obtain ⟨s', key⟩ := key
    have hblock : OkR .preformattedBlock (nl ++ printPLines nl ls ++ bl ++ '}' :: '}' :: f) none ('}' :: '}' :: f) none
        (IsNode (.pre (treePLines (baseOf (ls.map PLine.indent)) ls))) := ok_rule (ok_block hnl h.2 rfl key)
    apply ok_rule; apply ok_choice
    refine ok_next (no_verbatimArg ?_) (ok_alt (OkR.ok (Q := IsNode (.pre (treePLines (baseOf (ls.map PLine.indent)) ls))) (ok_rule ?_) fun _ h => by simpa [Arg.tree] using h))
    · rintro ⟨r, hr⟩; rcases hnl with rfl | rfl <;> simp [Arg.print] at hr
    · refine ok_act (w := (Arg.pre ls bl).print nl) (s1 := none)
        (K1 := fun _ e => IsNode (.pre (treePLines (baseOf (ls.map PLine.indent)) ls)) (look e .node)) (ok_seq ?_) rfl ?_
      · refine ok_cons (K1 := fun _ e => e = []) (mid := nl ++ printPLines nl ls ++ bl ++ '}' :: '}' :: f) (s1 := none)
          (ok_lit (by simp [Arg.print]) rfl) ?_
        rintro _ _ rfl
        refine ok_cons (K1 := fun x e => IsNode (.pre (treePLines (baseOf (ls.map PLine.indent)) ls)) x ∧ e = [(.node, x)])
          (ok_label (hblock.ok fun x hx => ⟨hx, rfl⟩)) ?_
        rintro x _ ⟨hx, rfl⟩
        refine ok_cons (K1 := fun _ e => e = [(.node, x)]) (mid := f) (s1 := none) (ok_lit rfl rfl) ?_
        rintro _ _ rfl
        refine ok_nil fun _ _ _ _ _ _ => ?_
        rw [look_hd]; exact hx
      · intro _ e pos he
        exact ⟨look e .node, rfl, he⟩
  | .verb t, s, f, h, hs => by
    simp only [Arg.ok] at h
    have hv := ok_verbatim (s := s) t.length t ('}' :: '}' :: '}' :: f) (Nat.le_refl _) h.1 (vgood_close h.2.1 h.2.2 f)
      (Or.inr (Or.inr ⟨f, rfl⟩)) []
    have hline : OkR .verbatimLine (t ++ '}' :: '}' :: '}' :: f) s ('}' :: '}' :: '}' :: f) s (IsNode (.seq ((pieces t).map .str))) := by
      apply ok_rule
      refine ok_act (w := t) (s1 := s) (K1 := fun _ e => IsNodes ((pieces t).map .str) (look e .words)) (ok_label (ok_star (hv.mono ?_))) rfl ?_
      · intro v _ hv; rw [look_hd]; exact hv.1
      · rintro _ e pos ⟨ms, h1, h2⟩
        exact ⟨.node (.seq ms), by simp [act, h1, ifaceNodes_map], _, rfl, by simp [Node.erase, h2]⟩
    apply ok_rule; apply ok_choice
    refine ok_alt (OkR.ok (Q := IsNode (.seq ((pieces t).map .str))) (ok_rule ?_) fun _ h => by simpa [Arg.tree] using h)
    refine ok_act (w := (Arg.verb t).print nl) (s1 := s) (K1 := fun _ e => IsNode (.seq ((pieces t).map .str)) (look e .node)) (ok_seq ?_) rfl ?_
    · refine ok_cons (K1 := fun _ e => e = []) (mid := t ++ '}' :: '}' :: '}' :: f) (s1 := s) (ok_lit (by simp [Arg.print]) rfl) ?_
      rintro _ _ rfl
      refine ok_cons (K1 := fun x e => IsNode (.seq ((pieces t).map .str)) x ∧ e = [(.node, x)]) (mid := '}' :: '}' :: '}' :: f) (s1 := s)
        (ok_label (ok_choice (ok_next (s1 := s) ?_ (ok_alt (hline.ok fun x hx => ⟨hx, rfl⟩))))) ?_
      · apply no_rule; apply no_act; apply no_seq
        apply no_cons
        have : (t ++ '}' :: '}' :: '}' :: f).head? ≠ some '\n' ∧ (t ++ '}' :: '}' :: '}' :: f).head? ≠ some '\r' := by
          cases t with
          | nil => simp
          | cons c t => have := h.1 c (by simp); simp [this]
        exact no_lineBreak this.1 this.2
      · rintro x _ ⟨hx, rfl⟩
        refine ok_cons (K1 := fun _ e => e = [(.node, x)]) (mid := f) (s1 := s) (ok_lit rfl rfl) ?_
        rintro _ _ rfl
        refine ok_nil fun _ _ _ _ _ _ => ?_
        rw [look_hd]; exact hx
    · intro _ e pos he
      exact ⟨look e .node, rfl, he⟩
  | .vblock ls bl, s, f, h, hs => by
    simp only [Arg.ok] at h
    have hs : s = none := by rcases hs with h | h; exact h; simp [Arg.flat] at h
    subst hs
    have hblock := ok_vblock (f := f) hnl h.2 ls h.1
    apply ok_rule; apply ok_choice
    refine ok_alt (OkR.ok (Q := IsNode (.pre (ls.map fun l => .str (l.1.drop (baseOf (ls.map Prod.fst))) :: (pieces l.2).map .str))) (ok_rule ?_) fun _ h => by simpa [Arg.tree] using h)
    refine ok_act (w := (Arg.vblock ls bl).print nl) (s1 := none) (K1 := fun _ e => IsNode (.pre (ls.map fun l => .str (l.1.drop (baseOf (ls.map Prod.fst))) :: (pieces l.2).map .str)) (look e .node)) (ok_seq ?_) rfl ?_
    · refine ok_cons (K1 := fun _ e => e = []) (mid := nl ++ printVLines nl ls ++ bl ++ '}' :: '}' :: '}' :: f) (s1 := none) (ok_lit (by simp [Arg.print]) rfl) ?_
      rintro _ _ rfl
      refine ok_cons (K1 := fun x e => IsNode (.pre (ls.map fun l => .str (l.1.drop (baseOf (ls.map Prod.fst))) :: (pieces l.2).map .str)) x ∧ e = [(.node, x)]) (mid := '}' :: '}' :: '}' :: f) (s1 := none)
        (ok_label (ok_choice (ok_alt (hblock.ok fun x hx => ⟨hx, rfl⟩)))) ?_
      rintro x _ ⟨hx, rfl⟩
      refine ok_cons (K1 := fun _ e => e = [(.node, x)]) (mid := f) (s1 := none) (ok_lit rfl rfl) ?_
      rintro _ _ rfl
      refine ok_nil fun _ _ _ _ _ _ => ?_
      rw [look_hd]; exact hx
    · intro _ e pos he
      exact ⟨look e .node, rfl, he⟩

theorem read_pieces {nl : Str} (hnl : IsNl nl) : ∀ (ps : List Piece) (s : Option Nat) (f : Str),
    okPieces nl ps → (s = none ∨ flatPieces ps) →
    Ok (.star (.choice [.rule .word, .rule .split])) (printPieces nl ps ++ '}' :: f) s [] ('}' :: f) s
      fun x _ => IsNodes (treePieces ps) x
  | [], s, f, _, _ => by
    refine ok_stop (no_choice (no_next (no_word (stop_brace f)) (no_next (no_rule (no_act (no_seq (no_cons ?_)))) no_choice_nil))) IsNodes.nil
    exact no_lineBreak (by simp [printPieces]) (by simp [printPieces])
  | .word w :: ps, s, f, h, hs => by
    simp only [okPieces] at h
    simp only [flatPieces, Piece.flat] at hs
    have hw := read_word hnl w none (printPieces nl ps) ('}' :: f) s h.1 (stop_brace f) (by simp) (hs.imp id And.left)
    have := ok_more (e := .choice [.rule .word, .rule .split]) (env := []) (K := fun x _ => IsNodes (treePieces (.word w :: ps)) x)
      (ok_choice (ok_alt (hw.ok (env := []) (K := fun x _ => IsNode w.tree x) fun _ h => h)))
      (fun v hv => (read_pieces hnl ps s f h.2 (hs.imp id And.right)).mono fun w _ hw vs e => by
        subst e; exact IsNodes.cons hv hw)
    simpa [printPieces, Piece.print, printLead] using this
  | .split bl :: ps, s, f, h, hs => by
    simp only [okPieces] at h
    simp only [flatPieces, Piece.flat] at hs
    have hsplit : OkR .split (nl ++ bl ++ (printPieces nl ps ++ '}' :: f)) s (printPieces nl ps ++ '}' :: f) s (IsNode (.str [' '])) := by
      apply ok_rule
      refine ok_act (w := nl ++ bl) (s1 := s) (K1 := fun _ _ => True) (ok_seq ?_) rfl ?_
      · refine ok_cons (K1 := fun _ _ => True) (mid := bl ++ (printPieces nl ps ++ '}' :: f)) (s1 := s) ?_ fun _ _ _ => ?_
        · have := (ok_lineBreak (s := s) (next := bl ++ (printPieces nl ps ++ '}' :: f)) hnl).ok (env := []) (K := fun _ _ => True) fun _ _ => trivial
          simpa using this
        · refine ok_cons (K1 := fun _ _ => True) (ok_blanks rfl h.1 ?_ fun _ => trivial) fun _ _ _ => ok_nil fun _ _ _ _ => trivial
          intro c hc
          cases hp : printPieces nl ps with
          | nil => rw [hp] at hc; simp at hc; subst hc; rfl
          | cons d t => rw [hp] at hc; exact h.2.1 c (by rw [hp]; simpa using hc)
      · intro _ _ _ _; exact ⟨_, rfl, _, rfl, rfl⟩
    have := ok_more (e := .choice [.rule .word, .rule .split]) (env := []) (K := fun x _ => IsNodes (treePieces (.split bl :: ps)) x)
      (ok_choice (ok_next (s1 := s) (no_word (by rw [List.append_assoc]; exact stop_nl hnl _)) (ok_alt (hsplit.ok (env := []) (K := fun x _ => IsNode (.str [' ']) x) fun _ h => h))))
      (fun v hv => (read_pieces hnl ps s f h.2.2 (hs.imp id And.right)).mono fun w _ hw vs e => by
        subst e; exact IsNodes.cons hv hw)
    simpa [printPieces, Piece.print] using this

theorem read_para {nl : Str} (hnl : IsNl nl) : ∀ (p : Para) (ps : List Para) (bl f0 : Str) (s : Option Nat),
    okParas nl bl (p :: ps) → allBlank bl → AtEnd f0 → (s = none ∨ p.flat) →
    Ok (.expr paraItem) (p.print nl ++ (printParas nl ps ++ (bl ++ f0))) s [] (printParas nl ps ++ (bl ++ f0)) s
      fun v _ => IsNode p.tree v
  | .mk [] e sp, ps, bl, f0, s, h, hb, hf, hs => by simp [okParas] at h
  | .mk (l :: ls) e sp, ps, bl, f0, s, h, hb, hf, hs => by
    simp only [okParas] at h
    obtain ⟨h1, h2, h3, h4, h5, h6, h7⟩ := h
    simp only [Para.flat, flatLines] at hs
    have hst := paras_start hnl h7 hb hf
    -- what follows the lines
    have hF : ∃ b f', printSp nl sp ++ (printParas nl ps ++ (bl ++ f0)) = b ++ f' ∧ allBlank b ∧ Stop f' := by
      by_cases hsp : sp = []
      · have hps : ps = [] := by
          by_cases hps : ps = []
          · exact hps
          · exact absurd hsp (h6 hps)
        subst hsp; subst hps
        exact ⟨bl, f0, rfl, hb, hf.stop⟩
      · exact ⟨[], _, rfl, by intro c hc; simp at hc, printSp_cons_stop hnl h4 hsp _⟩
    have hE : e = false → Stop (printSp nl sp ++ (printParas nl ps ++ (bl ++ f0))) ∧
        (printSp nl sp ++ (printParas nl ps ++ (bl ++ f0))).head? ≠ some '\n' ∧
        (printSp nl sp ++ (printParas nl ps ++ (bl ++ f0))).head? ≠ some '\r' := by
      intro he
      obtain ⟨rfl, rfl, rfl⟩ := h5 he
      exact ⟨hf.stop, hf.head⟩
    have hl := read_line hnl l ls e (printSp nl sp ++ (printParas nl ps ++ (bl ++ f0))) s h3 hE (hs.imp id And.left)
    have hls := read_lines hnl ls e (printSp nl sp ++ (printParas nl ps ++ (bl ++ f0))) s [] (by
      cases l; simp only [okLines] at h3; exact h3.2.2.2.2.2) hF hE (hs.imp id And.right)
    have := ok_paraItem (env := []) (body := printLines nl e (l :: ls)) (ls := treeLines (l :: ls)) hnl h4.1 hst.1 hst.2.1 hst.2.2 (by
      have := ok_plus (e := lineItem) (env := []) (K := fun v _ => IsSeqs (treeLines (l :: ls)) v) hl (fun v hv => hls.mono fun w _ hw vs e => by
        subst e; exact IsSeqs.cons hv hw)
      simpa [printLines] using this)
    simpa [Para.print, Para.tree] using this

theorem read_paras {nl : Str} (hnl : IsNl nl) : ∀ (ps : List Para) (bl f0 : Str) (s : Option Nat) (env : Env),
    okParas nl bl ps → allBlank bl → AtEnd f0 → (s = none ∨ flatParas ps) →
    Ok (.star paraItem) (printParas nl ps ++ (bl ++ f0)) s env (bl ++ f0) s fun v _ => IsNodes (treeParas ps) v
  | [], bl, f0, s, env, _, hb, hf, _ => ok_stop (inp := bl ++ f0) (no_paraItem hb hf.stop) IsNodes.nil
  | p :: ps, bl, f0, s, env, h, hb, hf, hs => by
    simp only [flatParas] at hs
    have h1 := read_para hnl p ps bl f0 s h hb hf (hs.imp id And.left)
    have h2 := read_paras hnl ps bl f0 s env (by cases p; simp only [okParas] at h; exact h.2.2.2.2.2.2) hb hf (hs.imp id And.right)
    have := ok_more (e := paraItem) (env := env) (K := fun v _ => IsNodes (treeParas (p :: ps)) v) h1 (fun v hv => h2.mono fun w _ hw vs e => by
      subst e; exact IsNodes.cons hv hw)
    simpa [printParas] using this

theorem read_line {nl : Str} (hnl : IsNl nl) : ∀ (l : Line) (ls : List Line) (e : Bool) (F : Str) (s : Option Nat),
    okLines nl (l :: ls) → (e = false → Stop F ∧ F.head? ≠ some '\n' ∧ F.head? ≠ some '\r') → (s = none ∨ l.flat) →
    Ok (.expr lineItem) (l.print nl ++ ((if ls.isEmpty && !e then [] else nl) ++ (printLines nl e ls ++ F))) s []
      (printLines nl e ls ++ F) s fun v _ => IsSeq l.tree v
  | .mk bl lead [], ls, e, F, s, h, hE, hs => by simp [okLines] at h
  | .mk bl lead (w :: ws), ls, e, F, s, h, hE, hs => by
    simp only [okLines] at h
    simp only [Line.flat, flatWords] at hs
    obtain ⟨hb, hlead, hne, hh, hws, _⟩ := h
    obtain ⟨_, c, t, e1, _, _⟩ := words_start hws hne
    have hstop : Stop ((if ls.isEmpty && !e then [] else nl) ++ (printLines nl e ls ++ F)) := by
      split
      · rename_i hc
        simp only [Bool.and_eq_true, List.isEmpty_iff, Bool.not_eq_true'] at hc
        obtain ⟨rfl, rfl⟩ := hc
        exact (hE rfl).1
      · exact stop_nl hnl _
    generalize hG : (if ls.isEmpty && !e then [] else nl) ++ (printLines nl e ls ++ F) = G at hstop
    have hsep : ((if ls.isEmpty && !e then [] else nl) = nl ∧ IsNl nl) ∨
        ((if ls.isEmpty && !e then [] else nl) = [] ∧ (printLines nl e ls ++ F).head? ≠ some '\n' ∧ (printLines nl e ls ++ F).head? ≠ some '\r') := by
      split
      · rename_i hc
        simp only [Bool.and_eq_true, List.isEmpty_iff, Bool.not_eq_true'] at hc
        obtain ⟨rfl, rfl⟩ := hc
        exact Or.inr ⟨rfl, (hE rfl).2⟩
      · exact Or.inl ⟨rfl, hnl⟩
    have hwords : Ok (.expr (.plus (.rule .word))) (printLead lead ++ printWords nl (w :: ws) ++ G) s [] G s
        fun v _ => IsNodes (treeWords (w :: ws)) v := by
      simp only [okWords] at hws
      have h1 := read_word hnl w lead (printWords nl ws) G s hws.1 hstop hlead (hs.imp id And.left)
      have h2 := read_words hnl ws G s [] hws.2 hstop (hs.imp id And.right)
      have := ok_plus (e := .rule .word) (env := []) (K := fun v _ => IsNodes (treeWords (w :: ws)) v)
        (h1.ok (env := []) (K := fun v _ => IsNode w.tree v) fun _ h => h) (fun v hv => h2.mono fun x _ hx vs e => by
          subst e; exact IsNodes.cons hv hx)
      simpa [printWords] using this
    subst hG
    have := ok_lineItem (env := []) (bl := bl) (body := printLead lead ++ printWords nl (w :: ws)) (f := printLines nl e ls ++ F) hb ?_ hsep hwords
    · simpa [Line.print, Line.tree] using this
    · intro d hd
      cases lead with
      | none =>
        rw [e1] at hd hh
        exact hh rfl d (by simpa [printLead] using hd)
      | some b => simp [printLead, printCmt] at hd; subst hd; rfl

theorem read_lines {nl : Str} (hnl : IsNl nl) : ∀ (ls : List Line) (e : Bool) (F : Str) (s : Option Nat) (env : Env),
    okLines nl ls → (∃ b f', F = b ++ f' ∧ allBlank b ∧ Stop f') →
    (e = false → Stop F ∧ F.head? ≠ some '\n' ∧ F.head? ≠ some '\r') → (s = none ∨ flatLines ls) →
    Ok (.star lineItem) (printLines nl e ls ++ F) s env F s fun v _ => IsSeqs (treeLines ls) v
  | [], e, F, s, env, _, hF, _, _ => by
    obtain ⟨b, f', rfl, hb, hf⟩ := hF
    exact ok_stop (inp := b ++ f') (no_lineItem hb hf) IsSeqs.nil
  | l :: ls, e, F, s, env, h, hF, hE, hs => by
    simp only [flatLines] at hs
    have h1 := read_line hnl l ls e F s h hE (hs.imp id And.left)
    have h2 := read_lines hnl ls e F s env (by cases l; simp only [okLines] at h; exact h.2.2.2.2.2) hF hE (hs.imp id And.right)
    have := ok_more (e := lineItem) (env := env) (K := fun v _ => IsSeqs (treeLines (l :: ls)) v) h1 (fun v hv => h2.mono fun w _ hw vs e => by
      subst e; exact IsSeqs.cons hv hw)
    simpa [printLines] using this

theorem read_words {nl : Str} (hnl : IsNl nl) : ∀ (ws : List Word) (u0 : Str) (s : Option Nat) (env : Env),
    okWords nl ws → Stop u0 → (s = none ∨ flatWords ws) →
    Ok (.star (.rule .word)) (printWords nl ws ++ u0) s env u0 s fun x _ => IsNodes (treeWords ws) x
  | [], u0, s, env, _, h0, _ => ok_stop (no_word h0) IsNodes.nil
  | w :: ws, u0, s, env, h, h0, hs => by
    simp only [okWords] at h
    simp only [flatWords] at hs
    have hw := read_word hnl w none (printWords nl ws) u0 s h.1 h0 (by simp) (hs.imp id And.left)
    have := ok_more (e := .rule .word) (env := env) (K := fun x _ => IsNodes (treeWords (w :: ws)) x)
      (hw.ok (env := []) (K := fun x _ => IsNode w.tree x) fun _ h => h)
      (fun v hv => (read_words hnl ws u0 s env h.2 h0 (hs.imp id And.right)).mono fun w _ hw vs e => by
        subst e; exact IsNodes.cons hv hw)
    simpa [printWords, printLead] using this

theorem read_pline {nl : Str} (hnl : IsNl nl) : ∀ (l : PLine) (s : Option Nat) (F : Str) (ls : List PLine),
    okPLines nl (l :: ls) →
    OkR .preformattedBlockLine (l.print nl ++ F) s F (some (s.getD l.indent.length)) (IsSeq (l.tree (s.getD l.indent.length)))
  | .mk i ws, s, F, ls, h => by
    simp only [okPLines] at h
    obtain ⟨hi, hh, hws, hfl, _⟩ := h
    have := ok_blockLine (r := .word) (s := s) (env := []) (next := F) (body := printWords nl ws) hnl hi
      (by
        intro c hc
        cases hp : printWords nl ws with
        | nil => rw [hp] at hc; rcases hnl with rfl | rfl <;> simp at hc <;> simp [← hc, isBlank]
        | cons d t => rw [hp] at hc hh; exact hh c (by simpa using hc))
      (read_words hnl ws (nl ++ F) _ [] hws (stop_nl hnl F) (Or.inr hfl))
    have := ok_rule (r := .preformattedBlockLine) (Q := IsSeq ((PLine.mk i ws).tree (s.getD i.length))) this
    simpa [PLine.print, PLine.indent] using this

theorem read_plines {nl : Str} (hnl : IsNl nl) : ∀ (ls : List PLine) (k : Nat) (bl f : Str) (env : Env),
    okPLines nl ls → allBlank bl →
    Ok (.star (.rule .preformattedBlockLine)) (printPLines nl ls ++ (bl ++ '}' :: f)) (some k) env (bl ++ '}' :: f) (some k)
      fun v _ => IsSeqs (treePLines k ls) v
  | [], k, bl, f, env, _, hb =>
    ok_stop (inp := bl ++ '}' :: f) (no_rule (no_blockLine (s := some k) hb rfl (no_word (stop_brace f)))) IsSeqs.nil
  | l :: ls, k, bl, f, env, h, hb => by
    have h1 := read_pline hnl l (some k) (printPLines nl ls ++ (bl ++ '}' :: f)) ls h
    have h2 := read_plines hnl ls k bl f env (by cases l; simp only [okPLines] at h; exact h.2.2.2.2) hb
    have := ok_more (e := .rule .preformattedBlockLine) (env := env) (K := fun v _ => IsSeqs (treePLines k (l :: ls)) v)
      (h1.ok (env := []) (K := fun v _ => IsSeq (l.tree k) v) fun _ h => h)
      (fun v hv => h2.mono fun w _ hw vs e => by subst e; exact IsSeqs.cons hv hw)
    simpa [printPLines] using this

end

/-- Every well-formed surface document is parsed into its tree, up to positions. -/
theorem read_doc {nl : Str} (hnl : IsNl nl) (d : Doc) (h : d.ok nl) :
    ∃ t, parseDoc (d.print nl) = some (.ok (.node t)) ∧ t.erase = d.tree := by
  obtain ⟨hsp, hne, hps⟩ := h
  have hst := paras_start (f0 := []) hnl hps (by intro c hc; simp at hc) (Or.inl rfl)
  have hread : Ok (.expr (.plus paraItem)) (printParas nl d.ps ++ []) none [] [] none fun v _ => IsNodes (treeParas d.ps) v := by
    obtain ⟨sp, ps⟩ := d
    cases ps with
    | nil => exact absurd rfl hne
    | cons p ps =>
      have h1 := read_para hnl p ps [] [] none hps (by intro c hc; simp at hc) (Or.inl rfl) (Or.inl rfl)
      have h2 := read_paras hnl ps [] [] none [] (by cases p; simp only [okParas] at hps; exact hps.2.2.2.2.2.2)
        (by intro c hc; simp at hc) (Or.inl rfl) (Or.inl rfl)
      have := ok_plus (K := fun v _ => IsNodes (treeParas (p :: ps)) v) h1 (fun v hv => h2.mono fun w _ hw vs e => by
        subst e; exact IsNodes.cons hv hw)
      simpa [printParas] using this
  have hp := ok_paragraphs (sp := d.sp) hnl hsp hst.1 hst.2.1 hst.2.2 hread
  have hdoc : OkR .booklit (d.print nl) none [] none (IsNode d.tree) := by
    apply ok_rule
    refine ok_act (w := d.print nl) (s1 := none) (K1 := fun _ e => IsNode d.tree (look e .node)) (ok_seq ?_) (by simp) ?_
    · refine ok_cons (K1 := fun x e => IsNode d.tree x ∧ e = [(.node, x)]) (mid := []) (s1 := none)
        (ok_label (by simpa [Doc.print] using (hp.ok (env := []) fun x hx => ⟨hx, rfl⟩ : Ok _ _ _ _ _ _ (fun x _ => IsNode d.tree x ∧ ((Lbl.node, x) :: ([] : Env)) = [(Lbl.node, x)])))) ?_
      rintro x _ ⟨hx, rfl⟩
      refine ok_cons (K1 := fun _ e => e = [(.node, x)]) (ok_not no_any rfl) ?_
      rintro _ _ rfl
      refine ok_nil fun _ _ _ _ => ?_
      rw [look_hd]; exact hx
    · intro _ e pos he
      exact ⟨look e .node, rfl, he⟩
  obtain ⟨v, st', hb, _, _, ⟨t, rfl, ht⟩, _⟩ := hdoc [] (PSt.start (d.print nl)) rfl rfl rfl
  refine ⟨t, ?_, ht⟩
  obtain ⟨r, hr⟩ := booklit_total (d.print nl) (fuelFor (d.print nl)) (Nat.le_refl _) .booklit (PSt.start (d.print nl)) rfl
  have := (run_sound _ _ _ _ _ hr).det hb
  subst this
  simp [parseDoc, parse, hr]

end Booklit.Peg
