import Verif.Lemmas.PegGood

/-!
The contract of every rule of the booklit grammar (`con_all`).
-/

namespace Booklit.Peg

open Booklit

theorem cls_no_nl {cs : List Char} (h1 : '\n' ∈ cs) (h2 : '\r' ∈ cs) {c : Char}
    (h : clsMatches true cs [] c = true) : c ≠ '\n' ∧ c ≠ '\r' := by
  constructor <;> (rintro rfl; simp_all [clsMatches])

theorem blank_no_nl {c : Char} (h : clsMatches false [' ', '\t'] [] c = true) : c ≠ '\n' ∧ c ≠ '\r' := by
  constructor <;> (rintro rfl; simp [clsMatches] at h)

theorem fnChar_eq (c : Char) : clsMatches false ['-'] [('a', 'z')] c = isFnChar c := by
  simp only [clsMatches, isFnChar, List.contains, List.elem, List.any_cons, List.any_nil, Bool.or_false, Bool.bne_false]
  cases c == '-' <;> rfl

section
variable {doc : Str} {n : Nat}

theorem con_booklit (hc : Con doc n) {st} (hin : InDoc doc st) :
    wp booklit n (.expr (rules .booklit)) st fun v _ => Shape doc .booklit v := by
  apply wp_act; apply wp_seq; apply wp_cons; apply wp_label
  apply hc.rule hin.push
  intro v st1 h1 _ hs
  apply wp_cons
  apply wp_not
  · exact wp_any fun _ _ _ _ _ => trivial
  intro st2 _ _ he
  apply wp_nil
  intro vs _
  intro vs' _
  refine ⟨v, st2.store, ?_, hs⟩
  simp [booklit, act, he, PSt.bind, look]

theorem con_paragraphs (hc : Con doc n) {st} (hin : InDoc doc st) :
    wp booklit n (.expr (rules .paragraphs)) st fun v _ => Shape doc .paragraphs v := by
  apply wp_act; apply wp_seq; apply wp_cons
  apply hc.star hin
  intro _ st1 h1 _ _
  apply wp_cons; apply wp_label
  apply wp_plus_of (Q := fun v => ∃ nd, v = .node nd ∧ (∃ ls, nd = .para ls) ∧ Good doc nd) _ h1.push
  · intro vs st2 h2 _ hne hq
    apply wp_nil
    intro _ _ _ _
    obtain ⟨ns, e1, e2, e3⟩ := ifaceNodes_ok hq
    refine ⟨.node (.seq ns), st2.store, ?_, ns, rfl, ?_, e2⟩
    · simp only [booklit, act, PSt.bind, PSt.pop, look, List.lookup_cons, beq_self_eq_true, Option.getD_some, e1, Option.map_some]
    · rintro rfl; simp at e3; exact hne (List.length_eq_zero_iff.mp e3.symm)
  · intro s hs
    apply wp_act; apply wp_seq; apply wp_cons; apply wp_label
    apply hc.rule hs.push.push
    intro v st2 h2 _ hsh
    apply wp_cons
    apply hc.star h2.pop.bind
    intro _ st3 h3 he _
    apply wp_nil
    intro _ _ _ _
    obtain ⟨ls, rfl, hg⟩ := hsh
    refine ⟨.node (.para ls), st3.store, ?_, _, rfl, ⟨ls, rfl⟩, hg⟩
    simp [booklit, act, he, PSt.bind, look]

theorem con_lineBreak {st : PSt} : wp booklit n (.expr (rules .lineBreak)) st fun v _ => Shape doc .lineBreak v := by
  apply wp_choice; apply wp_alt
  · exact wp_lit fun _ _ _ _ => trivial
  intro _ _ _ _; apply wp_alt
  · exact wp_lit fun _ _ _ _ => trivial
  intro _ _ _ _; exact wp_choice_nil

theorem con_commentSpacing (hc : Con doc n) {st} (hin : InDoc doc st) :
    wp booklit n (.expr (rules .commentSpacing)) st fun v _ => Shape doc .commentSpacing v := by
  apply wp_choice
  exact hc.choice [.lineBreak, .comment] hin fun _ _ _ _ _ _ _ => trivial

theorem con_paragraph (hc : Con doc n) {st} (hin : InDoc doc st) :
    wp booklit n (.expr (rules .paragraph)) st fun v _ => Shape doc .paragraph v := by
  apply wp_act; apply wp_label
  apply wp_plus_of (Q := fun v => ∃ ns, v = .node (.seq ns) ∧ ns ≠ [] ∧ Good doc (.seq ns)) _ hin.push
  · intro vs st2 h2 _ hne hq
    obtain ⟨ls, e1, e2, e3⟩ := ifaceSequences_ok hq
    refine ⟨.node (.para ls), st2.store, ?_, ls, rfl, ?_⟩
    · simp only [booklit, act, PSt.bind, PSt.pop, look, List.lookup_cons, beq_self_eq_true, Option.getD_some, e1, Option.map_some]
    · refine Good.para ?_ (fun l hl => (e2 l hl).1) (fun l hl => (e2 l hl).2.of_seq)
      rintro rfl; simp at e3; exact hne (List.length_eq_zero_iff.mp e3.symm)
  · intro s hs
    apply wp_act; apply wp_seq; apply wp_cons; apply wp_label
    apply hc.rule hs.push.push
    intro v st2 h2 _ hsh
    apply wp_cons
    apply hc.opt h2.pop.bind
    intro _ st3 h3 he _
    apply wp_nil
    intro _ _ _ _
    obtain ⟨ls, rfl, hg⟩ := hsh
    refine ⟨.node (.seq ls), st3.store, ?_, _, rfl, hg⟩
    simp [booklit, act, he, PSt.bind, look]

theorem con_line (hc : Con doc n) {st} (hin : InDoc doc st) :
    wp booklit n (.expr (rules .line)) st fun v _ => Shape doc .line v := by
  apply wp_act; apply wp_seq; apply wp_cons
  apply wp_blanks hin
  intro _ st1 h1 _
  apply wp_cons; apply wp_label
  apply hc.plus h1.push
  intro vs st2 h2 _ hne hq
  apply wp_nil
  intro _ _ _ _
  obtain ⟨ns, e1, e2, e3⟩ := ifaceNodes_ok hq
  refine ⟨.node (.seq ns), st2.store, ?_, ns, rfl, ?_, Good.seq e2⟩
  · simp only [booklit, act, PSt.bind, PSt.pop, look, List.lookup_cons, beq_self_eq_true, Option.getD_some, e1, Option.map_some]
  · rintro rfl; simp at e3; exact hne (List.length_eq_zero_iff.mp e3.symm)

theorem con_word (hc : Con doc n) {st} (hin : InDoc doc st) :
    wp booklit n (.expr (rules .word)) st fun v _ => Shape doc .word v := by
  apply wp_act; apply wp_seq; apply wp_cons
  apply hc.opt hin
  intro _ st1 h1 _ _
  apply wp_cons; apply wp_label; apply wp_choice
  have key : ∀ (r : Rule) (v : Val) (st' : PSt), InDoc doc st' → (∃ nd, v = .node nd ∧ Good doc nd) →
      wp booklit n (.seq [.opt (.rule .comment)]) ((st'.pop st1).bind .val v) fun w st'' =>
        ∀ vs, w = .list vs → ∀ vs', Val.list (v :: vs) = .list vs' →
        ∃ v' s, booklit.acts .retVal st.pos (st''.sliceFrom st) st''.env st''.store = some (v', s) ∧ Shape doc .word v' := by
    intro r v st' h' hg
    apply wp_cons
    apply hc.opt h'.pop.bind
    intro _ st3 _ he _
    apply wp_nil
    intro _ _ _ _ _ _
    refine ⟨v, st3.store, ?_, hg⟩
    simp [booklit, act, he, PSt.bind, look]
  refine hc.choice [.string, .invoke, .interpolated] h1.push ?_
  intro r hr v st' h' _ hs
  have := key r v st' h' (by
    simp only [List.mem_cons, List.not_mem_nil, or_false] at hr
    rcases hr with rfl | rfl | rfl <;> exact hs)
  refine this.mono ?_
  intro w st'' _ hk vs hvs vs' hvs'
  exact hk vs hvs _ rfl

theorem con_comment (hc : Con doc n) {st} (hin : InDoc doc st) :
    wp booklit n (.expr (rules .comment)) st fun v _ => Shape doc .comment v := by
  apply wp_seq; apply wp_cons
  apply wp_blanks hin
  intro _ st1 h1 _
  apply wp_cons; apply wp_litD h1
  intro st2 h2 _
  apply wp_cons; apply wp_star
  apply wp_star_of (Q := fun _ => True) _ h2
  · intro _ st3 h3 _ _
    apply wp_cons; apply wp_litD h3
    intro st4 _ _
    apply wp_nil
    intros; trivial
  · intro s hs
    apply wp_choice; apply wp_alt
    · exact hc.rule hs.push fun _ _ _ _ _ => trivial
    intro s1 e1 e2 _
    apply wp_alt
    · apply wp_seq; apply wp_cons; apply wp_not
      · exact wp_lit fun _ _ _ _ => trivial
      intro _ _ _ _
      apply wp_cons; apply wp_any
      intros; apply wp_nil; intros; trivial
    intro _ _ _ _; exact wp_choice_nil

theorem con_interpolated (hc : Con doc n) {st} (hin : InDoc doc st) :
    wp booklit n (.expr (rules .interpolated)) st fun v _ => Shape doc .interpolated v := by
  apply wp_act; apply wp_seq; apply wp_cons
  apply wp_litD hin
  intro st1 h1 _
  apply wp_cons; apply wp_label
  apply hc.opt h1.push
  intro v st2 h2 _ hs
  apply wp_cons; apply wp_litD h2.pop.bind
  intro st3 h3 he
  apply wp_nil
  intro _ _ _ _ _ _
  rcases hs with rfl | ⟨nd, rfl, hg⟩
  · refine ⟨.node (.seq []), st3.store, ?_, _, rfl, Good.seq (by simp)⟩
    simp [booklit, act, he, PSt.bind, look]
  · refine ⟨.node nd, st3.store, ?_, _, rfl, hg⟩
    simp [booklit, act, he, PSt.bind, look]

theorem con_wrappedLine (hc : Con doc n) {st} (hin : InDoc doc st) :
    wp booklit n (.expr (rules .wrappedLine)) st fun v _ => Shape doc .wrappedLine v := by
  apply wp_act; apply wp_seq; apply wp_cons; apply wp_label
  apply hc.rule hin.push
  intro v st1 h1 _ hv
  apply wp_cons; apply wp_label; apply wp_star
  apply wp_star_of (Q := fun v => ∃ nd, v = .node nd ∧ Good doc nd) _ h1.pop.bind.push
  · intro vs st2 h2 he hq
    apply wp_nil
    intro _ _ _ _
    have hall : ∀ x ∈ v :: vs, ∃ nd, x = .node nd ∧ Good doc nd := by
      intro x hx
      rcases List.mem_cons.mp hx with rfl | hx
      · exact hv
      · exact hq x hx
    obtain ⟨ns, e1, e2, e3⟩ := ifaceNodes_ok hall
    refine ⟨.node (.seq ns), st2.store, ?_, ns, rfl, Good.seq e2⟩
    simp only [booklit, act, PSt.bind, look, List.lookup_cons, beq_self_eq_true, Option.getD_some, PSt.pop]
    rw [show (Lbl.firstWord == Lbl.words) = false from rfl]
    simp [e1]
  · intro s hs
    apply wp_choice
    refine hc.choice [.word, .split] hs.push ?_
    intro r hr v' _ _ _ hsh
    simp only [List.mem_cons, List.not_mem_nil, or_false] at hr
    rcases hr with rfl | rfl <;> exact hsh

theorem con_split (hc : Con doc n) {st} (hin : InDoc doc st) :
    wp booklit n (.expr (rules .split)) st fun v _ => Shape doc .split v := by
  apply wp_act; apply wp_seq; apply wp_cons
  apply hc.rule hin
  intro _ st1 h1 _ _
  apply wp_cons; apply wp_blanks h1
  intro _ st2 h2 _
  apply wp_nil
  intro _ _ _ _
  exact ⟨_, _, rfl, _, rfl, Good.str (by simp)⟩

theorem sliceFrom_moved {a b : PSt} {w : Str} (h : Moved a w b) : b.sliceFrom a = w := h.sliceFrom

theorem con_string {st} :
    wp booklit n (.expr (rules .string)) st fun v _ => Shape doc .string v := by
  apply wp_choice; apply wp_alt
  · apply wp_act; apply wp_label; apply wp_plus_cls
    intro w next st' _ hr hw _ hm _ _ _
    refine ⟨.node (.str w), st'.store, ?_, _, rfl, Good.str ?_⟩
    · simp only [booklit, act]
      rw [sliceFrom_moved (a := st.push) (b := (st'.pop st.push).bind _ _) (w := w) hm]
      rfl
    · intro c hc; exact cls_no_nl (by simp) (by simp) (hw c hc)
  intro st1 hr1 hp1 _
  apply wp_alt
  · apply wp_act; apply wp_seq; apply wp_cons; apply wp_lit
    intro next b p hr
    apply wp_cons; apply wp_cls
    intro c next' b' p' hr' hcls
    apply wp_nil
    intro _ _ _ _
    have hm : Moved st1.push ['\\', c] ((((st1.push.skip ['\\'] next).failAt b p).skip [c] next').failAt b' p') := by
      simp [PSt.skip] at hr hr'
      constructor
      · simpa [PSt.skip, hr'] using hr
      · simp [PSt.skip, Pos.adv, hr']
    refine ⟨.node (.str [c]), st1.store, ?_, _, rfl, Good.str ?_⟩
    · simp only [booklit, act]
      rw [hm.sliceFrom]
      simp [PSt.skip, PSt.push]
    · intro d hd; simp at hd; subst hd
      constructor <;> (rintro rfl; simp [clsMatches] at hcls)
  intro _ _ _ _; exact wp_choice_nil

theorem con_verbatimString {st} :
    wp booklit n (.expr (rules .verbatimString)) st fun v _ => Shape doc .verbatimString v := by
  apply wp_choice; apply wp_alt
  · apply wp_act; apply wp_label; apply wp_plus_cls
    intro w next st' _ hr hw _ hm _ _ _
    refine ⟨.node (.str w), st'.store, ?_, _, rfl, Good.str ?_⟩
    · simp only [booklit, act]
      rw [sliceFrom_moved (a := st.push) (b := (st'.pop st.push).bind _ _) (w := w) hm]
      rfl
    · intro c hc; exact cls_no_nl (by simp) (by simp) (hw c hc)
  intro st1 hr1 hp1 _
  apply wp_alt
  · apply wp_act; apply wp_seq; apply wp_cons; apply wp_lit
    intro next b p hr
    apply wp_cons; apply wp_not
    · exact wp_lit fun _ _ _ _ => trivial
    intro st2 er ep _
    apply wp_nil
    intro _ _ _ _
    have hm : Moved st1.push ['}'] st2 := by
      simp [PSt.skip] at er
      constructor
      · simpa [er] using hr
      · simp [ep, er, PSt.skip]
    refine ⟨.node (.str ['}']), st2.store, ?_, _, rfl, Good.str ?_⟩
    · simp only [booklit, act]
      rw [hm.sliceFrom]
    · simp
  intro _ _ _ _; exact wp_choice_nil

theorem con_blockLine (hc : Con doc n) {st} (hin : InDoc doc st) (r : Rule)
    (hr : ∀ v, Shape doc r v → ∃ nd, v = .node nd ∧ Good doc nd) :
    wp booklit n (.expr (.act .blockLine (.seq [.label .indent (.rule .indent),
      .label .words (.star (.rule r)), .rule .lineBreak]))) st fun v _ => ∃ ns, v = .node (.seq ns) ∧ Good doc (.seq ns) := by
  apply wp_act; apply wp_seq; apply wp_cons; apply wp_label
  apply hc.rule hin.push
  intro v st1 h1 _ hv
  obtain ⟨i, rfl, hi⟩ := hv
  apply wp_cons; apply wp_label
  apply hc.star h1.pop.bind.push
  intro vs st2 h2 he hq
  apply wp_cons
  apply hc.rule h2.pop.bind
  intro _ st3 h3 he3 _
  apply wp_nil
  intro _ _ _ _ _ _
  obtain ⟨ns, e1, e2, e3⟩ := ifaceNodes_ok (fun x hx => hr x (hq x hx))
  refine ⟨.node (.seq (.str i :: ns)), st3.store, ?_, _, rfl, Good.seq ?_⟩
  · simp only [booklit, act, PSt.bind, look, List.lookup_cons, beq_self_eq_true, Option.getD_some, PSt.pop, he3, e1]
    rw [show (Lbl.indent == Lbl.words) = false from rfl]
    rfl
  · intro m hm
    rcases List.mem_cons.mp hm with rfl | hm
    · exact Good.str hi
    · exact e2 m hm

theorem con_block (hc : Con doc n) {st} (hin : InDoc doc st) (r : Rule)
    (hr : ∀ v, Shape doc r v → ∃ ns, v = .node (.seq ns) ∧ Good doc (.seq ns)) :
    wp booklit n (.expr (.act .block (.seq [.rule .lineBreak,
      .label .lines (.star (.rule r)), blanks]))) st fun v _ => ∃ nd, v = .node nd ∧ Good doc nd := by
  apply wp_act; apply wp_seq; apply wp_cons
  apply hc.rule hin
  intro _ st1 h1 _ _
  apply wp_cons; apply wp_label
  apply hc.star h1.push
  intro vs st2 h2 he hq
  apply wp_cons
  apply wp_blanks h2.pop.bind
  intro _ st3 h3 he3
  apply wp_nil
  intro _ _ _ _ _ _
  obtain ⟨ls, e1, e2, e3⟩ := ifaceSequences_ok (fun x hx => hr x (hq x hx))
  refine ⟨.node (.pre ls), none, ?_, _, rfl, Good.pre fun l hl => (e2 l hl).of_seq⟩
  simp only [booklit, act, PSt.bind, look, List.lookup_cons, beq_self_eq_true, Option.getD_some, he3, e1, Option.map_some]

theorem con_verbatimLine (hc : Con doc n) {st} (hin : InDoc doc st) :
    wp booklit n (.expr (rules .verbatimLine)) st fun v _ => Shape doc .verbatimLine v := by
  apply wp_act; apply wp_label
  apply hc.star hin.push
  intro vs st2 h2 he hq
  obtain ⟨ns, e1, e2, e3⟩ := ifaceNodes_ok hq
  refine ⟨.node (.seq ns), st2.store, ?_, ns, rfl, Good.seq e2⟩
  simp only [booklit, act, PSt.bind, PSt.pop, look, List.lookup_cons, beq_self_eq_true, Option.getD_some, e1, Option.map_some]

theorem con_invoke (hc : Con doc n) {st} (hin : InDoc doc st) :
    wp booklit n (.expr (rules .invoke)) st fun v _ => Shape doc .invoke v := by
  apply wp_act; apply wp_seq; apply wp_cons; apply wp_lit
  intro next b p hr
  have h1 := hin.skip (b := b) (p := p) hr
  apply wp_cons; apply wp_label; apply wp_plus_cls
  intro w next' st2 hw0 hrw hw hstop hm2 hr2 he2 _
  have h2 := h1.push.moved hm2
  apply wp_cons; apply wp_label
  apply hc.star h2.pop.bind.push
  intro vs st3 h3 he3 hq
  apply wp_nil
  intro _ _ _ _ _ _
  obtain ⟨ns, e1, e2, e3⟩ := ifaceNodes_ok hq
  have hcall : CallAt doc w st.pos := by
    obtain ⟨pre, hd, hp⟩ := hin
    refine ⟨pre, next', ?_, ?_, ?_⟩
    · have : next = w ++ next' := by simpa [PSt.push, PSt.skip] using hrw
      rw [hd, hr, this]; simp
    · intro c hc; rw [← fnChar_eq]; exact hstop c hc
    · rw [hp]; apply posAt_other; rw [hr]; simp
  refine ⟨.node (.invoke w ns st.pos), st3.store, ?_, _, rfl, Good.invoke hw0 ?_ hcall e2⟩
  · simp only [booklit, act, PSt.bind, look, List.lookup_cons, beq_self_eq_true, Option.getD_some, PSt.pop]
    rw [show (Lbl.name == Lbl.args) = false from rfl]
    simp only [Option.getD_some, e1, ifaceStr_bytes]
  · intro c hc; rw [← fnChar_eq]; exact hw c hc

theorem con_verbatimArg (hc : Con doc n) {st} (hin : InDoc doc st) :
    wp booklit n (.expr (rules .verbatimArg)) st fun v _ => Shape doc .verbatimArg v := by
  apply wp_act; apply wp_seq; apply wp_cons; apply wp_litD hin
  intro st1 h1 _
  apply wp_cons; apply wp_label; apply wp_choice
  refine hc.choice [.verbatimBlock, .verbatimLine] h1.push ?_
  intro r hr v st2 h2 _ hs
  have hs' : ∃ nd, v = .node nd ∧ Good doc nd := by
    simp only [List.mem_cons, List.not_mem_nil, or_false] at hr
    rcases hr with rfl | rfl
    · exact hs
    · obtain ⟨ns, e, hg⟩ := hs; exact ⟨_, e, hg⟩
  apply wp_cons; apply wp_litD h2.pop.bind
  intro st3 h3 he
  apply wp_nil
  intro _ _ _ _ _ _
  refine ⟨v, st3.store, ?_, hs'⟩
  simp [booklit, act, he, PSt.bind, look]

theorem con_preformattedArg (hc : Con doc n) {st} (hin : InDoc doc st) :
    wp booklit n (.expr (rules .preformattedArg)) st fun v _ => Shape doc .preformattedArg v := by
  apply wp_act; apply wp_seq; apply wp_cons; apply wp_litD hin
  intro st1 h1 _
  apply wp_cons; apply wp_label; apply hc.rule h1.push
  intro v st2 h2 _ hs
  apply wp_cons; apply wp_litD h2.pop.bind
  intro st3 h3 he
  apply wp_nil
  intro _ _ _ _ _ _
  refine ⟨v, st3.store, ?_, hs⟩
  simp [booklit, act, he, PSt.bind, look]

theorem con_emptyArg (hc : Con doc n) {st} (hin : InDoc doc st) :
    wp booklit n (.expr (rules .emptyArg)) st fun v _ => Shape doc .emptyArg v := by
  apply wp_act; apply hc.star hin
  intro _ st1 _ _ _
  exact ⟨_, _, rfl, rfl⟩

theorem con_arg (hc : Con doc n) {st} (hin : InDoc doc st) :
    wp booklit n (.expr (rules .arg)) st fun v _ => Shape doc .arg v := by
  apply wp_act; apply wp_seq; apply wp_cons; apply wp_litD hin
  intro st1 h1 _
  apply wp_cons; apply wp_label
  have key : ∀ v st', InDoc doc st' → (v = .nil ∨ ∃ nd, v = .node nd ∧ Good doc nd) →
      wp booklit n (.seq [.lit ['}']]) ((st'.pop st1).bind .node v) fun w st'' =>
        ∀ vs, w = .list vs → ∃ v' s, booklit.acts .arg st.pos (st''.sliceFrom st) st''.env st''.store = some (v', s) ∧
          Shape doc .arg v' := by
    intro v st' h' hv
    apply wp_cons; apply wp_litD h'.pop.bind
    intro st3 h3 he
    apply wp_nil
    intro _ _ _ _
    rcases hv with rfl | ⟨nd, rfl, hg⟩
    · refine ⟨.node (.str []), st3.store, ?_, _, rfl, Good.str (by simp)⟩
      simp [booklit, act, he, PSt.bind, look]
    · refine ⟨.node nd, st3.store, ?_, _, rfl, hg⟩
      simp [booklit, act, he, PSt.bind, look]
  apply wp_opt
  · apply wp_choice
    refine hc.choice [.wrappedLine, .paraArg, .emptyArg] h1.push.push ?_
    intro r hr v st2 h2 _ hs
    have hs' : v = .nil ∨ ∃ nd, v = .node nd ∧ Good doc nd := by
      simp only [List.mem_cons, List.not_mem_nil, or_false] at hr
      rcases hr with rfl | rfl | rfl
      · obtain ⟨ns, e, hg⟩ := hs; exact Or.inr ⟨_, e, hg⟩
      · obtain ⟨ns, e, _, hg⟩ := hs; exact Or.inr ⟨_, e, Good.seq fun p hp => (hg p hp).2⟩
      · exact Or.inl hs
    refine (key v _ h2.pop hs').mono ?_
    intro w st'' _ hk vs hvs _ _
    exact hk vs hvs
  · intro st2 e1 e2 _
    refine (key .nil st2 (h1.push.same e1.symm e2.symm) (Or.inl rfl)).mono ?_
    intro w st'' _ hk vs hvs _ _
    exact hk vs hvs

theorem con_paraArg (hc : Con doc n) {st} (hin : InDoc doc st) :
    wp booklit n (.expr (rules .paraArg)) st fun v _ => Shape doc .paraArg v := by
  apply wp_act; apply wp_seq; apply wp_cons; apply wp_label
  apply hc.rule hin.push
  intro v st1 h1 _ hs
  apply wp_cons; apply wp_blanks h1.pop.bind
  intro _ st3 h3 he
  apply wp_nil
  intro _ _ _ _
  refine ⟨v, st3.store, ?_, hs⟩
  simp [booklit, act, he, PSt.bind, look]

theorem con_argument (hc : Con doc n) {st} (hin : InDoc doc st) :
    wp booklit n (.expr (rules .argument)) st fun v _ => Shape doc .argument v := by
  apply wp_choice
  refine hc.choice [.verbatimArg, .preformattedArg, .arg] hin ?_
  intro r hr v _ _ _ hs
  simp only [List.mem_cons, List.not_mem_nil, or_false] at hr
  rcases hr with rfl | rfl | rfl <;> exact hs

theorem con_indent {st} : wp booklit n (.expr (rules .indent)) st fun v _ => Shape doc .indent v := by
  apply wp_act; apply wp_star; apply wp_star_cls
  intro w next st' _ hw _ hm _ _ _
  have hall : ∀ c ∈ w, c ≠ '\n' ∧ c ≠ '\r' := fun c hc => blank_no_nl (hw c hc)
  simp only [booklit, act, hm.sliceFrom]
  split
  · exact ⟨_, _, rfl, _, rfl, fun c hc => hall c (List.mem_of_mem_drop hc)⟩
  · exact ⟨_, _, rfl, _, rfl, by simp⟩

theorem con_all (doc : Str) : ∀ n, Con doc n
  | 0 => by
    intro r st _ m hm x hx
    have : m = 0 := by omega
    subst this; simp [run] at hx
  | n + 1 => by
    have hc := con_all doc n
    intro r st hin
    apply wp_rule
    have key : wp booklit n (.expr (rules r)) st.push fun v _ => Shape doc r v := by
      have hin := hin.push
      cases r with
      | booklit => exact con_booklit hc hin
      | paragraphs => exact con_paragraphs hc hin
      | lineBreak => exact con_lineBreak
      | commentSpacing => exact con_commentSpacing hc hin
      | paragraph => exact con_paragraph hc hin
      | line => exact con_line hc hin
      | word => exact con_word hc hin
      | comment => exact con_comment hc hin
      | interpolated => exact con_interpolated hc hin
      | wrappedLine => exact con_wrappedLine hc hin
      | split => exact con_split hc hin
      | string => exact con_string
      | verbatimString => exact con_verbatimString
      | preformattedBlockLine => exact con_blockLine hc hin .word fun _ h => h
      | preformattedBlock => exact con_block hc hin .preformattedBlockLine fun _ h => h
      | verbatimLine => exact con_verbatimLine hc hin
      | verbatimBlockLine => exact con_blockLine hc hin .verbatimString fun _ h => h
      | verbatimBlock => exact con_block hc hin .verbatimBlockLine fun _ h => h
      | invoke => exact con_invoke hc hin
      | verbatimArg => exact con_verbatimArg hc hin
      | preformattedArg => exact con_preformattedArg hc hin
      | emptyArg => exact con_emptyArg hc hin
      | arg => exact con_arg hc hin
      | paraArg => exact con_paraArg hc hin
      | argument => exact con_argument hc hin
      | indent => exact con_indent
    exact key.mono fun v st' _ h => ⟨h, rfl⟩

end

end Booklit.Peg
