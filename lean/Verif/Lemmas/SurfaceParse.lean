import Verif.Lemmas.SurfaceBase
import Verif.Lemmas.PegGood

/-!
Every well-formed surface document is read as the tree it stands for.
-/

namespace Booklit.Peg

open Booklit Booklit.Src

variable {inp next mid : Str} {s s' s1 : Option Nat} {env : Env} {K K1 : Val → Env → Prop}

/-! ### values -/

def IsNode (n : Node) (v : Val) : Prop := ∃ m, v = .node m ∧ m.erase = n
def IsNodes (ns : List Node) (v : Val) : Prop := ∃ ms, v = .list (ms.map .node) ∧ eraseL ms = ns
def IsSeqs (ls : List (List Node)) (v : Val) : Prop := ∃ ms, v = .list (ms.map fun m => .node (.seq m)) ∧ eraseLL ms = ls
def IsSeq (ns : List Node) (v : Val) : Prop := ∃ ms, v = .node (.seq ms) ∧ eraseL ms = ns

theorem IsNodes.nil : IsNodes [] (.list []) := ⟨[], rfl, rfl⟩
theorem IsSeqs.nil : IsSeqs [] (.list []) := ⟨[], rfl, rfl⟩

theorem IsNodes.cons {n ns v vs} (h : IsNode n v) (h' : IsNodes ns (.list vs)) : IsNodes (n :: ns) (.list (v :: vs)) := by
  obtain ⟨m, rfl, rfl⟩ := h
  obtain ⟨ms, e, rfl⟩ := h'
  cases e
  exact ⟨m :: ms, rfl, rfl⟩

theorem IsSeqs.cons {n ns v vs} (h : IsSeq n v) (h' : IsSeqs ns (.list vs)) : IsSeqs (n :: ns) (.list (v :: vs)) := by
  obtain ⟨m, rfl, rfl⟩ := h
  obtain ⟨ms, e, rfl⟩ := h'
  cases e
  exact ⟨m :: ms, rfl, rfl⟩

theorem ifaceNodes_map (ms : List Node) : ifaceNodes (.list (ms.map .node)) = some ms := by
  show ifaceNodes.go _ = _
  induction ms with
  | nil => rfl
  | cons m ms ih => simp [ifaceNodes.go, ih]

theorem ifaceSequences_map (ms : List (List Node)) : ifaceSequences (.list (ms.map fun m => .node (.seq m))) = some ms := by
  show ifaceSequences.go _ = _
  induction ms with
  | nil => rfl
  | cons m ms ih => simp [ifaceSequences.go, ih]

theorem look_hd (l : Lbl) (v : Val) (e : Env) : look ((l, v) :: e) l = v := by simp [look]

theorem look_tl {l l' : Lbl} (v : Val) (e : Env) (h : (l == l') = false) : look ((l', v) :: e) l = look e l := by
  simp [look, List.lookup_cons, h]

/-! ### verbatim text -/

theorem verb_cls (c : Char) : clsMatches true ['\r', '\n', '}'] [] c = (!(c == '\r' || c == '\n' || c == '}')) := by
  simp only [clsMatches, List.contains, List.elem, List.any_nil, Bool.or_false]
  cases c == '\r' <;> cases c == '\n' <;> cases c == '}' <;> rfl

/-- No `}` of `t` starts a closing `}}}` when `f` follows. -/
def VGood (t f : Str) : Prop := ∀ a u, t = a ++ '}' :: u → ¬ ∃ r, u ++ f = '}' :: '}' :: r

/-- Where verbatim text ends: at a line end or at `}}}`. -/
def VStop (f : Str) : Prop := (∃ r, f = '\n' :: r) ∨ (∃ r, f = '\r' :: r) ∨ ∃ r, f = '}' :: '}' :: '}' :: r

theorem no_verbatimString {f : Str} (h : VStop f) : NoR .verbatimString f s s := by
  apply no_rule; apply no_choice
  rcases h with ⟨r, rfl⟩ | ⟨r, rfl⟩ | ⟨r, rfl⟩
  · exact no_next (no_act (no_label (no_plus_cls (by simp [verb_cls]))))
      (no_next (no_act (no_seq (no_cons (no_lit (by rintro ⟨n, hn⟩; simp at hn))))) no_choice_nil)
  · exact no_next (no_act (no_label (no_plus_cls (by simp [verb_cls]))))
      (no_next (no_act (no_seq (no_cons (no_lit (by rintro ⟨n, hn⟩; simp at hn))))) no_choice_nil)
  · refine no_next (no_act (no_label (no_plus_cls (by simp [verb_cls]))))
      (no_next (no_act (no_seq (no_cons' (K1 := fun _ _ => True) (s1 := s) (fun _ => ok_lit (next := '}' :: '}' :: r) rfl trivial) (no_cons ?_)))) no_choice_nil)
    exact no_not (next := r) (ok_lit rfl trivial)

theorem go_run (run acc rest : Str) (h : ∀ c ∈ run, c ≠ '}') : pieces.go acc (run ++ rest) = pieces.go (run.reverse ++ acc) rest := by
  induction run generalizing acc with
  | nil => rfl
  | cons c run ih =>
    have hc : c ≠ '}' := h c (by simp)
    simp only [List.cons_append, pieces.go, List.reverse_cons, List.append_assoc]
    rw [if_neg (by simpa using hc), ih (c :: acc) fun d hd => h d (by simp [hd])]
    simp

theorem pieces_close (run t : Str) (h : ∀ c ∈ run, c ≠ '}') :
    pieces (run ++ '}' :: t) = (if run.isEmpty then [] else [run]) ++ ['}'] :: pieces t := by
  unfold pieces
  rw [go_run _ _ _ h]
  simp [pieces.go]

theorem pieces_run (run : Str) (h : ∀ c ∈ run, c ≠ '}') : pieces run = if run.isEmpty then [] else [run] := by
  have := go_run run [] [] h
  simp only [List.append_nil] at this
  unfold pieces
  rw [this]
  simp [pieces.go]

theorem eraseL_strs (l : List Str) : eraseL (l.map Node.str) = l.map Node.str := by
  induction l with
  | nil => rfl
  | cons a l ih => simp [eraseL, Node.erase, ih]

theorem ok_verbatimRun {run f : Str} (hne : run ≠ []) (h : ∀ c ∈ run, c ≠ '}' ∧ c ≠ '\r' ∧ c ≠ '\n')
    (hf : ∀ c ∈ f.head?, c = '}' ∨ c = '\r' ∨ c = '\n') :
    OkR .verbatimString (run ++ f) s f s fun v => v = .node (.str run) := by
  apply ok_rule; apply ok_choice
  refine ok_alt (ok_act (K1 := fun _ _ => True) (w := run) (ok_label (ok_plus_cls rfl hne ?_ ?_ trivial)) rfl ?_)
  · intro c hc; rw [verb_cls]; have := h c hc; simp [this]
  · intro c hc; rw [verb_cls]; rcases hf c hc with rfl | rfl | rfl <;> rfl
  · intro v e pos _; exact ⟨_, rfl, rfl⟩

theorem ok_verbatimBrace {f : Str} (h : ¬ ∃ r, f = '}' :: '}' :: r) :
    OkR .verbatimString ('}' :: f) s f s fun v => v = .node (.str ['}']) := by
  apply ok_rule; apply ok_choice
  refine ok_next (no_act (no_label (no_plus_cls (by simp [verb_cls])))) (ok_alt ?_)
  refine ok_act (K1 := fun _ _ => True) (s1 := s) (w := ['}']) (ok_seq (ok_cons (K1 := fun _ _ => True) (ok_lit (next := f) rfl trivial) ?_)) rfl ?_
  · intro v e _
    refine ok_cons (K1 := fun _ _ => True) (ok_not (no_lit ?_) trivial) fun _ _ _ => ok_nil fun _ _ _ _ => trivial
    rintro ⟨n, hn⟩; exact h ⟨n, hn⟩
  · intro v e pos _; exact ⟨_, rfl, rfl⟩

theorem ok_verbatim : ∀ (n : Nat) (t f : Str), t.length ≤ n → (∀ c ∈ t, c ≠ '\r' ∧ c ≠ '\n') → VGood t f → VStop f →
    ∀ env, Ok (.star (.rule .verbatimString)) (t ++ f) s env f s fun v e => IsNodes ((pieces t).map .str) v ∧ e = env := by
  intro n
  induction n with
  | zero =>
    intro t f hl _ _ hf env
    have : t = [] := List.length_eq_zero_iff.mp (by omega)
    subst this
    exact ok_stop (no_verbatimString hf) ⟨IsNodes.nil, rfl⟩
  | succ n ih =>
    intro t f hl ht hg hf env
    obtain ⟨run, rest, e, hrun, hrest⟩ := takeWhile_split (fun c => c != '}') t
    have hrun' : ∀ c ∈ run, c ≠ '}' := fun c hc => by simpa using hrun c hc
    have hfh : ∀ c ∈ f.head?, c = '}' ∨ c = '\r' ∨ c = '\n' := by
      intro c hc
      rcases hf with ⟨r, rfl⟩ | ⟨r, rfl⟩ | ⟨r, rfl⟩ <;> simp at hc <;> simp [← hc]
    cases rest with
    | nil =>
      simp only [List.append_nil] at e; subst e
      by_cases hne : t = []
      · subst hne; exact ok_stop (no_verbatimString hf) ⟨IsNodes.nil, rfl⟩
      · rw [pieces_run t hrun', if_neg (by simpa using hne)]
        refine ok_more (mid := f) (s1 := s)
          ((ok_verbatimRun hne (fun c hc => ⟨hrun' c hc, ht c hc⟩) hfh).ok (K := fun v _ => v = .node (.str t)) fun _ h => h) ?_
        intro v hv
        refine ok_stop (no_verbatimString hf) fun vs hvs => ⟨?_, rfl⟩
        cases hvs; subst hv
        exact IsNodes.cons ⟨_, rfl, rfl⟩ IsNodes.nil
    | cons b u =>
      have hb : b = '}' := by simpa using hrest b (by simp)
      subst hb
      have htail : VGood u f := by
        intro a u' hu; exact hg (run ++ '}' :: a) u' (by rw [e, hu]; simp)
      have hlen : u.length ≤ n := by rw [e] at hl; simp at hl; omega
      have ihu := ih u f hlen (fun c hc => ht c (by rw [e]; simp [hc])) htail hf env
      have hbrace : Ok (.star (.rule .verbatimString)) ('}' :: u ++ f) s env f s fun v e =>
          IsNodes ((['}'] :: pieces u).map .str) v ∧ e = env := by
        refine ok_more (mid := u ++ f) (s1 := s)
          ((ok_verbatimBrace (hg run u e)).ok (K := fun v _ => v = .node (.str ['}'])) fun _ h => h) ?_
        intro v hv
        refine ihu.mono ?_
        rintro w e' ⟨h1, h2⟩ vs rfl
        subst hv
        exact ⟨IsNodes.cons ⟨_, rfl, rfl⟩ h1, h2⟩
      rw [e, pieces_close run u hrun', List.append_assoc]
      by_cases hne : run = []
      · subst hne; exact hbrace
      · rw [if_neg (by simpa using hne)]
        refine ok_more (mid := '}' :: u ++ f) (s1 := s)
          ((ok_verbatimRun hne (fun c hc => ⟨hrun' c hc, ht c (by rw [e]; simp [hc])⟩) (by simp)).ok
            (K := fun v _ => v = .node (.str run)) fun _ h => h) ?_
        intro v hv
        refine hbrace.mono ?_
        rintro w e' ⟨h1, h2⟩ vs rfl
        subst hv
        exact ⟨IsNodes.cons ⟨_, rfl, rfl⟩ h1, h2⟩

theorem vgood_close {t : Str} (h1 : ¬ hasClose t) (h2 : t.getLast? ≠ some '}') (r : Str) : VGood t ('}' :: '}' :: '}' :: r) := by
  rintro a u rfl ⟨r', hr⟩
  match u, hr with
  | [], _ => simp at h2
  | [c], hr => simp at hr; rw [hr.1] at h2; simp at h2
  | c :: d :: u, hr => simp at hr; exact h1 ⟨a, u, by rw [hr.1, hr.2.1]⟩

theorem vgood_nl {t nl : Str} (hnl : IsNl nl) (h1 : ¬ hasClose t) (r : Str) : VGood t (nl ++ r) := by
  rintro a u rfl ⟨r', hr⟩
  match u, hr with
  | [], hr => rcases hnl with rfl | rfl <;> simp at hr
  | [c], hr => rcases hnl with rfl | rfl <;> simp at hr
  | c :: d :: u, hr => simp at hr; exact h1 ⟨a, u, by rw [hr.1, hr.2.1]⟩

theorem vstop_nl {nl : Str} (hnl : IsNl nl) (r : Str) : VStop (nl ++ r) := by
  rcases hnl with rfl | rfl
  · exact Or.inl ⟨r, rfl⟩
  · exact Or.inr (Or.inl ⟨'\n' :: r, rfl⟩)

/-! ### blocks -/

theorem ok_indent {i : Str} (hi : allBlank i) (hn : ∀ c ∈ next.head?, isBlank c = false) :
    OkR .indent (i ++ next) s next (some (s.getD i.length)) fun v => v = .str (i.drop (s.getD i.length)) := by
  apply ok_rule
  refine ok_act (K1 := fun _ _ => True) (w := i) (s1 := s) (ok_blanks rfl hi hn fun _ => trivial) rfl ?_
  intro v e pos _
  simp only [act]
  split
  · exact ⟨_, rfl, rfl⟩
  · refine ⟨_, rfl, ?_⟩
    rw [List.drop_eq_nil_of_le (by omega)]

/-- A line of a block, given how its contents are read. -/
theorem ok_blockLine {r : Rule} {nl i body : Str} {ns : List Node} (hnl : IsNl nl) (hi : allBlank i)
    (hb : ∀ c ∈ (body ++ nl).head?, isBlank c = false)
    (h : Ok (.star (.rule r)) (body ++ (nl ++ next)) (some (s.getD i.length)) [] (nl ++ next) (some (s.getD i.length))
      fun v _ => IsNodes ns v) :
    Ok (.expr (.act .blockLine (.seq [.label .indent (.rule .indent), .label .words (.star (.rule r)), .rule .lineBreak])))
      (i ++ body ++ nl ++ next) s env next (some (s.getD i.length)) fun v _ => IsSeq (.str (i.drop (s.getD i.length)) :: ns) v := by
  refine ok_act (w := i ++ body ++ nl) (s1 := some (s.getD i.length))
    (K1 := fun _ e => look e .indent = .str (i.drop (s.getD i.length)) ∧ IsNodes ns (look e .words)) (ok_seq ?_) rfl ?_
  · refine ok_cons (mid := body ++ (nl ++ next)) (s1 := some (s.getD i.length))
      (K1 := fun _ e => e = (.indent, .str (i.drop (s.getD i.length))) :: env) (ok_label ?_) ?_
    · have hh : ∀ c ∈ (body ++ (nl ++ next)).head?, isBlank c = false := by
        intro c hc
        apply hb c
        cases body with
        | nil => rcases hnl with rfl | rfl <;> simpa using hc
        | cons => simpa using hc
      have := (ok_indent (s := s) hi hh).ok (env := []) (K := fun v _ => ((Lbl.indent, v) :: env : Env) = (.indent, .str (i.drop (s.getD i.length))) :: env)
        (fun v hv => by subst hv; rfl)
      simpa using this
    · rintro v _ rfl
      refine ok_cons (mid := nl ++ next) (s1 := some (s.getD i.length))
        (K1 := fun _ e => ∃ w, IsNodes ns w ∧ e = (.words, w) :: (.indent, .str (i.drop (s.getD i.length))) :: env) (ok_label ?_) ?_
      · exact ok_star (h.mono fun w _ hw => ⟨w, hw, rfl⟩)
      · rintro _ _ ⟨w, hw, rfl⟩
        refine ok_cons (K1 := fun _ e => e = (.words, w) :: (.indent, .str (i.drop (s.getD i.length))) :: env)
          ((ok_lineBreak hnl).ok fun _ _ => rfl) ?_
        rintro _ _ rfl
        refine ok_nil fun _ _ _ _ _ _ => ⟨?_, ?_⟩
        · rw [look_tl _ _ rfl, look_hd]
        · rw [look_hd]; exact hw
  · rintro v e pos ⟨h1, ms, h2, h3⟩
    refine ⟨.node (.seq (.str (i.drop (s.getD i.length)) :: ms)), ?_, _, rfl, ?_⟩
    · simp only [act, h1, h2, ifaceNodes_map]
    · simp [eraseL, Node.erase, h3]

/-- The end of a block is not another line. -/
theorem no_blockLine {r : Rule} {bl f : Str} (hb : allBlank bl) (hf : f.head? = some '}')
    (h : NoR r f (some (s.getD bl.length)) (some (s.getD bl.length))) :
    No (.expr (.act .blockLine (.seq [.label .indent (.rule .indent), .label .words (.star (.rule r)), .rule .lineBreak])))
      (bl ++ f) s (some (s.getD bl.length)) := by
  apply no_act; apply no_seq
  refine no_cons' (K1 := fun _ _ => True) (mid := f) (s1 := some (s.getD bl.length))
    (fun _ => ok_label ((ok_indent hb (by rw [hf]; simp [isBlank])).ok fun _ _ => trivial)) ?_
  refine no_cons' (K1 := fun _ _ => True) (mid := f) (s1 := some (s.getD bl.length))
    (fun _ => ok_label (ok_star (ok_stop h trivial))) ?_
  exact no_cons (no_lineBreak (by rw [hf]; simp) (by rw [hf]; simp))

/-- A whole block, given how its lines are read. -/
theorem ok_block {r : Rule} {nl body bl f : Str} {ls : List (List Node)} (hnl : IsNl nl) (hb : allBlank bl)
    (hf : f.head? = some '}')
    (h : Ok (.star (.rule r)) (body ++ (bl ++ f)) s [] (bl ++ f) s' fun v _ => IsSeqs ls v) :
    Ok (.expr (.act .block (.seq [.rule .lineBreak, .label .lines (.star (.rule r)), blanks])))
      (nl ++ body ++ bl ++ f) s env f none fun v _ => IsNode (.pre ls) v := by
  refine ok_act (w := nl ++ body ++ bl) (s1 := s') (K1 := fun _ e => IsSeqs ls (look e .lines)) (ok_seq ?_) rfl ?_
  · refine ok_cons (mid := body ++ (bl ++ f)) (s1 := s) (K1 := fun _ e => e = env) ?_ ?_
    · have := (ok_lineBreak (s := s) (next := body ++ (bl ++ f)) hnl).ok (env := env) (K := fun _ e => e = env) fun _ _ => rfl
      simpa using this
    · rintro _ _ rfl
      refine ok_cons (K1 := fun _ e => IsSeqs ls (look e .lines)) (ok_label (ok_star (h.mono fun w _ hw => ?_))) ?_
      · rw [look_hd]; exact hw
      · intro _ e he
        refine ok_cons (K1 := fun _ e => IsSeqs ls (look e .lines)) (ok_blanks rfl hb (by rw [hf]; simp [isBlank]) fun _ => he) ?_
        intro _ _ he'
        exact ok_nil fun _ _ _ _ _ _ => he'
  · rintro v e pos ⟨ms, h1, h2⟩
    exact ⟨.node (.pre ms), by simp [act, h1, ifaceSequences_map], _, rfl, by simp [Node.erase, h2]⟩

theorem ok_verbatimBlockLines {nl bl f : Str} (hnl : IsNl nl) (hb : allBlank bl) (k : Nat) (env : Env) :
    ∀ ls : List (Str × Str), (∀ l ∈ ls, allBlank l.1 ∧ (∀ c ∈ l.2.head?, isBlank c = false) ∧
      (∀ c ∈ l.2, c ≠ '\r' ∧ c ≠ '\n') ∧ ¬ hasClose l.2) →
    Ok (.star (.rule .verbatimBlockLine)) (printVLines nl ls ++ (bl ++ '}' :: '}' :: '}' :: f)) (some k) env
      (bl ++ '}' :: '}' :: '}' :: f) (some k)
      fun v _ => IsSeqs (ls.map fun l => .str (l.1.drop k) :: (pieces l.2).map .str) v
  | [], _ => ok_stop (no_rule (no_blockLine (s := some k) (bl := bl) (f := '}' :: '}' :: '}' :: f) hb rfl (no_verbatimString (Or.inr (Or.inr ⟨f, rfl⟩))))) IsSeqs.nil
  | (i, t) :: ls, h => by
    obtain ⟨h1, h2, h3, h4⟩ := h (i, t) (by simp)
    have hl := ok_blockLine (r := .verbatimString) (s := some k) (env := [])
      (next := printVLines nl ls ++ (bl ++ '}' :: '}' :: '}' :: f)) (body := t) hnl h1
      (by
        intro c hc
        cases t with
        | nil => rcases hnl with rfl | rfl <;> simp at hc <;> simp [← hc, isBlank]
        | cons => exact h2 c (by simpa using hc))
      ((ok_verbatim t.length t _ (Nat.le_refl _) h3 (vgood_nl hnl h4 _) (vstop_nl hnl _) []).mono fun _ _ h => h.1)
    have hr := ok_rule (r := .verbatimBlockLine) (Q := fun v => IsSeq (.str (i.drop k) :: (pieces t).map .str) v) hl
    have := ok_more (e := .rule .verbatimBlockLine) (env := env)
      (K := fun v _ => IsSeqs (((i, t) :: ls).map fun l => .str (l.1.drop k) :: (pieces l.2).map .str) v)
      (hr.ok (env := []) (K := fun v _ => IsSeq (.str (i.drop k) :: (pieces t).map .str) v) fun _ h => h)
      (fun v hv => (ok_verbatimBlockLines hnl hb k env ls fun l hl => h l (by simp [hl])).mono fun w e hw vs hvs => by
        subst hvs; exact IsSeqs.cons hv hw)
    simpa [printVLines] using this

theorem ok_vblock {nl bl f : Str} (hnl : IsNl nl) (hb : allBlank bl) (ls : List (Str × Str))
    (h : ∀ l ∈ ls, allBlank l.1 ∧ (∀ c ∈ l.2.head?, isBlank c = false) ∧
      (∀ c ∈ l.2, c ≠ '\r' ∧ c ≠ '\n') ∧ ¬ hasClose l.2) :
    OkR .verbatimBlock (nl ++ printVLines nl ls ++ bl ++ '}' :: '}' :: '}' :: f) none ('}' :: '}' :: '}' :: f) none
      (IsNode (.pre (ls.map fun l => .str (l.1.drop (baseOf (ls.map Prod.fst))) :: (pieces l.2).map .str))) := by
  apply ok_rule
  have key : ∃ s', Ok (.star (.rule .verbatimBlockLine)) (printVLines nl ls ++ (bl ++ '}' :: '}' :: '}' :: f)) none []
      (bl ++ '}' :: '}' :: '}' :: f) s'
      fun v _ => IsSeqs (ls.map fun l => .str (l.1.drop (baseOf (ls.map Prod.fst))) :: (pieces l.2).map .str) v := by
    cases ls with
    | nil => exact ⟨_, ok_stop (no_rule (no_blockLine (s := none) (bl := bl) (f := '}' :: '}' :: '}' :: f) hb rfl (no_verbatimString (Or.inr (Or.inr ⟨f, rfl⟩))))) IsSeqs.nil⟩
    | cons l ls =>
      obtain ⟨i, t⟩ := l
      refine ⟨some i.length, ?_⟩
      obtain ⟨h1, h2, h3, h4⟩ := h (i, t) (by simp)
      have hl := ok_blockLine (r := .verbatimString) (s := none) (env := [])
        (next := printVLines nl ls ++ (bl ++ '}' :: '}' :: '}' :: f)) (body := t) hnl h1
        (by
          intro c hc
          cases t with
          | nil => rcases hnl with rfl | rfl <;> simp at hc <;> simp [← hc, isBlank]
          | cons => exact h2 c (by simpa using hc))
        ((ok_verbatim t.length t _ (Nat.le_refl _) h3 (vgood_nl hnl h4 _) (vstop_nl hnl _) []).mono fun _ _ h => h.1)
      have hr := ok_rule (r := .verbatimBlockLine) (Q := fun v => IsSeq (.str (i.drop i.length) :: (pieces t).map .str) v) hl
      have := ok_more (e := .rule .verbatimBlockLine) (env := [])
        (K := fun v _ => IsSeqs (((i, t) :: ls).map fun l => .str (l.1.drop i.length) :: (pieces l.2).map .str) v)
        (hr.ok (env := []) (K := fun v _ => IsSeq (.str (i.drop i.length) :: (pieces t).map .str) v) fun _ h => h)
        (fun v hv => (ok_verbatimBlockLines hnl hb i.length [] ls fun l hl => h l (by simp [hl])).mono fun w e hw vs hvs => by
          subst hvs; exact IsSeqs.cons hv hw)
      simpa [printVLines, baseOf] using this
  obtain ⟨s', key⟩ := key
  exact ok_block hnl hb rfl key

end Booklit.Peg
