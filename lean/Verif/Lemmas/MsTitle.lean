import Verif.Lemmas.MsEval
import Verif.Lemmas.IdsL

/-!
Titles in manuscripts: the contents they become, their text, and what is left when the auxiliary parts are taken away.
-/

namespace Booklit.Ms

open Booklit Booklit.Src

/-- Several contents as one. -/
def Whole (cs : List Content) (c : Content) : Prop := (cs ≠ [] ∧ c = oneBody cs) ∨ c = .seq cs

mutual
/-- The contents of a title, whole or with parts taken away. -/
inductive TitleIs : Span → List Content → Prop
  | text {ss : List Str} : ss ≠ [] → TitleIs (.text ss.flatten) (ss.map .str)
  | code {ss : List Str} {c : Content} : Whole (ss.map .str) c → TitleIs (.code ss.flatten) [.styled q%"verbatim" false c []]
  | styled {f : Face} {ss : List Span} {cs : List Content} {c : Content} : TitlesIs ss cs → Whole cs c →
      TitleIs (.styled f ss) [.styled f.fn false c []]
  | image {path alt : Str} : TitleIs (.image path alt) [.image path alt]
  | aux {ss : List Span} {cs : List Content} : TitlesIs ss cs → cs ≠ [] → TitleIs (.aux ss) [.aux (oneBody cs)]
inductive TitlesIs : List Span → List Content → Prop
  | nil : TitlesIs [] []
  | cons {s : Span} {ss : List Span} {c cs : List Content} : TitleIs s c → TitlesIs ss cs → TitlesIs (s :: ss) (c ++ cs)
end

mutual
theorem SpanIs.title {i : Nat} : ∀ {s : Span} {cs : List Content}, SpanIs i s cs → s.bare → TitleIs s cs
  | _, _, .text h, _ => .text h
  | _, _, .code h, _ => .code (Or.inl ⟨by simpa using h, rfl⟩)
  | _, _, .styled h hn, hb => .styled (h.titles hb.2) (Or.inl ⟨hn, rfl⟩)
  | _, _, .link _ _, hb => hb.elim
  | _, _, .ref, hb => hb.elim
  | _, _, .see _ _ _, hb => hb.elim
  | _, _, .image, _ => .image
  | _, _, .target _ _ _, hb => hb.elim
  | _, _, .aux h hn, hb => .aux (h.titles hb) hn
theorem SpansIs.titles {i : Nat} : ∀ {ss : List Span} {cs : List Content}, SpansIs i ss cs → bareSpans ss → TitlesIs ss cs
  | _, _, .nil, _ => .nil
  | _, _, .cons h1 h2, hb => .cons (h1.title hb.1) (h2.titles hb.2)
end

/-! ### Text -/

section
variable {R : Nat → Str → Bool → Location → Res Str} {T : Nat → Res Str}

theorem textL_strs_ok (ss : List Str) : textL R T (ss.map .str) = .ok ss := by
  induction ss with
  | nil => rfl
  | cons s ss ih => simp [textL, Content.text, Res.bind, Res.map, ih]

theorem textL_app {as bs : List Content} {xs ys : List Str} (ha : textL R T as = .ok xs) (hb : textL R T bs = .ok ys) :
    textL R T (as ++ bs) = .ok (xs ++ ys) := by
  induction as generalizing xs with
  | nil =>
    rw [textL] at ha
    cases ha
    exact hb
  | cons a as ih =>
    rw [textL] at ha
    obtain ⟨t, e1, e2⟩ := Res.ok_of_bind ha
    obtain ⟨zs, e3, e4⟩ := Res.ok_of_map e2
    subst e4
    rw [List.cons_append, textL, e1]
    show (textL R T (as ++ bs)).map (t :: ·) = _
    rw [ih e3]
    rfl

theorem Whole.text {cs : List Content} {c : Content} {xs : List Str} (h : Whole cs c) (hx : textL R T cs = .ok xs) :
    c.text R T = .ok xs.flatten := by
  rcases h with ⟨hn, rfl⟩ | rfl
  · match cs, hn with
    | [c], _ =>
      rw [textL, textL] at hx
      obtain ⟨t, e1, e2⟩ := Res.ok_of_bind hx
      cases e2
      show c.text R T = _
      rw [e1]
      simp
    | a :: b :: r, _ =>
      show Content.text R T (.seq _) = _
      rw [Content.text, hx]
      rfl
  · rw [Content.text, hx]
    rfl

mutual
theorem TitleIs.text_eq : ∀ {s : Span} {cs : List Content}, TitleIs s cs → ∃ xs, textL R T cs = .ok xs ∧ xs.flatten = s.plain
  | _, _, .text (ss := ss) _ => ⟨ss, textL_strs_ok ss, by rw [Span.plain]⟩
  | _, _, .code (ss := ss) h => ⟨[ss.flatten], by rw [textL, textL, Content.text, h.text (textL_strs_ok ss)]; rfl, by simp [Span.plain]⟩
  | _, _, .styled h hw => by
    obtain ⟨xs, e1, e2⟩ := h.text_eq
    exact ⟨[xs.flatten], by rw [textL, textL, Content.text, hw.text e1]; rfl, by simp [Span.plain, e2]⟩
  | _, _, .image (path := path) => ⟨_, rfl, by simp [Span.plain]⟩
  | _, _, .aux h hn => by
    obtain ⟨xs, e1, e2⟩ := h.text_eq
    exact ⟨[xs.flatten], by rw [textL, textL, Content.text, Whole.text (Or.inl ⟨hn, rfl⟩) e1]; rfl, by simp [Span.plain, e2]⟩
theorem TitlesIs.text_eq : ∀ {ss : List Span} {cs : List Content}, TitlesIs ss cs → ∃ xs, textL R T cs = .ok xs ∧ xs.flatten = plainSpans ss
  | _, _, .nil => ⟨[], rfl, rfl⟩
  | _, _, .cons h1 h2 => by
    obtain ⟨xs, a1, a2⟩ := h1.text_eq
    obtain ⟨ys, b1, b2⟩ := h2.text_eq
    exact ⟨xs ++ ys, textL_app a1 b1, by simp [plainSpans, a2, b2]⟩
end

end

theorem TitlesIs.text {ss : List Span} {cs : List Content} {c : Content} (h : TitlesIs ss cs) (hw : Whole cs c) (hp : Heap) (b : Bool) (k : Nat) :
    hp.text b k c = .ok (plainSpans ss) := by
  cases k with
  | zero =>
    obtain ⟨xs, e1, e2⟩ := h.text_eq
    rw [← e2]
    exact hw.text e1
  | succ k =>
    obtain ⟨xs, e1, e2⟩ := h.text_eq
    rw [← e2]
    exact hw.text e1

/-! ### Without the auxiliary parts -/

theorem stripSeq_strs (ss : List Str) : stripAuxSeq (ss.map .str) = some (ss.map .str) := by
  induction ss with
  | nil => rfl
  | cons s ss ih => simp [stripAuxSeq, stripAux, Content.isAux, ih]

theorem stripSeq_app {as bs xs ys : List Content} (ha : stripAuxSeq as = some xs) (hb : stripAuxSeq bs = some ys) :
    stripAuxSeq (as ++ bs) = some (xs ++ ys) := by
  induction as generalizing xs with
  | nil => cases ha; exact hb
  | cons a as ih =>
    rw [stripAuxSeq] at ha
    rw [List.cons_append, stripAuxSeq]
    split at ha
    · rename_i h
      rw [if_pos h]
      exact ih ha
    · rename_i h
      rw [if_neg h]
      cases e1 : stripAux a with
      | none => rw [e1] at ha; cases ha
      | some a' =>
        rw [e1] at ha
        cases e2 : stripAuxSeq as with
        | none => rw [e2] at ha; cases ha
        | some zs =>
          rw [e2] at ha
          cases ha
          rw [ih e2]
          rfl

/-- Contents of which the only one is auxiliary. -/
def lone : List Content → Bool
  | [c] => c.isAux
  | _ => false

theorem Whole.strip {cs ds : List Content} {c : Content} (h : Whole cs c) (hl : lone cs = false) (hs : stripAuxSeq cs = some ds) :
    ∃ d, stripAux c = some d ∧ Whole ds d := by
  rcases h with ⟨hn, rfl⟩ | rfl
  · match cs, hn with
    | [c], _ =>
      rw [stripAuxSeq, if_neg (by simpa [lone] using hl)] at hs
      show ∃ d, stripAux c = _ ∧ _
      cases e : stripAux c with
      | none => rw [e] at hs; cases hs
      | some d =>
        rw [e] at hs
        cases hs
        exact ⟨d, rfl, Or.inl ⟨by simp, rfl⟩⟩
    | a :: b :: r, _ =>
      refine ⟨.seq ds, ?_, Or.inr rfl⟩
      show stripAux (.seq _) = _
      rw [stripAux, hs]
      rfl
  · exact ⟨.seq ds, by rw [stripAux, hs]; rfl, Or.inr rfl⟩

theorem TitleIs.ne {s : Span} {cs : List Content} (h : TitleIs s cs) : cs ≠ [] := by
  cases h with
  | text h => simpa using h
  | _ => simp

theorem lone_strs (ss : List Str) : lone (ss.map .str) = false := by
  match ss with
  | [] => rfl
  | [_] => rfl
  | _ :: _ :: _ => rfl

theorem TitlesIs.lone {ss : List Span} {cs : List Content} (h : TitlesIs ss cs) (hn : notOnlyAux ss) : lone cs = false := by
  cases h with
  | nil => rfl
  | @cons s ss c cs h1 h2 =>
    cases h2 with
    | nil =>
      rw [List.append_nil]
      cases h1 with
      | text h => exact lone_strs _
      | aux _ _ => exact hn.elim
      | _ => rfl
    | @cons s' ss c' cs h2 h3 =>
      match c, h1.ne, c', h2.ne with
      | a :: b :: r, _, _, _ => rfl
      | [a], _, d :: r, _ => rfl

mutual
theorem TitleIs.strip : ∀ {s : Span} {cs : List Content}, TitleIs s cs → s.bare → ∃ ds, stripAuxSeq cs = some ds ∧ TitlesIs s.essence ds
  | _, _, .text (ss := ss) h, _ => ⟨_, stripSeq_strs ss, by
      have := TitlesIs.cons (.text h) .nil
      rw [List.append_nil] at this
      exact this⟩
  | _, _, .code (ss := ss) h, _ => by
    obtain ⟨d, e, hw⟩ := h.strip (lone_strs ss) (stripSeq_strs ss)
    exact ⟨_, by simp [stripAuxSeq, stripAux, stripAuxPartials, Content.isAux, e], .cons (.code hw) .nil⟩
  | _, _, .styled (f := f) h hw, hb => by
    obtain ⟨ds, e1, e2⟩ := h.strip hb.2
    obtain ⟨d, e, hw⟩ := hw.strip (h.lone hb.1) e1
    refine ⟨[.styled f.fn false d []], by simp [stripAuxSeq, stripAux, stripAuxPartials, Content.isAux, e], ?_⟩
    rw [Span.essence]
    exact .cons (.styled e2 hw) .nil
  | _, _, .image, _ => ⟨_, rfl, .cons .image .nil⟩
  | _, _, .aux _ _, _ => ⟨[], rfl, by rw [Span.essence]; exact .nil⟩
theorem TitlesIs.strip : ∀ {ss : List Span} {cs : List Content}, TitlesIs ss cs → bareSpans ss → ∃ ds, stripAuxSeq cs = some ds ∧ TitlesIs (essence ss) ds
  | _, _, .nil, _ => ⟨[], rfl, .nil⟩
  | _, _, .cons h1 h2, hb => by
    obtain ⟨ds, a1, a2⟩ := h1.strip hb.1
    obtain ⟨es, b1, b2⟩ := h2.strip hb.2
    refine ⟨ds ++ es, stripSeq_app a1 b1, ?_⟩
    rw [essence]
    exact a2.append b2
theorem TitlesIs.append : ∀ {ss ts : List Span} {cs ds : List Content}, TitlesIs ss cs → TitlesIs ts ds → TitlesIs (ss ++ ts) (cs ++ ds)
  | _, _, _, _, .nil, h => h
  | _, _, _, _, .cons h1 h2, h => by
    rw [List.cons_append, List.append_assoc]
    exact .cons h1 (h2.append h)
end

/-- Content that is a title. -/
def Headed (title : List Span) (c : Content) : Prop :=
  notOnlyAux title ∧ bareSpans title ∧ ∃ cs, cs ≠ [] ∧ TitlesIs title cs ∧ c = oneBody cs

theorem Headed.text {title : List Span} {c : Content} (h : Headed title c) (hp : Heap) (b : Bool) (k : Nat) :
    hp.text b k c = .ok (plainSpans title) := by
  obtain ⟨-, -, cs, hn, ht, rfl⟩ := h
  exact ht.text (Or.inl ⟨hn, rfl⟩) hp b k

theorem Headed.strip {title : List Span} {c : Content} (h : Headed title c) :
    ∃ d ds, stripAux c = some d ∧ TitlesIs (essence title) ds ∧ Whole ds d := by
  obtain ⟨h1, h2, cs, hn, ht, rfl⟩ := h
  obtain ⟨ds, d1, d2⟩ := ht.strip h2
  obtain ⟨d, e, hw⟩ := Whole.strip (Or.inl ⟨hn, rfl⟩) (ht.lone h1) d1
  exact ⟨d, ds, e, d2, hw⟩

theorem headed_strs {ss : List Str} (h : ss ≠ []) : Headed [.text ss.flatten] (oneBody (ss.map .str)) := by
  have := TitlesIs.cons (.text h) .nil
  rw [List.append_nil] at this
  exact ⟨trivial, ⟨trivial, trivial⟩, _, by simpa using h, this, rfl⟩

end Booklit.Ms
