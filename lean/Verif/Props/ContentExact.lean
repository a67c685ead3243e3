import Verif.Spec.StripExact
import Verif.Props.Content

/-!
Exactly what appending and stripping do (C13, C15, C16), also where they do not do what they should.
-/

namespace Booklit.Props

open Booklit

/-- **C13**: what appending keeps in any case: the first content that is there, and the next one. All further ones are lost. -/
theorem C13_exact (first : Content) (rest : List Content) :
    (append first rest).elems = match present (first :: rest) with
      | [] => []
      | c :: cs => c.elems ++ cs.take 1 := by
  induction rest generalizing first with
  | nil => cases first <;> simp [append, present, Content.isNil, Content.elems]
  | cons c rest ih =>
    by_cases hc : c.isNil = true
    · simp only [append, hc, if_true]
      have : present (first :: c :: rest) = present (first :: rest) := by simp [present, List.filter_cons, hc]
      rw [this]
      exact ih first
    · simp only [append, hc]
      have hc' : c.isNil = false := by simpa using hc
      by_cases hf : first.isNil = true
      · have e : first = .nil := by cases first <;> simp [Content.isNil] at hf; rfl
        subst e
        have : present (.nil :: c :: rest) = present (c :: rest) := by simp [present, Content.isNil]
        rw [this]
        exact ih c
      · have hf' : first.isNil = false := by simpa using hf
        have e : present (first :: c :: rest) = first :: c :: present rest := by simp [present, hc', hf']
        rw [e]
        cases first <;> simp [Content.isNil] at hf' <;> simp [Content.elems]

/-- **C13**: so that it does what it should exactly if there are at most two contents. -/
theorem C13_iff (first : Content) (rest : List Content) :
    (append first rest).elems = (match present (first :: rest) with
      | [] => []
      | c :: cs => c.elems ++ cs) ↔ (present (first :: rest)).length ≤ 2 := by
  rw [C13_exact]
  cases present (first :: rest) with
  | nil => simp
  | cons c cs =>
    simp only [List.append_cancel_left_eq, List.length_cons]
    constructor
    · intro h
      have := congrArg List.length h
      simp at this
      omega
    · intro h
      exact List.take_of_length_le (by omega)

theorem seq_none : ∀ {cs : List Content}, stripAuxSeq cs = none ↔ ∃ c ∈ cs, c.isAux = false ∧ stripAux c = none
  | [] => by simp [stripAuxSeq]
  | c :: cs => by
    rw [stripAuxSeq]
    cases hc : c.isAux with
    | true => simp [hc, seq_none (cs := cs)]
    | false =>
      cases hs : stripAux c with
      | none => simp [hc, hs]
      | some c' =>
        cases ht : stripAuxSeq cs with
        | none => simpa [hc, hs] using seq_none.1 ht
        | some _ => simpa [hc, hs, ht] using seq_none (cs := cs)

theorem partials_none : ∀ {cs : List (Str × Content)}, stripAuxPartials cs = none ↔ ∃ p ∈ cs, p.2.isNil = false ∧ stripAux p.2 = none
  | [] => by simp [stripAuxPartials]
  | (k, c) :: cs => by
    rw [stripAuxPartials]
    cases hc : c.isNil with
    | true => simpa [hc] using partials_none (cs := cs)
    | false =>
      cases hs : stripAux c with
      | none => simp [hc, hs]
      | some c' =>
        cases ht : stripAuxPartials cs with
        | none => simpa [hc, hs] using partials_none.1 ht
        | some _ => simpa [hc, hs, ht] using partials_none (cs := cs)

theorem rows_none : ∀ {rs : List (List Content)}, stripAuxRows rs = none ↔ ∃ r ∈ rs, stripAuxSeq r = none
  | [] => by simp [stripAuxRows]
  | r :: rs => by
    rw [stripAuxRows]
    cases hs : stripAuxSeq r with
    | none => simp [hs]
    | some c' =>
      cases ht : stripAuxRows rs with
      | none => simpa [hs] using rows_none.1 ht
      | some _ => simpa [hs, ht] using rows_none (rs := rs)

theorem defs_none : ∀ {ds : List (Content × Content)}, stripAuxDefs ds = none ↔ ∃ d ∈ ds, stripAux d.1 = none ∨ stripAux d.2 = none
  | [] => by simp [stripAuxDefs]
  | (a, b) :: ds => by
    rw [stripAuxDefs]
    cases ha : stripAux a with
    | none => simp [ha]
    | some a' =>
      cases hb : stripAux b with
      | none => simp [hb]
      | some b' =>
        cases ht : stripAuxDefs ds with
        | none => simpa [ha, hb] using defs_none.1 ht
        | some _ => simpa [ha, hb, ht] using defs_none (ds := ds)

/-- **C15**: stripping crashes exactly if there is a hole among what it looks at. -/
theorem C15_exact (c : Content) : stripAux c = none ↔ Content.Seen .nil c := by
  have inv : ∀ {a c : Content}, Content.Seen a c → a = c ∨ ∃ b, Content.Within b c ∧ Content.Seen a b := by
    intro a c h
    cases h with
    | self => exact .inl rfl
    | inside h1 h2 => exact .inr ⟨_, h1, h2⟩
  induction c using Content.ind with
  | nil => exact ⟨fun _ => .self, fun _ => rfl⟩
  | str | sect | toc | image | lazy =>
    refine ⟨fun h => by simp [stripAux] at h, fun h => ?_⟩
    rcases inv h with h | ⟨b, h, -⟩ <;> cases h
  | seq cs ih | para cs ih | pre cs ih =>
    rw [stripAux, Option.map_eq_none_iff, seq_none]
    constructor
    · rintro ⟨c, h1, h2, h3⟩
      exact .inside (by constructor <;> assumption) ((ih c h1).1 h3)
    · intro h
      rcases inv h with h | ⟨b, h, hb⟩
      · cases h
      · cases h
        rename_i h2 h1
        exact ⟨b, h1, h2, (ih b h1).2 hb⟩
  | list cs o ih =>
    rw [stripAux, Option.map_eq_none_iff, seq_none]
    constructor
    · rintro ⟨c, h1, h2, h3⟩
      exact .inside (.list h1 h2) ((ih c h1).1 h3)
    · intro h
      rcases inv h with h | ⟨b, h, hb⟩
      · cases h
      · cases h
        rename_i h2 h1
        exact ⟨b, h1, h2, (ih b h1).2 hb⟩
  | ref s t c o l ih =>
    replace ih : stripAux c = none ↔ Content.Seen .nil c := ih
    rw [stripAux, Option.map_eq_none_iff, ih]
    refine ⟨fun h => .inside .ref h, fun h => ?_⟩
    rcases inv h with h | ⟨b, h, hb⟩
    · cases h
    · cases h; exact hb
  | link c u ih =>
    replace ih : stripAux c = none ↔ Content.Seen .nil c := ih
    rw [stripAux, Option.map_eq_none_iff, ih]
    refine ⟨fun h => .inside .link h, fun h => ?_⟩
    rcases inv h with h | ⟨b, h, hb⟩
    · cases h
    · cases h; exact hb
  | aux c ih =>
    replace ih : stripAux c = none ↔ Content.Seen .nil c := ih
    rw [stripAux, ih]
    refine ⟨fun h => .inside .aux h, fun h => ?_⟩
    rcases inv h with h | ⟨b, h, hb⟩
    · cases h
    · cases h; exact hb
  | styled st b c ps ih ihp =>
    replace ih : stripAux c = none ↔ Content.Seen .nil c := ih
    have e : stripAux (.styled st b c ps) = none ↔ stripAux c = none ∨ stripAuxPartials ps = none := by
      rw [stripAux]
      cases stripAux c <;> cases stripAuxPartials ps <;> simp
    rw [e, partials_none, ih]
    constructor
    · rintro (h | ⟨⟨k, d⟩, h1, h2, h3⟩)
      · exact .inside .styled h
      · exact .inside (.part h1 h2) ((ihp _ h1).1 h3)
    · intro h
      rcases inv h with h | ⟨d, h, hb⟩
      · cases h
      · cases h with
        | styled => exact .inl hb
        | part h1 h2 => exact .inr ⟨_, h1, h2, (ihp _ h1).2 hb⟩
  | target t l ti c ih1 ih2 =>
    replace ih1 : stripAux ti = none ↔ Content.Seen .nil ti := ih1
    replace ih2 : stripAux c = none ↔ Content.Seen .nil c := ih2
    have e : stripAux (.target t l ti c) = none ↔ stripAux ti = none ∨ stripAux c = none := by
      rw [stripAux]
      cases stripAux ti <;> cases stripAux c <;> simp
    rw [e, ih1, ih2]
    constructor
    · rintro (h | h)
      · exact .inside .title h
      · exact .inside .target h
    · intro h
      rcases inv h with h | ⟨d, h, hb⟩
      · cases h
      · cases h with
        | title => exact .inl hb
        | target => exact .inr hb
  | table rs ih =>
    rw [stripAux, Option.map_eq_none_iff, rows_none]
    constructor
    · rintro ⟨r, hr, h⟩
      obtain ⟨c, h1, h2, h3⟩ := seq_none.1 h
      exact .inside (.cell hr h1 h2) ((ih r hr c h1).1 h3)
    · intro h
      rcases inv h with h | ⟨b, h, hb⟩
      · cases h
      · cases h with
        | cell hr h1 h2 => exact ⟨_, hr, seq_none.2 ⟨b, h1, h2, (ih _ hr b h1).2 hb⟩⟩
  | defs ds ih =>
    rw [stripAux, Option.map_eq_none_iff, defs_none]
    constructor
    · rintro ⟨⟨a, b⟩, hd, h | h⟩
      · exact .inside (.subject hd) ((ih _ hd).1.1 h)
      · exact .inside (.definition hd) ((ih _ hd).2.1 h)
    · intro h
      rcases inv h with h | ⟨b, h, hb⟩
      · cases h
      · cases h with
        | subject hd => exact ⟨_, hd, .inl ((ih _ hd).1.2 hb)⟩
        | definition hd => exact ⟨_, hd, .inr ((ih _ hd).2.2 hb)⟩

/-- A hole in auxiliary content does no harm if that is an element of a sequence, but does if it is the whole of something. -/
example : stripAux (.seq [.str q%"a", .aux .nil]) ≠ none ∧ stripAux (.styled q%"bold" false (.aux .nil) []) = none := by decide

mutual
/-- **C16**: the texts that are left are exactly those outside of auxiliary elements of sequences; auxiliary content that is the whole of
something is taken as if it was not auxiliary. -/
theorem C16_exact : ∀ {c c' : Content}, stripAux c = some c' → c'.texts true = c.lone.texts false
  | .nil, _, h => by cases h
  | .str _, _, h | .sect _, _, h | .toc _, _, h | .image _ _, _, h | .lazy _ _, _, h => by
    rw [stripAux] at h; cases h; simp [Content.lone, Content.texts]
  | .seq cs, _, h | .para cs, _, h | .pre cs, _, h | .list cs _, _, h => by
    rw [stripAux, Option.map_eq_some_iff] at h
    obtain ⟨ds, h, rfl⟩ := h
    simp [Content.lone, Content.texts, strip_seqs h]
  | .ref _ _ c _ _, _, h | .link c _, _, h => by
    rw [stripAux, Option.map_eq_some_iff] at h
    obtain ⟨ds, h, rfl⟩ := h
    simp [Content.lone, Content.texts, C16_exact h]
  | .aux c, _, h => by
    rw [stripAux] at h
    rw [Content.lone, C16_exact h]
  | .styled st b c ps, _, h => by
    cases h1 : stripAux c <;> simp [stripAux, h1] at h
    cases h2 : stripAuxPartials ps <;> simp [h2] at h
    subst h
    simp [Content.lone, Content.texts, C16_exact h1, strip_parts h2]
  | .target t l ti c, _, h => by
    cases h1 : stripAux ti <;> simp [stripAux, h1] at h
    cases h2 : stripAux c <;> simp [h2] at h
    subst h
    simp [Content.lone, Content.texts, C16_exact h1, C16_exact h2]
  | .table rs, _, h => by
    rw [stripAux, Option.map_eq_some_iff] at h
    obtain ⟨ds, h, rfl⟩ := h
    simp [Content.lone, Content.texts, strip_rows h]
  | .defs rs, _, h => by
    rw [stripAux, Option.map_eq_some_iff] at h
    obtain ⟨ds, h, rfl⟩ := h
    simp [Content.lone, Content.texts, strip_defs h]
theorem strip_seqs : ∀ {cs cs' : List Content}, stripAuxSeq cs = some cs' → textsL true cs' = textsL false (loneL cs)
  | [], _, h => by cases h; rfl
  | c :: cs, _, h => by
    rw [stripAuxSeq] at h
    cases hc : c.isAux with
    | true =>
      rw [hc, if_pos rfl] at h
      have e : c.texts false = [] := by cases c <;> simp [Content.isAux] at hc; rfl
      rw [loneL, textsL, hc, if_pos rfl, e, strip_seqs h]
      rfl
    | false =>
      cases h1 : stripAux c <;> simp [h1, hc] at h
      cases h2 : stripAuxSeq cs <;> simp [h2] at h
      subst h
      simp [loneL, textsL, hc, C16_exact h1, strip_seqs h2]
theorem strip_parts : ∀ {cs cs' : List (Str × Content)}, stripAuxPartials cs = some cs' → textsP true cs' = textsP false (loneP cs)
  | [], _, h => by cases h; rfl
  | (k, c) :: cs, _, h => by
    rw [stripAuxPartials] at h
    cases hc : c.isNil with
    | true =>
      rw [hc, if_pos rfl] at h
      have e : c.lone.texts false = [] := by cases c <;> simp [Content.isNil] at hc; rfl
      rw [loneP, textsP, e, strip_parts h]
      rfl
    | false =>
      cases h1 : stripAux c <;> simp [h1, hc] at h
      cases h2 : stripAuxPartials cs <;> simp [h2] at h
      subst h
      simp [loneP, textsP, C16_exact h1, strip_parts h2]
theorem strip_rows : ∀ {cs cs' : List (List Content)}, stripAuxRows cs = some cs' → textsR true cs' = textsR false (loneR cs)
  | [], _, h => by cases h; rfl
  | c :: cs, _, h => by
    rw [stripAuxRows] at h
    cases h1 : stripAuxSeq c <;> simp [h1] at h
    cases h2 : stripAuxRows cs <;> simp [h2] at h
    subst h
    simp [loneR, textsR, strip_seqs h1, strip_rows h2]
theorem strip_defs : ∀ {cs cs' : List (Content × Content)}, stripAuxDefs cs = some cs' → textsD true cs' = textsD false (loneD cs)
  | [], _, h => by cases h; rfl
  | (a, b) :: cs, _, h => by
    rw [stripAuxDefs] at h
    cases h1 : stripAux a <;> simp [h1] at h
    cases h2 : stripAux b <;> simp [h2] at h
    cases h3 : stripAuxDefs cs <;> simp [h3] at h
    subst h
    simp [loneD, textsD, C16_exact h1, C16_exact h2, strip_defs h3]
end

example : (Content.styled q%"italic" false (.aux (.seq [.str q%"x", .aux (.str q%"y")])) []).lone.texts false = [q%"x"] := by decide

end Booklit.Props
