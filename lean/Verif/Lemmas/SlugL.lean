import Verif.Spec.Titles
import Verif.Lemmas.CallsL

/-!
Lemmas about automatic tags.
-/

namespace Booklit

theorem char_nat (c d : Char) : c ≤ d ↔ c.toNat ≤ d.toNat := by
  simp only [Char.le_def, UInt32.le_iff_toNat_le]
  exact Iff.rfl

theorem lower_slug {c : Char} (h : isTagChar c = true) : IsSlugChar (lower c) := by
  simp only [isTagChar, Bool.or_eq_true, Bool.and_eq_true, decide_eq_true_iff, beq_iff_eq] at h
  rw [lower]
  split
  · next hu =>
    have h1 := (char_nat _ _).1 hu.1
    have h2 := (char_nat _ _).1 hu.2
    have e1 : ('A' : Char).toNat = 65 := rfl
    have e2 : ('Z' : Char).toNat = 90 := rfl
    have hv : (c.toNat + 32).isValidChar := Or.inl (by omega)
    have hn : (Char.ofNat (c.toNat + 32)).toNat = c.toNat + 32 := by
      simp only [Char.ofNat, hv, dif_pos]; rfl
    left
    rw [char_nat, char_nat, hn]
    have e3 : ('a' : Char).toNat = 97 := rfl
    have e4 : ('z' : Char).toNat = 122 := rfl
    omega
  · next hu =>
    rcases h with (((h | h) | h) | h) | h
    · exact .inl h
    · exact absurd h hu
    · exact .inr (.inl h)
    · exact .inr (.inr (.inr h))
    · exact .inr (.inr (.inl h))

theorem slug_chars (s : Str) : ∀ c ∈ slug s, IsSlugChar c := by
  intro c hc
  rw [slug, List.mem_map] at hc
  obtain ⟨d, hd, rfl⟩ := hc
  exact lower_slug (List.mem_filter.1 hd).2

theorem slugChar_facts {c : Char} (h : IsSlugChar c) : isTagChar c = true ∧ lower c = c ∧ isSpaceRe c = false ∧ c ≠ ' ' := by
  have hne : c ≠ ' ' ∧ c ≠ '\t' ∧ c ≠ '\n' ∧ c ≠ '\x0c' ∧ c ≠ '\r' ∧ ¬ ('A' ≤ c ∧ c ≤ 'Z') := by
    rcases h with h | h | h | h
    · have h1 := (char_nat _ _).1 h.1
      have e : ('a' : Char).toNat = 97 := rfl
      have ez : ('Z' : Char).toNat = 90 := rfl
      refine ⟨?_, ?_, ?_, ?_, ?_, ?_⟩
      · rintro rfl; exact absurd h1 (by decide)
      · rintro rfl; exact absurd h1 (by decide)
      · rintro rfl; exact absurd h1 (by decide)
      · rintro rfl; exact absurd h1 (by decide)
      · rintro rfl; exact absurd h1 (by decide)
      · rintro ⟨_, h3⟩; have := (char_nat _ _).1 h3; omega
    · have h1 := (char_nat _ _).1 h.1
      have h2 := (char_nat _ _).1 h.2
      have e : ('9' : Char).toNat = 57 := rfl
      have ez : ('A' : Char).toNat = 65 := rfl
      refine ⟨?_, ?_, ?_, ?_, ?_, ?_⟩
      · rintro rfl; exact absurd h1 (by decide)
      · rintro rfl; exact absurd h1 (by decide)
      · rintro rfl; exact absurd h1 (by decide)
      · rintro rfl; exact absurd h1 (by decide)
      · rintro rfl; exact absurd h1 (by decide)
      · rintro ⟨h3, _⟩; have := (char_nat _ _).1 h3; omega
    · subst h; decide
    · subst h; decide
  refine ⟨?_, ?_, ?_, hne.1⟩
  · simp only [isTagChar, Bool.or_eq_true, Bool.and_eq_true, decide_eq_true_iff, beq_iff_eq]
    rcases h with h | h | h | h
    · exact .inl (.inl (.inl (.inl h)))
    · exact .inl (.inl (.inr h))
    · exact .inr h
    · exact .inl (.inr h)
  · rw [lower, if_neg hne.2.2.2.2.2]
  · simp [isSpaceRe, hne]

theorem replaceAnd_id : ∀ {s : Str}, (∀ c ∈ s, c ≠ ' ') → replaceAnd s = s
  | [], _ => rfl
  | c :: s, h => by
    have := h c (by simp)
    have ih := replaceAnd_id (s := s) fun d hd => h d (by simp [hd])
    rw [replaceAnd.eq_def]
    split
    · next e => cases e
    · next e => cases e; exact absurd rfl this
    · next e => cases e; rw [ih]

theorem dashSpaces_id : ∀ {s : Str} (b : Bool), (∀ c ∈ s, isSpaceRe c = false) → dashSpaces b s = s
  | [], _, _ => rfl
  | c :: s, b, h => by
    rw [dashSpaces, h c (by simp)]
    simp only [Bool.false_eq_true, if_false]
    rw [dashSpaces_id false fun d hd => h d (by simp [hd])]

theorem slug_id {s : Str} (h : ∀ c ∈ s, IsSlugChar c) : slug s = s := by
  rw [slug, replaceAnd_id fun c hc => (slugChar_facts (h c hc)).2.2.2,
    dashSpaces_id _ fun c hc => (slugChar_facts (h c hc)).2.2.1,
    List.filter_eq_self.2 fun c hc => (slugChar_facts (h c hc)).1]
  calc s.map lower = s.map id := List.map_congr_left fun c hc => (slugChar_facts (h c hc)).2.1
    _ = s := List.map_id s

mutual
/-- The text of an inline title without its auxiliary parts. -/
theorem inline_text (ref : Nat → Str → Bool → Location → Res Str) (sect : Nat → Res Str) : ∀ (c : Content), c.inlineText = true →
    c.isAux = false ∧ ∃ c', stripAux c = some c' ∧ c'.text ref sect = .ok (c.texts false).flatten
  | .str s, _ => ⟨rfl, .str s, rfl, by simp [Content.text, Content.texts]⟩
  | .seq cs, h => by
    obtain ⟨cs', h1, ts, h2, h3⟩ := inline_textL ref sect cs (by simpa [Content.inlineText] using h)
    refine ⟨rfl, .seq cs', by simp [stripAux, h1], ?_⟩
    rw [Content.text, h2, Content.texts, ← h3]
    rfl
  | .styled st b c ps, h => by
    simp only [Content.inlineText, Bool.and_eq_true, List.isEmpty_iff] at h
    obtain ⟨hp, hc⟩ := h
    subst hp
    obtain ⟨_, c', h1, h2⟩ := inline_text ref sect c hc
    refine ⟨rfl, .styled st b c' [], by simp [stripAux, stripAuxPartials, h1], ?_⟩
    rw [Content.text, h2, Content.texts, textsP]
    simp
  | .link c u, h => by
    obtain ⟨_, c', h1, h2⟩ := inline_text ref sect c (by simpa [Content.inlineText] using h)
    exact ⟨rfl, .link c' u, by simp [stripAux, h1], by rw [Content.text, h2, Content.texts]⟩
  | .nil, h => by simp [Content.inlineText] at h
  | .para _, h => by simp [Content.inlineText] at h
  | .pre _, h => by simp [Content.inlineText] at h
  | .ref _ _ _ _ _, h => by simp [Content.inlineText] at h
  | .sect _, h => by simp [Content.inlineText] at h
  | .toc _, h => by simp [Content.inlineText] at h
  | .target _ _ _ _, h => by simp [Content.inlineText] at h
  | .image _ _, h => by simp [Content.inlineText] at h
  | .list _ _, h => by simp [Content.inlineText] at h
  | .table _, h => by simp [Content.inlineText] at h
  | .defs _, h => by simp [Content.inlineText] at h
  | .lazy _ _, h => by simp [Content.inlineText] at h
  | .aux _, h => by simp [Content.inlineText] at h
theorem inline_textL (ref : Nat → Str → Bool → Location → Res Str) (sect : Nat → Res Str) : ∀ (cs : List Content), inlineTextL cs = true →
    ∃ cs', stripAuxSeq cs = some cs' ∧ ∃ ts, textL ref sect cs' = .ok ts ∧ ts.flatten = (textsL false cs).flatten
  | [], _ => ⟨[], rfl, [], rfl, by simp [textsL]⟩
  | c :: cs, h => by
    by_cases hc : c.isAux = true
    · cases c with
      | aux d =>
        obtain ⟨cs', h1, ts, h2, h3⟩ := inline_textL ref sect cs (by simpa [inlineTextL] using h)
        refine ⟨cs', by simp [stripAuxSeq, Content.isAux, h1], ts, h2, ?_⟩
        rw [h3, textsL, Content.texts]
        simp
      | _ => simp [Content.isAux] at hc
    · have hh : c.inlineText = true ∧ inlineTextL cs = true := by
        cases c with
        | aux d => simp [Content.isAux] at hc
        | _ => simpa [inlineTextL, Bool.and_eq_true] using h
      obtain ⟨_, c', h1, h2⟩ := inline_text ref sect c hh.1
      obtain ⟨cs', h3, ts, h4, h5⟩ := inline_textL ref sect cs hh.2
      refine ⟨c' :: cs', by simp [stripAuxSeq, hc, h1, h3], (c.texts false).flatten :: ts, ?_, ?_⟩
      · rw [textL, h2, h4]; rfl
      · rw [List.flatten_cons, h5, textsL]; simp
end

theorem heapText_eq (b : Bool) (h : Heap) (n : Nat) (c : Content) : ∃ ref sect, h.text b n c = c.text ref sect := by
  cases n with
  | zero => exact ⟨_, _, rfl⟩
  | succ n => exact ⟨_, _, rfl⟩

theorem defaultTag_inline {W : World} {k : Nat} {t : Content} (ht : t.inlineText = true) (s : St) :
    defaultTag W k t s = (.ok (slug (t.texts false).flatten), s) := by
  have h0 := fun ref sect => (inline_text ref sect t ht).2
  obtain ⟨t', h1, _⟩ := h0 (fun _ _ _ _ => .more) (fun _ => .more)
  rw [defaultTag, h1]
  dsimp only
  obtain ⟨ref, sect, e⟩ := heapText_eq W.brokenOk s.heap k t'
  obtain ⟨t'', h3, h4⟩ := h0 ref sect
  rw [h1] at h3
  cases h3
  rw [e, h4]
  rfl

/-- `\title{...}` in a section without title whose first plugin is baselit, once its argument has been evaluated. -/
theorem title_run {W : World} (k : Nat) (inc : Inc) (a : Node) (loc : Location) (i : Nat) (r t : Content) (s s1 : St) {path : Str}
    (hp : s.heap.filePath (s.heap.length + 1) i = some path) (h0 : (s.heap.get i).plugins.head? = some 0)
    (ha : evalNode W k inc a i .nil (s.calling i loc) = (.ok t, s1)) (hn : t.isNil = false)
    (he : (s1.heap.get i).title = .str []) :
    evalNode W k inc (.invoke q%"title" [a] loc) i r s =
      (titleNames W k t [] >>= fun names => setTitle i t (s1.heap.get i).invokeLoc names >>= fun _ => Pure.pure r) s1 := by
  rw [invoke_run, hp, findMethod_head (by decide : baseMethods.lookup (methodName q%"title") = some .title) h0]
  simp only [Method.sig, Base.sig, arityOk, List.length_singleton, Nat.le_refl, decide_true, if_true, evalArgs, convertAll, convert]
  have e1 : (([ArgV.content t]).any ArgV.isZero) = false := rfl
  have e2 : (s1.heap.get i).title.isEmpty = true := by rw [he]; rfl
  simp only [M.bind_run, M.bind, M.pure_run, ha, hn, callMethod, e1, callBase, Bool.false_eq_true, if_false, M.get, e2,
    if_true, strArgs]
  cases titleNames W k t [] s1 with
  | mk x s2 =>
    cases x with
    | ok names => rfl
    | _ => rfl

theorem blank_iff (c : Char) : c ∈ q%" \t\n\r\x0c" ↔ isSpaceRe c = true := by
  simp only [isSpaceRe, Bool.or_eq_true, beq_iff_eq, List.mem_cons, List.not_mem_nil, or_false]
  constructor
  · rintro (h | h | h | h | h) <;> simp [h]
  · rintro ((((h | h) | h) | h) | h) <;> simp [h]

theorem tagOfWord_eq (w : Str) : (w.filter isTagChar).map lower = tagOfWord w := by
  induction w with
  | nil => rfl
  | cons c w ih =>
    have e : tagOfWord (c :: w) = (match (if ('a' ≤ c ∧ c ≤ 'z') ∨ ('0' ≤ c ∧ c ≤ '9') ∨ c = '-' ∨ c = '_' then some c
        else if 'A' ≤ c ∧ c ≤ 'Z' then some (Char.ofNat (c.toNat + 32)) else none) with
        | some d => d :: tagOfWord w
        | none => tagOfWord w) := by
      rw [tagOfWord, List.filterMap_cons]
      split <;> next h => (rw [h]; rfl)
    rw [e, List.filter_cons]
    by_cases h1 : ('a' ≤ c ∧ c ≤ 'z') ∨ ('0' ≤ c ∧ c ≤ '9') ∨ c = '-' ∨ c = '_'
    · obtain ⟨h2, h3, -⟩ := slugChar_facts h1
      rw [if_pos h2, if_pos h1, List.map_cons, h3, ih]
    · rw [if_neg h1]
      by_cases h2 : 'A' ≤ c ∧ c ≤ 'Z'
      · have : isTagChar c = true := by simp [isTagChar, h2]
        rw [if_pos this, if_pos h2, List.map_cons, ih, lower, if_pos h2]
      · have : isTagChar c = false := by
          simp only [not_or] at h1
          simp only [isTagChar, Bool.or_eq_false_iff, Bool.and_eq_false_iff, decide_eq_false_iff_not]
          refine ⟨⟨⟨⟨?_, ?_⟩, ?_⟩, ?_⟩, ?_⟩
          · exact Classical.not_and_iff_not_or_not.1 h1.1
          · exact Classical.not_and_iff_not_or_not.1 h2
          · exact Classical.not_and_iff_not_or_not.1 h1.2.1
          · simpa using h1.2.2.2
          · simpa using h1.2.2.1
        rw [if_neg (by simp [this]), if_neg h2, ih]

theorem replaceAnd_same : ∀ s : Str, '&' ∉ s → replaceAnd s = s
  | [], _ => rfl
  | c :: s, h => by
    have h2 : '&' ∉ s := fun e => h (List.mem_cons_of_mem _ e)
    have ih := replaceAnd_same s h2
    have : replaceAnd (c :: s) = c :: replaceAnd s := by
      rw [replaceAnd.eq_def]
      split
      · contradiction
      · next heq => cases heq; simp at h
      · next heq => cases heq; rfl
    rw [this, ih]

theorem dashSpaces_word {w : Str} (hw : ∀ c ∈ w, isSpaceRe c = false) (s : Str) (b : Bool) :
    dashSpaces b (w ++ s) = w ++ dashSpaces (if w = [] then b else false) s := by
  induction w generalizing b with
  | nil => simp
  | cons c w ih =>
    have hc := hw c (by simp)
    rw [List.cons_append, dashSpaces, hc]
    simp only [Bool.false_eq_true, if_false, List.cons_append, List.cons.injEq, true_and, reduceCtorEq]
    rw [ih (fun d hd => hw d (by simp [hd]))]
    simp

theorem dashSpaces_run {b : Str} (hb : ∀ c ∈ b, isSpaceRe c = true) (s : Str) : dashSpaces true (b ++ s) = dashSpaces true s := by
  induction b with
  | nil => rfl
  | cons c b ih =>
    rw [List.cons_append, dashSpaces, hb c (by simp)]
    simp only [if_true]
    exact ih fun d hd => hb d (by simp [hd])

theorem dashSpaces_blanks {b : Str} (hb : IsBlanks b) (s : Str) : dashSpaces false (b ++ s) = '-' :: dashSpaces true s := by
  obtain ⟨h1, h2⟩ := hb
  cases b with
  | nil => exact (h1 rfl).elim
  | cons c b =>
    rw [List.cons_append, dashSpaces, (blank_iff c).1 (h2 c (by simp))]
    simp only [if_true, Bool.false_eq_true, if_false]
    rw [dashSpaces_run fun d hd => (blank_iff d).1 (h2 d (by simp [hd]))]

theorem plainWord_space {w : Str} (h : IsPlainWord w) : ∀ c ∈ w, isSpaceRe c = false := by
  intro c hc
  rw [Bool.eq_false_iff]
  intro e
  refine h c hc ?_
  have := (blank_iff c).2 e
  simp only [List.mem_cons, List.not_mem_nil, or_false] at this ⊢
  rcases this with h | h | h | h | h <;> simp [h]

theorem plainWord_and {w : Str} (h : IsPlainWord w) : '&' ∉ w := fun e => h _ e (by decide)

theorem blanks_and {b : Str} (h : IsBlanks b) : '&' ∉ b := fun e => absurd (h.2 _ e) (by decide)

theorem dashSpaces_words : ∀ (rest : List (Str × Str)) (tail : Str),
    (∀ p ∈ rest, IsBlanks p.1 ∧ IsPlainWord p.2 ∧ p.2 ≠ []) → (tail = [] ∨ IsBlanks tail) →
    dashSpaces false (rest.flatMap (fun p => p.1 ++ p.2) ++ tail) =
      rest.flatMap (fun p => '-' :: p.2) ++ (if tail = [] then [] else ['-'])
  | [], tail, _, ht => by
    rcases ht with rfl | ht
    · rfl
    · have := dashSpaces_blanks ht []
      simp only [List.append_nil, dashSpaces] at this
      simp [this, ht.1]
  | (b, v) :: rest, tail, h, ht => by
    obtain ⟨h1, h2, h3⟩ := h _ (List.mem_cons_self ..)
    simp only [List.flatMap_cons, List.append_assoc, List.cons_append]
    rw [dashSpaces_blanks h1, dashSpaces_word (plainWord_space h2), if_neg h3,
      dashSpaces_words rest tail (fun p hp => h p (List.mem_cons_of_mem _ hp)) ht]

theorem slug_words (w : Str) (rest : List (Str × Str)) (tail : Str) (hw : IsPlainWord w)
    (h : ∀ p ∈ rest, IsBlanks p.1 ∧ IsPlainWord p.2 ∧ p.2 ≠ []) (ht : tail = [] ∨ IsBlanks tail) :
    slug (w ++ rest.flatMap (fun p => p.1 ++ p.2) ++ tail) =
      tagOfWord w ++ rest.flatMap (fun p => '-' :: tagOfWord p.2) ++ (if tail = [] then [] else ['-']) := by
  have hand : '&' ∉ w ++ rest.flatMap (fun p => p.1 ++ p.2) ++ tail := by
    simp only [List.mem_append, not_or, List.mem_flatMap, not_exists, not_and]
    refine ⟨⟨plainWord_and hw, fun p hp => ⟨blanks_and (h p hp).1, plainWord_and (h p hp).2.1⟩⟩, ?_⟩
    rcases ht with rfl | ht
    · simp
    · exact blanks_and ht
  rw [slug, replaceAnd_same _ hand, List.append_assoc, dashSpaces_word (plainWord_space hw)]
  have : (if w = [] then false else false) = false := by split <;> rfl
  rw [this, dashSpaces_words rest tail h ht, List.filter_append, List.map_append, tagOfWord_eq, List.append_assoc]
  congr 1
  rw [List.filter_append, List.map_append]
  congr 1
  · clear hand h
    induction rest with
    | nil => rfl
    | cons p rest ih =>
      simp only [List.flatMap_cons, List.filter_append, List.map_append, ih]
      rw [← tagOfWord_eq]
      rfl
  · split <;> rfl

theorem replaceAnd_and (a b : Str) (ha : '&' ∉ a) (hb : '&' ∉ b) : replaceAnd (a ++ q%" & " ++ b) = a ++ q%" and " ++ b := by
  induction a with
  | nil =>
    show replaceAnd (' ' :: '&' :: ' ' :: b) = _
    rw [replaceAnd, replaceAnd_same b hb]
    rfl
  | cons c a ih =>
    have ih := ih fun e => ha (List.mem_cons_of_mem _ e)
    have : replaceAnd (c :: (a ++ q%" & " ++ b)) = c :: replaceAnd (a ++ q%" & " ++ b) := by
      rw [replaceAnd.eq_def]
      split
      · contradiction
      · next heq =>
        injection heq with h1 h2
        cases a with
        | nil => cases h2
        | cons d a =>
          injection h2 with h3 h4
          subst h3
          simp at ha
      · next heq => cases heq; rfl
    rw [List.cons_append, List.cons_append, this, ih]
    rfl

theorem slug_and (a b : Str) (ha : '&' ∉ a) (hb : '&' ∉ b) : slug (a ++ q%" & " ++ b) = slug (a ++ q%" and " ++ b) := by
  have h2 : '&' ∉ a ++ q%" and " ++ b := by simp [ha, hb]
  rw [slug, slug, replaceAnd_and a b ha hb, replaceAnd_same _ h2]

end Booklit
