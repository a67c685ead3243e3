import Verif.Lemmas.ExpectL
import Verif.Props.Parser
import Verif.Props.Bytes

/-!
C92: what a syntax error says is expected.
-/

namespace Booklit.Props

open Booklit Booklit.Peg

theorem insertStr_mem (s x : Str) (ts : List Str) : x ∈ insertStr s ts ↔ x = s ∨ x ∈ ts := by
  induction ts with
  | nil => simp [insertStr]
  | cons t ts ih =>
    rw [insertStr]
    split
    · simp
    · simp only [List.mem_cons, ih]
      constructor
      · rintro (h | h | h)
        · exact .inr (.inl h)
        · exact .inl h
        · exact .inr (.inr h)
      · rintro (h | h | h)
        · exact .inr (.inl h)
        · exact .inl h
        · exact .inr (.inr h)

theorem sortStrs_mem (x : Str) (ts : List Str) : x ∈ sortStrs ts ↔ x ∈ ts := by
  induction ts with
  | nil => rfl
  | cons t ts ih => rw [sortStrs, insertStr_mem, ih, List.mem_cons]

theorem insertStr_order {s : Str} {ts : List Str} (h : StrictlySorted ts) (hs : s ∉ ts) : StrictlySorted (insertStr s ts) := by
  induction ts with
  | nil => exact List.pairwise_singleton _ _
  | cons t ts ih =>
    obtain ⟨h1, h2⟩ := List.pairwise_cons.1 h
    rw [insertStr]
    split
    · rename_i hle
      refine List.pairwise_cons.2 ⟨?_, h⟩
      intro x hx
      refine ⟨?_, fun e => hs (e ▸ hx)⟩
      rcases List.mem_cons.1 hx with rfl | hx
      · exact hle
      · exact strLe_trans _ _ _ hle (h1 x hx).1
    · rename_i hle
      refine List.pairwise_cons.2 ⟨?_, ih h2 fun e => hs (List.mem_cons_of_mem _ e)⟩
      intro x hx
      rcases (insertStr_mem _ _ _).1 hx with rfl | hx
      · exact ⟨strLe_total _ _ (Bool.eq_false_iff.2 hle), fun e => hs (by rw [← e]; simp)⟩
      · exact h1 x hx

theorem sortStrs_order {ts : List Str} (h : ts.Nodup) : StrictlySorted (sortStrs ts) := by
  induction ts with
  | nil => exact List.Pairwise.nil
  | cons t ts ih =>
    obtain ⟨h1, h2⟩ := List.nodup_cons.1 h
    exact insertStr_order (ih h2) fun e => h1 ((sortStrs_mem _ _).1 e)

theorem onceEach_mem (x : Str) (ts : List Str) : x ∈ onceEach ts ↔ x ∈ ts := by
  induction ts with
  | nil => rfl
  | cons t ts ih =>
    rw [onceEach]
    split
    · rename_i ht
      rw [ih, List.mem_cons]
      constructor
      · exact .inr
      · rintro (rfl | h)
        · exact ht
        · exact h
    · rw [List.mem_cons, List.mem_cons, ih]

theorem onceEach_nodup (ts : List Str) : (onceEach ts).Nodup := by
  induction ts with
  | nil => exact List.nodup_nil
  | cons t ts ih =>
    rw [onceEach]
    split
    · exact ih
    · rename_i ht
      exact List.nodup_cons.2 ⟨fun h => ht ((onceEach_mem _ _).1 h), ih⟩

theorem joinStrs_listed (a : Str) : ∀ (l : List Str) (b : Str), joinStrs q%", " ((a :: l).dropLast ++ [(a :: l).getLastD []]) ++ q%" or " ++ b =
    orList ((a :: l) ++ [b])
  | [], b => rfl
  | c :: l, b => by
    have ih := joinStrs_listed c l b
    have hne : (c :: l).dropLast ++ [(c :: l).getLastD []] ≠ [] := by simp
    obtain ⟨x, xs, hx⟩ := List.exists_cons_of_ne_nil hne
    show joinStrs q%", " (a :: ((c :: l).dropLast ++ [(c :: l).getLastD []])) ++ _ ++ _ = _
    rw [hx, joinStrs, ← hx, List.append_assoc, List.append_assoc, List.append_assoc]
    · rw [← List.append_assoc (joinStrs _ _), ih]
      show _ = orList (a :: (c :: (l ++ [b])))
      rw [orList]
      · rw [List.append_assoc]; rfl
      · simp
      · simp
    · simp

theorem listJoin_listed (l : List Str) : listJoin l q%", " q%"or" = orList l := by
  rcases List.eq_nil_or_concat l with rfl | ⟨l, b, rfl⟩
  · rfl
  · cases l with
    | nil => rfl
    | cons a l =>
      rw [List.concat_eq_append]
      have := joinStrs_listed a l b
      rw [← this]
      have h1 : ((a :: l) ++ [b]).dropLast = a :: l := List.dropLast_concat ..
      have h2 : ((a :: l) ++ [b]).getLastD [] = b := by
        rw [List.getLastD_eq_getLast?, List.getLast?_concat]; rfl
      have h3 : (a :: l).dropLast ++ [(a :: l).getLastD []] = a :: l := by
        rw [List.getLastD_eq_getLast?, List.getLast?_eq_some_getLast (by simp), Option.getD_some, List.dropLast_concat_getLast]
      rw [h3]
      unfold listJoin
      split
      · rename_i h; simp at h
      · rename_i s h
        simp at h
      · rw [h1, h2]
        simp

theorem inQuotes_want (s : Str) : inQuotes s = wantText (.lit s) := by
  unfold inQuotes wantText
  congr 2
  congr 1
  funext c
  by_cases h1 : c = '\n'
  · subst h1; rfl
  by_cases h2 : c = '\r'
  · subst h2; rfl
  by_cases h3 : c = '\t'
  · subst h3; rfl
  by_cases h4 : c = '\\'
  · subst h4; rfl
  rw [if_neg h1, if_neg h2, if_neg h3, if_neg h4, wantChar]
  · exact h1
  · exact h2
  · exact h3
  · exact h4

/-- What a token of the grammar is called. -/
theorem names_token {e : Expr} (h : (isTok e && fineE e) = true) : ∃ p, Names (wantText e) p ∧ ∀ next, hits e next = true ↔ p next := by
  cases e with
  | lit s => exact ⟨_, by rw [← inQuotes_want]; exact .text s, fun next => List.isPrefixOf_iff_prefix⟩
  | any => exact ⟨_, .any, fun next => by cases next <;> simp [hits]⟩
  | cls neg cs rs =>
    have key : ∀ (q : Char → Prop), (∀ c, clsMatches neg cs rs c = true ↔ q c) →
        ∀ next, hits (.cls neg cs rs) next = true ↔ BeginsWith next q := by
      intro q hq next
      cases next with
      | nil => simp [hits, BeginsWith]
      | cons c r =>
        rw [hits, hq]
        constructor
        · exact fun h => ⟨c, r, rfl, h⟩
        · rintro ⟨c', r', h, hc⟩
          cases h
          exact hc
    simp only [isTok, fineE, Bool.true_and, decide_eq_true_eq, List.mem_cons, List.not_mem_nil, or_false, Prod.mk.injEq] at h
    rcases h with ⟨rfl, rfl, rfl⟩ | ⟨rfl, rfl, rfl⟩ | ⟨rfl, rfl, rfl⟩ | ⟨rfl, rfl, rfl⟩ | ⟨rfl, rfl, rfl⟩
    · exact ⟨_, .blank, key _ fun c => by simp [clsMatches]⟩
    · exact ⟨_, .name, key _ fun c => by simp [clsMatches]; exact or_comm⟩
    · exact ⟨_, .special, key _ fun c => by simp [clsMatches]⟩
    · exact ⟨_, .ordinary, key _ fun c => by simp [clsMatches]⟩
    · exact ⟨_, .verbatim, key _ fun c => by simp [clsMatches]⟩
  | _ => simp [isTok] at h

/-- **C92.** What a syntax error says is true: the message is a list of one or more items, sorted and without repetition (with `EOF` at the
end), and at the place the error is reported for, nothing of what they name follows (what is named with an exclamation mark
does, and it must not; with `EOF`, the text is not at its end). -/
theorem C92_message (s : Str) (p : Location) (h : parseDoc s = some (.err p)) :
    ∃ items, syntaxMessage s = some (q%"no match found, expected: " ++ orList items) ∧ items ≠ [] ∧
      (∃ named, StrictlySorted named ∧ q%"EOF" ∉ named ∧ (items = named ∨ items = named ++ [q%"EOF"])) ∧
      ∃ pre post, s = pre ++ post ∧ p.off = (utf8 pre).length ∧ ∀ i ∈ items, Lacks i post := by
  unfold parseDoc parse at h
  split at h <;> simp only [Option.some.injEq, reduceCtorEq, Outcome.err.injEq] at h
  rename_i st hr
  have hp := runWith_run noteWant booklit (fuelFor s) (.expr (.rule .booklit)) (PSt.start s) []
  rw [hr] at hp
  obtain ⟨⟨r', l⟩, hx, he⟩ := Option.map_eq_some_iff.1 hp
  cases he
  have hn := runWith_noted _ _ _ _ _ _ (by rfl) (⟨rfl, .inl rfl⟩ : Noted (PSt.start s) []) hx
  have hw := (runWith_inv (want_inv s) rules_fine _ _ _ _ _ _ (by rfl)
    (⟨InDoc.start s, [], s, rfl, rfl, by simp⟩ : WantOk s (PSt.start s) []) hx).2
  obtain ⟨_, pre, next, hd, hm, hl⟩ := hw
  have hne : l ≠ [] := hn.2.2 (by simp)
  refine ⟨expectedOf l, ?_, ?_, ?_, pre, next, hd, ?_, ?_⟩
  · unfold syntaxMessage
    rw [hx, ← listJoin_listed]
  · obtain ⟨w, l', rfl⟩ := List.exists_cons_of_ne_nil hne
    intro h0
    have h1 := List.append_eq_nil_iff.1 h0
    have hmem : wantOf w ∈ onceEach ((w :: l').map wantOf) := (onceEach_mem _ _).2 (by simp)
    by_cases hk : wantOf w = ['!', '.']
    · have := h1.2
      rw [if_pos (hk ▸ hmem)] at this
      cases this
    · have : wantOf w ∈ sortStrs ((onceEach ((w :: l').map wantOf)).filter fun k => k ≠ ['!', '.']) :=
        (sortStrs_mem _ _).2 (List.mem_filter.2 ⟨hmem, by simpa using hk⟩)
      rw [h1.1] at this
      cases this
  · refine ⟨sortStrs ((onceEach (l.map wantOf)).filter fun k => k ≠ ['!', '.']), ?_, ?_, ?_⟩
    · exact sortStrs_order (List.Pairwise.filter _ (onceEach_nodup _))
    · intro hE
      have hE := List.mem_filter.1 ((sortStrs_mem _ _).1 hE)
      obtain ⟨⟨b, e⟩, hw, hE⟩ := List.mem_map.1 ((onceEach_mem _ _).1 hE.1)
      have ht := (hl _ hw).1
      cases b
      · cases e <;> simp [wantOf, wantText, isTok] at hE ht
      · simp [wantOf] at hE
    · unfold expectedOf
      dsimp only
      split
      · exact .inr rfl
      · exact .inl (List.append_nil _)
  · rw [← h, ← byteLen_utf8]
    exact hm
  · intro i hi
    rcases List.mem_append.1 hi with hi | hi
    · have hi := List.mem_filter.1 ((sortStrs_mem _ _).1 hi)
      obtain ⟨⟨b, e⟩, hw, rfl⟩ := List.mem_map.1 ((onceEach_mem _ _).1 hi.1)
      obtain ⟨ht, hh⟩ := hl _ hw
      obtain ⟨q, hq, hq'⟩ := names_token ht
      dsimp only at hh
      cases b
      · refine .inl ⟨q, hq, fun hn => ?_⟩
        rw [(hq' next).2 hn] at hh
        cases hh
      · exact .inr (.inl ⟨_, q, rfl, hq, (hq' next).1 hh⟩)
    · split at hi
      · rename_i hk
        rw [List.mem_singleton] at hi
        obtain ⟨⟨b, e⟩, hw, hE⟩ := List.mem_map.1 ((onceEach_mem _ _).1 hk)
        obtain ⟨ht, hh⟩ := hl _ hw
        refine .inr (.inr ⟨hi, ?_⟩)
        cases b
        · cases e <;> simp [wantOf, wantText, isTok] at hE ht
        · cases e with
          | any =>
            rintro rfl
            simp [hits] at hh
          | lit x => simp [wantOf, wantText] at hE
          | cls neg cs rs => simp [wantOf, wantText] at hE
          | _ => simp [isTok] at ht
      · cases hi

/-- There is a message if and only if there is an error. -/
theorem C92_iff (s : Str) : (∃ m, syntaxMessage s = some m) ↔ ∃ p, parseDoc s = some (.err p) := by
  constructor
  · rintro ⟨m, hm⟩
    unfold syntaxMessage at hm
    split at hm
    · rename_i st l hx
      have hp := runWith_run noteWant booklit (fuelFor s) (.expr (.rule .booklit)) (PSt.start s) []
      rw [hx] at hp
      refine ⟨st.maxFail, ?_⟩
      unfold parseDoc parse
      rw [← hp]
      rfl
    · cases hm
  · rintro ⟨p, hp⟩
    obtain ⟨items, h, _⟩ := C92_message s p hp
    exact ⟨_, h⟩

-- A brace too many, a backslash before a blank, a comment that is not closed.
example : syntaxMessage q%"a } b" = some q%"no match found, expected: \"\\\\\", \"\\n\", \"\\r\\n\", \"{\", \"{-\", [ \\t], [^\\\\{}\\r\\n] or EOF" := by
  decide +kernel

example : syntaxMessage q%"a \\ b" = some q%"no match found, expected: [\\\\{}] or [a-z-]" := by decide +kernel

example : parseDoc q%"a \\ b" = some (.err ⟨1, 4, 3⟩) := by decide +kernel

example : Lacks q%"[a-z-]" q%" b" := .inl ⟨_, .name, by rintro ⟨c, r, h, h'⟩; cases h; revert h'; decide⟩

end Booklit.Props
