import Verif.Lemmas.MsEditL
import Verif.Spec.MsText
import Verif.Spec.MsRetitle

/-!
The search index of a manuscript after an edit: names stand for the same, and the texts of other sections are the same.
-/

namespace Booklit.Ms

open Booklit

/-! ### What names stand for -/

mutual
/-- All that has a name: the name, the place of its section, the URL and the title. -/
def Part.posts (ks : List Nat) (top : Bool) (page : Str) : Part → List (Str × List Nat × Str × List Span)
  | .mk title tags split _ body subs =>
    (tagsOr title tags).map (fun g => (g, ks, urlOn top page (tags.headD (slug (plainSpans (essence title)))), title)) ++
    (marksBlks body).map (fun m => (m.1, ks, page ++ q%".html#" ++ m.1, [.text m.2])) ++ postsParts ks 0 split page subs
def postsParts (ks : List Nat) (k : Nat) (split : Bool) (page : Str) : List Part → List (Str × List Nat × Str × List Span)
  | [] => []
  | p :: ps => p.posts (ks ++ [k]) split (if split then p.name else page) ++ postsParts ks (k + 1) split page ps
end

mutual
theorem Part.posts_names : ∀ (p : Part) (ks : List Nat) (top : Bool) (page : Str), (p.posts ks top page).map (·.1) = p.names
  | .mk title tags split hide body subs, ks, top, page => by
    rw [Part.posts, Part.names, List.map_append, List.map_append, postsParts_names subs]
    simp [Function.comp_def]
theorem postsParts_names : ∀ (ps : List Part) (ks : List Nat) (k : Nat) (split : Bool) (page : Str), (postsParts ks k split page ps).map (·.1) = namesParts ps
  | [], _, _, _, _ => rfl
  | p :: ps, ks, k, split, page => by rw [postsParts, namesParts, List.map_append, Part.posts_names p, postsParts_names ps]
end

theorem mem_postsParts {x : Str × List Nat × Str × List Span} {ks : List Nat} {split : Bool} {page : Str} {q : Part} :
    ∀ {ps : List Part} {i k : Nat}, ps[k]? = some q → x ∈ q.posts (ks ++ [i + k]) split (if split then q.name else page) → x ∈ postsParts ks i split page ps
  | [], _, _, e, _ => by cases e
  | p :: ps, i, 0, e, h => by
    cases e
    rw [postsParts]
    exact List.mem_append_left _ h
  | p :: ps, i, k + 1, e, h => by
    rw [postsParts]
    exact List.mem_append_right _ (mem_postsParts (i := i + 1) (k := k) e (by rwa [show i + 1 + k = i + (k + 1) by omega]))

theorem mem_posts {b : Part} {x : Str × List Nat × Str × List Span} {ks os : List Nat} {n : Nat} {o p : Part} (hp : Place b ks n os o p) :
    x ∈ p.posts ks (decide (os = ks)) o.name → x ∈ b.posts [] true b.name := by
  induction hp with
  | top => exact fun h => by simpa using h
  | @page ks n os o p q k h1 h2 h3 ih =>
    intro h
    refine ih ?_
    cases p with
    | mk title tags split hide body subs =>
      cases h2
      rw [Part.posts]
      exact List.mem_append_right _ (mem_postsParts h3 (by simpa using h))
  | @same ks n os o p q k h1 h2 h3 ih =>
    intro h
    refine ih ?_
    have hne : ¬ os = ks ++ [k] := fun e => by
      have := place_le h1
      rw [e, List.length_append, List.length_singleton] at this
      omega
    cases p with
    | mk title tags split hide body subs =>
      cases h2
      rw [Part.posts]
      exact List.mem_append_right _ (mem_postsParts h3 (by simpa [hne] using h))

theorem Aim.post {b : Part} {name : Str} {ks : List Nat} {p : Part} {u : Str} {title : List Span} (ha : Aim b name ks p u title) :
    (name, ks, u, title) ∈ b.posts [] true b.name := by
  cases ha with
  | @sect _ os n o _ _ hp hn =>
    refine mem_posts hp ?_
    rw [url_on]
    cases p with
    | mk t tags split hide body subs =>
      rw [Part.posts]
      exact List.mem_append_left _ (List.mem_append_left _ (List.mem_map.2 ⟨name, hn, rfl⟩))
  | @target _ os n o _ _ title hp hn =>
    refine mem_posts hp ?_
    cases p with
    | mk t tags split hide body subs =>
      rw [Part.posts]
      exact List.mem_append_left _ (List.mem_append_right _ (List.mem_map.2 ⟨_, hn, rfl⟩))

theorem sole_mem {α : Type} {l : List (Str × α)} {name : Str} (h : (l.map (·.1)).count name = 1) {x y : α} (hx : (name, x) ∈ l) (hy : (name, y) ∈ l) : x = y := by
  induction l with
  | nil => cases hx
  | cons a l ih =>
    rw [List.map_cons, List.count_cons] at h
    have some_ : ∀ {z : α}, (name, z) ∈ l → 0 < (l.map (·.1)).count name := fun hz =>
      List.count_pos_iff.2 (List.mem_map.2 ⟨_, hz, rfl⟩)
    rcases List.mem_cons.1 hx with ex | hx'
    · subst ex
      rcases List.mem_cons.1 hy with e | hy'
      · exact (Prod.mk.inj e).2.symm
      · have := some_ hy'
        simp at h
        omega
    · rcases List.mem_cons.1 hy with ey | hy'
      · subst ey
        have := some_ hx'
        simp at h
        omega
      · refine ih ?_ hx' hy'
        have := some_ hx'
        split at h <;> omega

/-- A name that is given once stands for one thing. -/
theorem aim_unique {b : Part} {name : Str} (h : b.names.count name = 1) {ks ks' : List Nat} {p p' : Part} {u u' : Str} {title title' : List Span}
    (ha : Aim b name ks p u title) (ha' : Aim b name ks' p' u' title') : ks = ks' ∧ u = u' ∧ title = title' := by
  have := sole_mem (by rw [Part.posts_names]; exact h) ha.post ha'.post
  simpa using this

/-! ### Edits -/

/-- The part at a place. -/
def Part.part : List Nat → Part → Option Part
  | [], p => some p
  | k :: ks, p => p.subs[k]?.bind (Part.part ks)

theorem Part.part_append : ∀ (ks : List Nat) (k : Nat) (b : Part), b.part (ks ++ [k]) = (b.part ks).bind fun p => p.subs[k]?
  | [], k, b => by cases h : b.subs[k]? <;> simp [Part.part, h]
  | j :: ks, k, b => by
    cases h : b.subs[j]? with
    | none => simp [Part.part, h]
    | some q => simp [Part.part, h, Part.part_append ks k q]

theorem Place.part {b : Part} {ks os : List Nat} {n : Nat} {o p : Part} (hp : Place b ks n os o p) : b.part ks = some p := by
  induction hp with
  | top => rfl
  | page h1 h2 h3 ih => rw [Part.part_append, ih]; exact h3
  | same h1 h2 h3 ih => rw [Part.part_append, ih]; exact h3

/-- The texts of the other sections are the same. -/
theorem put_body {body : List Blk} : ∀ (ks js : List Nat) {b p p' : Part}, b.part js = some p → (b.put body ks).part js = some p' → js ≠ ks → p'.body = p.body
  | [], [], _, _, _, _, _, h => (h rfl).elim
  | k :: ks, [], .mk _ _ _ _ _ _, _, _, e, e', _ => by
    cases e
    cases e'
    rfl
  | [], j :: js, .mk _ _ _ _ _ _, _, _, e, e', _ => by
    rw [Part.put] at e'
    simp only [Part.part, Part.subs] at e e'
    rw [e] at e'
    cases e'
    rfl
  | k :: ks, j :: js, .mk _ _ _ _ _ subs, _, _, e, e', h => by
    rw [Part.put] at e'
    simp only [Part.part, Part.subs, List.getElem?_modify] at e e'
    cases hj : subs[j]? with
    | none => rw [hj] at e; cases e
    | some q =>
      rw [hj] at e e'
      by_cases hk : k = j
      · subst hk
        simp only [if_true, Option.map_eq_map, Option.map_some, Option.bind_some] at e e'
        exact put_body ks js e e' (fun x => h (by rw [x]))
      · simp only [if_neg hk, Option.map_eq_map, Option.map_some, Option.bind_some, id] at e e'
        rw [e] at e'
        cases e'
        rfl

variable {b b' : Part} {os : List Nat}

theorem Off.aim (h : Off os [] [] b b') {name : Str} {ks : List Nat} {p : Part} {u : Str} {title : List Span} (ha : Aim b name ks p u title) :
    ∃ p', Aim b' name ks p' u title := by
  cases ha with
  | @sect _ os' n o _ _ hp hn =>
    obtain ⟨o', p', h1, h2, h3⟩ := h.place hp
    have e1 : url ks os' o' p' = url ks os' o p := by rw [url, url, h3.same.2.1, h2.same.2.1]
    have e2 : p'.tags = p.tags := by cases h2; rfl
    have := Aim.sect h1 (by rw [e2]; exact hn)
    rw [e1, h2.same.1] at this
    exact ⟨p', this⟩
  | @target _ os' n o _ _ title hp hn =>
    obtain ⟨o', p', h1, h2, h3⟩ := h.place hp
    have e2 : marksBlks p'.body = marksBlks p.body := by cases h2; assumption
    have := Aim.target h1 (by rw [e2]; exact hn)
    rw [h3.same.2.1] at this
    exact ⟨p', this⟩

/-! ### Texts -/

/-- What names stand for is the same, as far as titles go. -/
def SameTitles (b b' : Part) (names : List Str) : Prop :=
  ∀ name ∈ names, ∀ ks p u t ks' p' u' t', Aim b name ks p u t → Aim b' name ks' p' u' t' → t' = t

theorem SameTitles.sub {as bs : List Str} (h : SameTitles b b' bs) (hs : ∀ x ∈ as, x ∈ bs) : SameTitles b b' as := fun n hn => h n (hs n hn)

mutual
theorem Span.cites_refs {x : Str} : ∀ s : Span, x ∈ s.cites → x ∈ s.refs
  | .text _, h => h
  | .code _, h => h
  | .styled _ ss, h => cites_refsSpans ss h
  | .link ss _, h => cites_refsSpans ss h
  | .ref _, h => h
  | .see _ ss, h => List.mem_cons_of_mem _ (cites_refsSpans ss h)
  | .image _ _, h => h
  | .target _ _, h => h
  | .aux ss, h => cites_refsSpans ss h
theorem cites_refsSpans {x : Str} : ∀ ss : List Span, x ∈ citesSpans ss → x ∈ refsSpans ss
  | [], h => h
  | s :: ss, h => List.mem_append.2 ((List.mem_append.1 h).imp (Span.cites_refs s) (cites_refsSpans ss))
end

mutual
theorem Blk.cites_refs {x : Str} : ∀ s : Blk, x ∈ s.cites → x ∈ s.refs
  | .para ls, h => by
    obtain ⟨l, hl, hx⟩ := List.mem_flatMap.1 h
    exact List.mem_flatMap.2 ⟨l, hl, cites_refsSpans l hx⟩
  | .code _, h => h
  | .list _ items, h => by
    obtain ⟨l, hl, hx⟩ := List.mem_flatMap.1 h
    exact List.mem_flatMap.2 ⟨l, hl, cites_refsSpans l hx⟩
  | .table rows, h => by
    obtain ⟨r, hr, h⟩ := List.mem_flatMap.1 h
    obtain ⟨l, hl, hx⟩ := List.mem_flatMap.1 h
    exact List.mem_flatMap.2 ⟨r, hr, List.mem_flatMap.2 ⟨l, hl, cites_refsSpans l hx⟩⟩
  | .defs ds, h => by
    obtain ⟨d, hd, h⟩ := List.mem_flatMap.1 h
    exact List.mem_flatMap.2 ⟨d, hd, List.mem_append.2 ((List.mem_append.1 h).imp (cites_refsSpans _) (cites_refsSpans _))⟩
  | .box _ bs, h => cites_refsBlks bs h
  | .toc, h => h
theorem cites_refsBlks {x : Str} : ∀ xs : List Blk, x ∈ citesBlks xs → x ∈ refsBlks xs
  | [], h => h
  | s :: ss, h => List.mem_append.2 ((List.mem_append.1 h).imp (Blk.cites_refs s) (cites_refsBlks ss))
end

mutual
theorem SpanText.same {s : Span} {x : Str} : SpanText b s x → ∀ {x' : Str}, SpanText b' s x' → SameTitles b b' s.cites → x' = x
  | .text, _, h, _ => by cases h; rfl
  | .code, _, h, _ => by cases h; rfl
  | .styled h, _, h', hs => by
    cases h' with
    | styled h' => exact h.same h' hs
  | .link h, _, h', hs => by
    cases h' with
    | link h' => exact h.same h' hs
  | .ref h, _, h', hs => by
    cases h' with
    | ref h' => rw [hs _ (by simp [Span.cites]) _ _ _ _ _ _ _ _ h h']
  | .see h, _, h', hs => by
    cases h' with
    | see h' => exact h.same h' hs
  | .image, _, h, _ => by cases h; rfl
  | .target, _, h, _ => by cases h; rfl
  | .aux h, _, h', hs => by
    cases h' with
    | aux h' => exact h.same h' hs
theorem SpansText.same {ss : List Span} {x : Str} : SpansText b ss x → ∀ {x' : Str}, SpansText b' ss x' → SameTitles b b' (citesSpans ss) → x' = x
  | .nil, _, h, _ => by cases h; rfl
  | .cons h1 h2, _, h', hs => by
    cases h' with
    | cons h1' h2' => rw [h1.same h1' (hs.sub fun _ => List.mem_append_left _), h2.same h2' (hs.sub fun _ => List.mem_append_right _)]
end

theorem all2_same {α β : Type} {R R' : α → β → Prop} {as : List α} (hR : ∀ a ∈ as, ∀ x y, R a x → R' a y → y = x) :
    ∀ {xs ys : List β}, All2 R as xs → All2 R' as ys → ys = xs := by
  induction as with
  | nil => intro xs ys h h'; cases h; cases h'; rfl
  | cons a as ih =>
    intro xs ys h h'
    cases h with
    | cons h1 h2 =>
      cases h' with
      | cons h1' h2' =>
        rw [hR a List.mem_cons_self _ _ h1 h1', ih (fun c hc => hR c (List.mem_cons_of_mem _ hc)) h2 h2']

mutual
theorem BlkText.same {s : Blk} {x : Str} : BlkText b s x → ∀ {x' : Str}, BlkText b' s x' → SameTitles b b' s.cites → x' = x
  | .para h, _, h', hs => by
    cases h' with
    | para h' =>
      rw [all2_same (fun a ha x y hx hy => hx.same hy (hs.sub fun n hn => List.mem_flatMap.2 ⟨a, ha, hn⟩)) h h']
  | .code, _, h', _ => by cases h'; rfl
  | .list h, _, h', hs => by
    cases h' with
    | list h' =>
      rw [all2_same (fun a ha x y hx hy => hx.same hy (hs.sub fun n hn => List.mem_flatMap.2 ⟨a, ha, hn⟩)) h h']
  | .table h, _, h', hs => by
    cases h' with
    | table h' =>
      rw [all2_same (R := All2 (SpansText b)) (R' := All2 (SpansText b')) (fun r hr x y hx hy => all2_same (R := SpansText b) (R' := SpansText b')
        (fun a ha x y hx hy => hx.same hy (hs.sub fun n hn => List.mem_flatMap.2 ⟨r, hr, List.mem_flatMap.2 ⟨a, ha, hn⟩⟩)) hx hy) h h']
  | .defs h, _, h', hs => by
    cases h' with
    | defs h' =>
      rw [all2_same (fun d hd x y hx hy => Prod.ext
        (hx.1.same hy.1 (hs.sub fun n hn => List.mem_flatMap.2 ⟨d, hd, List.mem_append_left _ hn⟩))
        (hx.2.same hy.2 (hs.sub fun n hn => List.mem_flatMap.2 ⟨d, hd, List.mem_append_right _ hn⟩))) h h']
  | .box h, _, h', hs => by
    cases h' with
    | box h' => exact h.same h' hs
  | .toc, _, h', _ => by cases h'; rfl
theorem BlksText.same {s : List Blk} {x : Str} : BlksText b s x → ∀ {x' : Str}, BlksText b' s x' → SameTitles b b' (citesBlks s) → x' = x
  | .nil, _, h, _ => by cases h; rfl
  | .cons h1 h2, _, h', hs => by
    cases h' with
    | cons h1' h2' => rw [h1.same h1' (hs.sub fun _ => List.mem_append_left _), h2.same h2' (hs.sub fun _ => List.mem_append_right _)]
end

end Booklit.Ms
