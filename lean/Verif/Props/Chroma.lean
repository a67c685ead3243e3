import Verif.Model.Chroma
import Verif.Spec.Pieces

/-!
Properties of transformed and highlighted text: C51.
-/

namespace Booklit.Props

open Booklit

/-- What becomes of a piece. -/
def pieceContent (make : Str → Content) (p : Piece) : Content := if p.hit then make p.text else .str p.text

theorem loop_pieces (make : Str → Content) (s : Str) : ∀ (ms : List (Nat × Nat)) (n : Nat), Matches s n ms → n ≤ s.length →
    ∃ ps : List Piece, piecesText ps = s.drop n ∧ hitsAt n ps = ms ∧ Tidy ps ∧
      transformLoop make s n ms = ps.map (pieceContent make)
  | [], n, _, hn => by
    rw [transformLoop]
    by_cases h : s.length > n
    · rw [if_pos h]
      refine ⟨[⟨false, s.drop n⟩], by simp [piecesText], by simp [hitsAt], ?_, by simp [pieceContent]⟩
      intro _ e
      have := congrArg List.length e
      simp at this; omega
    · rw [if_neg h]
      refine ⟨[], ?_, rfl, trivial, rfl⟩
      rw [List.drop_of_length_le (by omega)]; rfl
  | (a, b) :: ms, n, ⟨h1, h2, h3, h4⟩, hn => by
    obtain ⟨ps, e1, e2, e3, e4⟩ := loop_pieces make s ms b h4 h3
    have hab : (slice s a b).length = b - a := by simp [slice]; omega
    have hit : slice s a b ++ s.drop b = s.drop a := by
      have : s.drop a = (s.take b ++ s.drop b).drop a := by rw [List.take_append_drop]
      rw [this, List.drop_append_of_le_length (by simp; omega)]; rfl
    have hh : hitsAt a (⟨true, slice s a b⟩ :: ps) = (a, b) :: ms := by
      rw [hitsAt, hab, show a + (b - a) = b by omega, e2]; rfl
    have ht : Tidy (⟨true, slice s a b⟩ :: ps) := by
      cases ps with
      | nil => intro h; cases h
      | cons q qs => exact ⟨(fun h => by cases h), e3⟩
    by_cases h : a > n
    · have hna : (slice s n a).length = a - n := by simp [slice]; omega
      refine ⟨⟨false, slice s n a⟩ :: ⟨true, slice s a b⟩ :: ps, ?_, ?_, ?_, ?_⟩
      · simp only [piecesText, e1]
        rw [hit]
        have : s.drop n = (s.take a ++ s.drop a).drop n := by rw [List.take_append_drop]
        rw [this, List.drop_append_of_le_length (by simp; omega)]; rfl
      · rw [hitsAt, hna, show n + (a - n) = a by omega, hh]; rfl
      · refine ⟨fun _ => ⟨fun e => ?_, rfl⟩, ht⟩
        have := congrArg List.length e
        rw [hna] at this; simp at this; omega
      · rw [transformLoop, if_pos h, e4]; rfl
    · have hna : a = n := by omega
      subst hna
      refine ⟨⟨true, slice s a b⟩ :: ps, ?_, hh, ht, ?_⟩
      · simp only [piecesText, e1, hit]
      · rw [transformLoop, if_neg h, e4]; rfl

/-- **C51 (one transformer).** Transforming a text cuts it into pieces that make up the text. The hits are exactly the
matches, each transformed once, in order; the kept pieces are the text between them, unchanged, none of them empty and no
two in a row. -/
theorem C51_pieces (t : Transformer) (s : Str) (hm : Matches s 0 (t.find s)) :
    ∃ ps : List Piece, piecesText ps = s ∧ hitsAt 0 ps = t.find s ∧ Tidy ps ∧
      t.transformAll s = ps.map fun p => if p.hit then t.make p.text else .str p.text := by
  obtain ⟨ps, h1, h2, h3, h4⟩ := loop_pieces t.make s (t.find s) 0 hm (by omega)
  exact ⟨ps, h1, h2, h3, h4⟩

/-- A part of highlighted code: raw output of the highlighter, or something a transformer made of a part of it. -/
inductive Part (ts : List Transformer) : Str → Content → Prop
  | raw {s : Str} : Part ts s (.styled q%"raw-html" false (.str s) [])
  | made {t : Transformer} {s : Str} : t ∈ ts → Part ts s (t.make s)

/-- Before the last loop. -/
inductive Part' (ts : List Transformer) : Str → Content → Prop
  | raw {s : Str} : Part' ts s (.str s)
  | made {t : Transformer} {s : Str} : t ∈ ts → (t.make s).isStr = false → Part' ts s (t.make s)

/-- Contents and the texts they come from. -/
inductive Parts (R : Str → Content → Prop) : Str → List Content → Prop
  | nil : Parts R [] []
  | cons {s u : Str} {c : Content} {cs : List Content} : R s c → Parts R u cs → Parts R (s ++ u) (c :: cs)

theorem Parts.append {R : Str → Content → Prop} {s u : Str} {cs ds : List Content} (h : Parts R s cs) (h' : Parts R u ds) :
    Parts R (s ++ u) (cs ++ ds) := by
  induction h with
  | nil => exact h'
  | cons h1 _ ih => rw [List.append_assoc]; exact .cons h1 ih

theorem parts_of_pieces {ts : List Transformer} {t : Transformer} (ht : t ∈ ts)
    (hs : ∀ s, (t.make s).isStr = true → t.make s = .str s) :
    ∀ ps : List Piece, Parts (Part' ts) (piecesText ps) (ps.map fun p => if p.hit then t.make p.text else .str p.text)
  | [] => .nil
  | p :: ps => by
    refine .cons ?_ (parts_of_pieces ht hs ps)
    dsimp only
    split
    · by_cases h : (t.make p.text).isStr = true
      · rw [hs _ h]; exact .raw
      · exact .made ht (by simpa using h)
    · exact .raw

theorem onAll_parts {ts : List Transformer} {t : Transformer} (ht : t ∈ ts) (hm : ∀ s, Matches s 0 (t.find s))
    (hs : ∀ s, (t.make s).isStr = true → t.make s = .str s) {s : Str} {cs : List Content} (h : Parts (Part' ts) s cs) :
    Parts (Part' ts) s (t.onAll cs) := by
  induction h with
  | nil => exact .nil
  | cons h1 _ ih =>
    cases h1 with
    | raw =>
      rw [Transformer.onAll]
      refine .append ?_ ih
      obtain ⟨ps, e1, _, _, e4⟩ := C51_pieces t _ (hm _)
      have := parts_of_pieces ht hs ps
      rw [e1, ← e4] at this
      exact this
    | made h2 h3 =>
      have e : ∀ (c : Content) (cs : List Content), c.isStr = false → t.onAll (c :: cs) = c :: t.onAll cs := by
        intro c cs h; cases c <;> first | rfl | cases h
      rw [e _ _ h3]
      exact .cons (.made h2 h3) ih

theorem onAllOf_parts {ts : List Transformer} : ∀ (us : List Transformer), (∀ t ∈ us, t ∈ ts) →
    (∀ t ∈ ts, ∀ s, Matches s 0 (t.find s)) → (∀ t ∈ ts, ∀ s, (t.make s).isStr = true → t.make s = .str s) →
    ∀ {s : Str} {cs : List Content}, Parts (Part' ts) s cs → Parts (Part' ts) s (onAllOf us cs)
  | [], _, _, _, _, _, h => h
  | t :: us, hu, hm, hs, _, _, h =>
    onAllOf_parts us (fun t' h' => hu t' (by simp [h'])) hm hs
      (onAll_parts (hu t (by simp)) (hm t (hu t (by simp))) (hs t (hu t (by simp))) h)

theorem wrapRaw_parts {ts : List Transformer} {s : Str} {cs : List Content} (h : Parts (Part' ts) s cs) :
    Parts (Part ts) s (wrapRaw cs) := by
  induction h with
  | nil => exact .nil
  | cons h1 _ ih =>
    cases h1 with
    | raw => exact .cons .raw ih
    | made h2 h3 =>
      have e : ∀ (c : Content) (cs : List Content), c.isStr = false → wrapRaw (c :: cs) = c :: wrapRaw cs := by
        intro c cs h; cases c <;> first | rfl | cases h
      rw [e _ _ h3]
      exact .cons (.made h2) ih

theorem wrapRaw_no_str : ∀ (cs : List Content), ∀ c ∈ wrapRaw cs, c.isStr = false
  | [], c, h => by cases h
  | d :: cs, c, h => by
    by_cases hd : d.isStr = true
    · cases d <;> first | cases hd | skip
      rw [wrapRaw] at h
      rcases List.mem_cons.1 h with rfl | h
      · rfl
      · exact wrapRaw_no_str cs c h
    · have hd' : d.isStr = false := by simpa using hd
      have e : wrapRaw (d :: cs) = d :: wrapRaw cs := by cases d <;> first | rfl | cases hd'
      rw [e] at h
      rcases List.mem_cons.1 h with rfl | h
      · exact hd'
      · exact wrapRaw_no_str cs c h

/-- **C51 (highlighted code).** Code that is highlighted becomes a list of parts that come from consecutive pieces of the
highlighter's output, nothing lost, added or moved: each is a piece of raw HTML or what one of the transformers made of a
piece. No part is bare text, which would be escaped. (Transformers that give text back are taken to give back the piece
they got.) -/
theorem C51_highlighted (h : Heap) (brokenOk : Bool) (k : Nat) (highlight : Str → Str → Bool → Option Str) (lang : Str)
    (code : Content) (ts : List Transformer) (hm : ∀ t ∈ ts, ∀ s, Matches s 0 (t.find s))
    (hs : ∀ t ∈ ts, ∀ s, (t.make s).isStr = true → t.make s = .str s)
    (c : Content) (he : syntaxTransform h brokenOk k highlight lang code ts = .ok c) :
    ∃ flow text html parts, isFlow code = some flow ∧ h.text brokenOk k code = .ok text ∧
      highlight lang text flow = some html ∧
      c = .styled (if flow then q%"code-flow" else q%"code-block") (!flow) (.seq parts) [(q%"Language", .str lang)] ∧
      Parts (Part ts) html parts ∧ ∀ x ∈ parts, x.isStr = false := by
  rw [syntaxTransform] at he
  cases ht : h.text brokenOk k code with
  | ok text =>
    rw [ht] at he
    simp only [Res.bind] at he
    cases hf : isFlow code with
    | none => rw [hf] at he; cases he
    | some flow =>
      rw [hf] at he
      simp only at he
      cases hh : highlight lang text flow with
      | none => rw [hh] at he; cases he
      | some html =>
        rw [hh] at he
        simp only [Res.ok.injEq] at he
        refine ⟨flow, text, html, _, rfl, rfl, hh, he.symm, ?_, wrapRaw_no_str _⟩
        have : Parts (Part' ts) html [.str html] := by
          have := Parts.cons (R := Part' ts) (.raw (s := html)) .nil
          rwa [List.append_nil] at this
        exact wrapRaw_parts (onAllOf_parts ts (fun _ h => h) hm hs this)
  | err _ => rw [ht] at he; cases he
  | panic => rw [ht] at he; cases he
  | more => rw [ht] at he; cases he

/-- Code without transformers is the output of the highlighter, as one piece of raw HTML. -/
theorem C51_plain (h : Heap) (brokenOk : Bool) (k : Nat) (highlight : Str → Str → Bool → Option Str) (lang : Str)
    (code : Content) (text html : Str) (flow : Bool) (h1 : h.text brokenOk k code = .ok text) (h2 : isFlow code = some flow)
    (h3 : highlight lang text flow = some html) :
    syntaxTransform h brokenOk k highlight lang code [] =
      .ok (.styled (if flow then q%"code-flow" else q%"code-block") (!flow)
        (.seq [.styled q%"raw-html" false (.str html) []]) [(q%"Language", .str lang)]) := by
  rw [syntaxTransform, h1]
  simp only [Res.bind, h2, h3]
  rfl

theorem wrapRaw_map (t : Transformer) (hs : ∀ s, (t.make s).isStr = false) : ∀ ps : List Piece,
    wrapRaw (ps.map fun p => if p.hit then t.make p.text else .str p.text) =
      ps.map fun p => if p.hit then t.make p.text else .styled q%"raw-html" false (.str p.text) []
  | [] => rfl
  | p :: ps => by
    simp only [List.map_cons]
    have e : ∀ (c : Content) (cs : List Content), c.isStr = false → wrapRaw (c :: cs) = c :: wrapRaw cs := by
      intro c cs h; cases c <;> first | rfl | cases h
    cases hh : p.hit with
    | true => simp only [if_true]; rw [e _ _ (hs _), wrapRaw_map t hs ps]
    | false => simp only [Bool.false_eq_true, if_false, wrapRaw, wrapRaw_map t hs ps]

/-- With one transformer that makes no bare text, the parts are the hits, transformed, and raw HTML between them. -/
theorem C51_one (h : Heap) (brokenOk : Bool) (k : Nat) (highlight : Str → Str → Bool → Option Str) (lang : Str)
    (code : Content) (t : Transformer) (text html : Str) (flow : Bool) (h1 : h.text brokenOk k code = .ok text)
    (h2 : isFlow code = some flow) (h3 : highlight lang text flow = some html) (hm : Matches html 0 (t.find html))
    (hs : ∀ s, (t.make s).isStr = false) :
    ∃ ps : List Piece, piecesText ps = html ∧ hitsAt 0 ps = t.find html ∧ Tidy ps ∧
      syntaxTransform h brokenOk k highlight lang code [t] =
        .ok (.styled (if flow then q%"code-flow" else q%"code-block") (!flow)
          (.seq (ps.map fun p => if p.hit then t.make p.text else .styled q%"raw-html" false (.str p.text) []))
          [(q%"Language", .str lang)]) := by
  obtain ⟨ps, e1, e2, e3, e4⟩ := C51_pieces t html hm
  refine ⟨ps, e1, e2, e3, ?_⟩
  rw [syntaxTransform, h1]
  simp only [Res.bind, h2, h3, onAllOf, Transformer.onAll, List.append_nil]
  rw [e4, wrapRaw_map t hs ps]

/-- A transformer that makes every `x` bold. -/
def boldX : Transformer :=
  ⟨fun s => (s.zipIdx.filter fun p => p.1 = 'x').map fun p => (p.2, p.2 + 1), fun s => .styled q%"bold" false (.str s) []⟩

theorem boldX_matches (s : Str) : ∀ (u : Str) (n : Nat), n + u.length ≤ s.length → ∀ m, m ≤ n →
    Matches s m (((u.zipIdx n).filter fun p => p.1 = 'x').map fun p => (p.2, p.2 + 1))
  | [], n, _, m, _ => by simp [Matches]
  | c :: u, n, h, m, hm => by
    simp only [List.length_cons] at h
    rw [List.zipIdx_cons, List.filter_cons]
    split
    · refine ⟨hm, by simp, by simp; omega, ?_⟩
      exact boldX_matches s u (n + 1) (by omega) (n + 1) (by omega)
    · exact boldX_matches s u (n + 1) (by omega) m (by omega)

-- The conditions are met.
example : ∀ t ∈ [boldX, boldX], (∀ s, Matches s 0 (t.find s)) ∧ ∀ s, (t.make s).isStr = true → t.make s = .str s := by
  intro t ht
  have : t = boldX := by simpa using ht
  subst this
  exact ⟨fun s => boldX_matches s s 0 (by omega) 0 (by omega), fun s h => by cases h⟩

example : boldX.find q%"axxbc" = [(1, 2), (2, 3)] ∧ (boldX.transformAll q%"axxbc").map Content.isStr = [true, false, false, true] := by
  decide

end Booklit.Props
