import Verif.Spec.MsTyped
import Verif.Lemmas.MsSite
import Verif.Lemmas.TextEngineL

/-!
The plain text of the sections of a loaded manuscript.
-/

namespace Booklit.Ms

open Booklit Booklit.Src

variable {S : Site} {h : Heap} {b : Part} {t : Tree} {I : InnerTxt}

/-- The result of a template. -/
def outcomeOf {α : Type} : Option α → Res α
  | some x => .ok x
  | none => tmplErr

theorem outcome_bind {α β : Type} (a : Option α) {f : α → Res β} {g : α → Option β} (h : ∀ x, f x = outcomeOf (g x)) :
    (outcomeOf a).bind f = outcomeOf (a.bind g) := by
  cases a with
  | none => rfl
  | some x => exact h x

theorem outcome_map {α β : Type} (a : Option α) (f : α → β) : (outcomeOf a).map f = outcomeOf (a.map f) := by
  cases a <;> rfl

theorem bind_outcome {α β : Type} {r : Res α} {a : Option α} (h : r = outcomeOf a) {f : α → Res β} {g : α → Option β}
    (hf : ∀ x, f x = outcomeOf (g x)) : r.bind f = outcomeOf (a.bind g) := by
  rw [h]
  exact outcome_bind a hf

/-! ### Contents one after the other -/

theorem txtL_app (as bs : List Content) : txtL I (as ++ bs) = (txtL I as).bind fun x => (txtL I bs).map (x ++ ·) := by
  induction as with
  | nil =>
    rw [List.nil_append, txtL]
    show txtL I bs = (txtL I bs).map _
    cases txtL I bs <;> rfl
  | cons a as ih =>
    rw [List.cons_append, txtL, txtL, ih]
    cases a.txt I with
    | ok x =>
      simp only [Res.bind]
      cases txtL I as with
      | ok y => simp only [Res.bind, Res.map]; cases txtL I bs <;> rfl
      | _ => rfl
    | _ => rfl

theorem txt_seq (cs : List Content) : (Content.seq cs).txt I = (txtL I cs).map List.flatten := by rw [Content.txt]

theorem Whole.txt {cs : List Content} {c : Content} (hw : Whole cs c) : c.txt I = (txtL I cs).map List.flatten := by
  rcases hw with ⟨hn, rfl⟩ | rfl
  · match cs, hn with
    | [c], _ =>
      show c.txt I = _
      rw [txtL, txtL]
      cases c.txt I <;> simp [Res.bind, Res.map]
    | a :: b :: r, _ => exact txt_seq _
  · exact txt_seq _

theorem txtL_strs (ss : List Str) : txtL I (ss.map .str) = .ok ss := by
  induction ss with
  | nil => rfl
  | cons s ss ih => rw [List.map_cons, txtL, ih]; rfl

theorem txtL_one (c : Content) : (txtL I [c]).map List.flatten = c.txt I := by
  rw [txtL, txtL]
  cases c.txt I <;> simp [Res.bind, Res.map]

/-- Text after text. -/
theorem txtL_two {as bs : List Content} {x y : Option Str} (ha : (txtL I as).map List.flatten = outcomeOf x)
    (hb : (txtL I bs).map List.flatten = outcomeOf y) :
    (txtL I (as ++ bs)).map List.flatten = outcomeOf (x.bind fun x => y.bind fun y => some (x ++ y)) := by
  rw [txtL_app]
  cases x with
  | none =>
    cases e : txtL I as with
    | ok z => rw [e] at ha; cases ha
    | _ => rw [e] at ha; first | (cases ha; rfl) | cases ha
  | some x =>
    cases e : txtL I as with
    | ok z =>
      rw [e] at ha
      cases ha
      cases y with
      | none =>
        cases e : txtL I bs with
        | ok z => rw [e] at hb; cases hb
        | _ => rw [e] at hb; first | (cases hb; rfl) | cases hb
      | some y =>
        cases e : txtL I bs with
        | ok z => rw [e] at hb; cases hb; simp [Res.bind, Res.map, outcomeOf]
        | _ => rw [e] at hb; cases hb
    | _ => rw [e] at ha; cases ha

theorem txt_face (f : Face) (c : Content) (b : Bool) (ps : List (Str × Content)) : (Content.styled f.fn b c ps).txt I = tmplErr := by
  rw [Content.txt, if_neg (by cases f <;> decide), if_neg (by cases f <;> decide)]

theorem txt_verbatim (c : Content) (b : Bool) (ps : List (Str × Content)) : (Content.styled q%"verbatim" b c ps).txt I = tmplErr := by
  rw [Content.txt, if_neg (by decide), if_neg (by decide)]

/-! ### Running text -/

mutual
theorem TitleIs.txt : ∀ {s : Span} {cs : List Content}, TitleIs s cs → (txtL I cs).map List.flatten = outcomeOf s.typed
  | _, _, .text (ss := ss) _ => by rw [txtL_strs, Span.typed]; rfl
  | _, _, .code _ => by rw [txtL_one, txt_verbatim, Span.typed]; rfl
  | _, _, .styled _ _ => by rw [txtL_one, txt_face, Span.typed]; rfl
  | _, _, .image => by rw [txtL_one, Content.txt, Span.typed]; rfl
  | _, _, .aux h hn => by rw [txtL_one, Content.txt, Whole.txt (Or.inl ⟨hn, rfl⟩), h.txt, Span.typed]
theorem TitlesIs.txt : ∀ {ss : List Span} {cs : List Content}, TitlesIs ss cs → (txtL I cs).map List.flatten = outcomeOf (typedSpans ss)
  | _, _, .nil => rfl
  | _, _, .cons h1 h2 => by rw [txtL_two h1.txt h2.txt, typedSpans]; rfl
end

theorem Headed.txt {title : List Span} {c : Content} (hc : Headed title c) : c.txt I = outcomeOf (typedSpans title) := by
  obtain ⟨-, -, cs, hn, ht, rfl⟩ := hc
  rw [Whole.txt (Or.inl ⟨hn, rfl⟩), ht.txt]

mutual
theorem SpanIs.txt {i : Nat} : ∀ {s : Span} {cs : List Content}, SpanIs i s cs → (txtL I cs).map List.flatten = outcomeOf s.typed
  | _, _, .text (ss := ss) _ => by rw [txtL_strs, Span.typed]; rfl
  | _, _, .code _ => by rw [txtL_one, txt_verbatim, Span.typed]; rfl
  | _, _, .styled _ _ => by rw [txtL_one, txt_face, Span.typed]; rfl
  | _, _, .link _ _ => by rw [txtL_one, Content.txt, Span.typed]; rfl
  | _, _, .ref => by rw [txtL_one, Content.txt, Span.typed]; rfl
  | _, _, .see _ _ _ => by rw [txtL_one, Content.txt, Span.typed]; rfl
  | _, _, .image => by rw [txtL_one, Content.txt, Span.typed]; rfl
  | _, _, .target _ _ _ => by rw [txtL_one, Content.txt, Span.typed]; rfl
  | _, _, .aux h hn => by rw [txtL_one, Content.txt, Whole.txt (Or.inl ⟨hn, rfl⟩), h.txt, Span.typed]
theorem SpansIs.txt {i : Nat} : ∀ {ss : List Span} {cs : List Content}, SpansIs i ss cs → (txtL I cs).map List.flatten = outcomeOf (typedSpans ss)
  | _, _, .nil => rfl
  | _, _, .cons h1 h2 => by rw [txtL_two h1.txt h2.txt, typedSpans]; rfl
end

theorem LinesIs.txt {i : Nat} {ls : List (List Span)} {cs : List Content} (hl : LinesIs i ls cs) : txtL I cs = outcomeOf (typedLines ls) := by
  induction hl with
  | nil => rfl
  | cons h1 hn _ ih =>
    rw [txtL, ih, Whole.txt (Or.inl ⟨hn, rfl⟩), h1.txt, typedLines]
    refine outcome_bind _ fun x => ?_
    rw [outcome_map, Option.map_eq_bind]
    rfl

/-! ### Blocks -/

theorem inset_lines (x : Str) : q%"    " ++ joinLines q%"    " x = q%"\n".intercalate ((srcLines x).map (q%"    " ++ ·)) := by
  rw [joinLines, split_src, indent_join _ _ (srcLines_ne x), joinWith_intercalate]

mutual
theorem BlkIs.txt {i : Nat} {toc : Option Str} (ht : I.toc i = outcomeOf toc) : ∀ {x : Blk} {c : Content}, BlkIs i x c →
    c.txt I = outcomeOf (x.typed toc)
  | _, _, .para h => by
    rw [Content.txt, h.txt, outcome_map, Blk.typed]
    simp only [joinWith_intercalate, Option.map_eq_bind]
    rfl
  | _, _, .code _ => by rw [txt_verbatim, Blk.typed]; rfl
  | _, _, .list _ => by rw [Content.txt, Blk.typed]; rfl
  | _, _, .table _ => by rw [Content.txt, Blk.typed]; rfl
  | _, _, .defs _ => by rw [Content.txt, Blk.typed]; rfl
  | .box true bs, _, .box _ _ => by
    rw [if_pos rfl, Content.txt, if_neg (by decide), if_neg (by decide), Blk.typed]
    rfl
  | .box false bs, _, .box h hn => by
    rw [if_neg (by simp), Content.txt, if_pos rfl, Whole.txt (Or.inl ⟨hn, rfl⟩), h.txt ht, outcome_map, Blk.typed, Option.map_eq_bind]
    congr 1
    refine congrArg (Option.bind _) (funext fun x => ?_)
    exact congrArg some (inset_lines x)
  | _, _, .toc => by rw [Content.txt, ht, Blk.typed]
theorem BlksIs.txt {i : Nat} {toc : Option Str} (ht : I.toc i = outcomeOf toc) : ∀ {xs : List Blk} {cs : List Content}, BlksIs i xs cs →
    (txtL I cs).map List.flatten = outcomeOf (typedBlks toc xs)
  | _, _, .nil => rfl
  | _, _, .cons (c := c) (cs := cs) h1 h2 => by
    rw [show c :: cs = [c] ++ cs from rfl, txtL_two (by rw [txtL_one]; exact h1.txt ht) (h2.txt ht), typedBlks]
    rfl
end

theorem Bodied.txt {x : Sec} {p : Part} {i : Nat} {toc : Option Str} (ht : I.toc i = outcomeOf toc) (hb : Bodied x p i) :
    x.body.txt I = outcomeOf (typedBlks toc p.body) := by
  rcases hb with ⟨e, e'⟩ | ⟨cs, hn, hc, e⟩
  · rw [e, e']
    rfl
  · rw [e, Whole.txt (Or.inl ⟨hn, rfl⟩), hc.txt ht]

/-! ### Tables of contents -/

theorem txt_any {c : Content} {r : Res Str} (hc : ∀ I, c.txt I = r) (n : Nat) : h.txt S n c = r := by
  cases n <;> exact hc _

mutual
theorem Made.typedToc (L : Loaded h b t) : ∀ (p : Part) {ks : List Nat} {par : Option Nat} {s : Tree}, Made true h par p s → t.At ks s →
    ∃ N, ∀ m, N ≤ m → ∀ n, h.tocTxt (h.txt S n) m s.root = outcomeOf (p.typedToc ks)
  | .mk title tags split hide body subs, ks, par, s, hm, ha => by
    obtain ⟨N, hN⟩ := MadeL.typedToc L subs hm.inv.2.2.2 (kids_at ha)
    refine ⟨N + 1, fun m hm' n => ?_⟩
    obtain ⟨m, rfl⟩ : ∃ k, m = k + 1 := ⟨m - 1, by omega⟩
    rw [Heap.tocTxt, Part.typedToc, hm.inv.2.1.children, hm.inv.2.1.omitToc,
      show (Part.mk title tags split hide body subs).hide = hide from rfl]
    have e : (s.kids.map Tree.root = [] ∨ hide = true) ↔ (subs.isEmpty || hide) = true := by
      rw [Bool.or_eq_true, List.isEmpty_iff, List.map_eq_nil_iff]
      exact or_congr_left (kids_nil hm.inv.2.2.2)
    by_cases hc : (subs.isEmpty || hide) = true
    · rw [if_pos (e.2 hc), if_pos hc]
      rfl
    · rw [if_neg (fun h => hc (e.1 h)), if_neg hc]
      have := hN m (by omega) n
      show (resMap _ _).map _ = outcomeOf ((typedEntries ks 0 subs).bind _)
      cases er : resMap (h.tocLine m (h.txt S n) (h.tocTxt (h.txt S n) m)) (s.kids.map Tree.root) with
      | ok ts =>
        rw [er] at this
        cases e2 : typedEntries ks 0 subs with
        | none => rw [e2] at this; cases this
        | some x => rw [e2] at this; cases this; rfl
      | _ =>
        rw [er] at this
        cases e2 : typedEntries ks 0 subs with
        | none => rw [e2] at this; first | (cases this; rfl) | cases this
        | some x => rw [e2] at this; cases this
theorem MadeL.typedToc (L : Loaded h b t) : ∀ (ps : List Part) {ks : List Nat} {k : Nat} {par : Option Nat} {kids : List Tree},
    MadeL true h par ps kids → (∀ j c, kids[j]? = some c → t.At (ks ++ [k + j]) c) →
    ∃ N, ∀ m, N ≤ m → ∀ n, (resMap (h.tocLine m (h.txt S n) (h.tocTxt (h.txt S n) m)) (kids.map Tree.root)).map List.flatten =
      outcomeOf (typedEntries ks k ps)
  | [], ks, k, par, kids, hm, ha => by
    cases hm
    exact ⟨0, fun _ _ _ => rfl⟩
  | p :: ps, ks, k, par, _, .cons (t := c) (ts := cs) h1 h2, ha => by
    have hat := ha 0 c rfl
    rw [Nat.add_zero] at hat
    obtain ⟨N1, hN1⟩ := MadeL.typedToc (ks := ks) (k := k + 1) L ps h2
      (fun j c hc => by have := ha (j + 1) c hc; rwa [show k + 1 + j = k + (j + 1) by omega])
    obtain ⟨N2, hN2⟩ := Made.typedToc L p h1 hat
    obtain ⟨N3, hN3⟩ := number_ends (L.made.book L.nodup) hat
    refine ⟨N1 + N2 + N3, fun m hm n => ?_⟩
    have a1 := hN1 m (by omega) n
    have a2 := hN2 m (by omega) n
    have a3 : h.number m c.root = some _ := hN3 m (by omega)
    obtain ⟨d, ds, e1, e2, e3⟩ := h1.inv.2.1.headed.strip
    have a4 : h.txt S n d = outcomeOf (typedSpans (essence p.title)) := txt_any (fun I => by rw [e3.txt, e2.txt]) n
    have line : h.tocLine m (h.txt S n) (h.tocTxt (h.txt S n) m) c.root =
        outcomeOf ((typedSpans (essence p.title)).bind fun title => (p.typedToc (ks ++ [k])).bind fun below =>
          some (q%"\n" ++ numeral (ks ++ [k]) ++ q%" " ++ title ++ q%"\n\n" ++ below ++ q%"\n")) := by
      rw [Heap.tocLine, a3]
      show (match stripAux (h.get c.root).title with | none => tmplErr | some d => _) = _
      rw [e1]
      refine bind_outcome a4 fun title => ?_
      rw [a2, outcome_map, Option.map_eq_bind]
      rfl
    rw [List.map_cons, resMap, line, typedEntries]
    cases typedSpans (essence p.title) with
    | none => rfl
    | some title =>
      cases p.typedToc (ks ++ [k]) with
      | none => rfl
      | some below =>
        show ((resMap _ _).map _).map _ = outcomeOf ((typedEntries ks (k + 1) ps).bind _)
        cases er : resMap (h.tocLine m (h.txt S n) (h.tocTxt (h.txt S n) m)) (cs.map Tree.root) with
        | ok ts =>
          rw [er] at a1
          cases e2 : typedEntries ks (k + 1) ps with
          | none => rw [e2] at a1; cases a1
          | some x => rw [e2] at a1; cases a1; rfl
        | _ =>
          rw [er] at a1
          cases e2 : typedEntries ks (k + 1) ps with
          | none => rw [e2] at a1; first | (cases a1; rfl) | cases a1
          | some x => rw [e2] at a1; cases a1
end

/-! ### Sections -/

theorem kids_flat {ts : List Str} : (ts.flatMap fun t => q%"\n" ++ t ++ q%"\n") = (ts.map fun t => q%"\n" ++ t ++ q%"\n").flatten := by
  rw [List.flatMap_def]

mutual
theorem Made.typed (L : Loaded h b t) : ∀ (p : Part) {ks : List Nat} {par : Option Nat} {s : Tree}, Made true h par p s → t.At ks s →
    (par.isSome = true ↔ ks ≠ []) → ∃ N, ∀ m, N ≤ m → h.txt S m (.sect s.root) = outcomeOf (p.typed ks)
  | .mk title tags split hide body subs, ks, par, s, hm, ha, hpar => by
    obtain ⟨N1, hN1⟩ := MadeL.typed L subs hm.inv.2.2.2 (kids_at ha)
    obtain ⟨N2, hN2⟩ := Made.typedToc (S := S) L _ hm ha
    obtain ⟨N3, hN3⟩ := number_ends (L.made.book L.nodup) ha
    refine ⟨N1 + N2 + N3 + 2, fun m hm' => ?_⟩
    obtain ⟨m, rfl⟩ : ∃ k, m = k + 2 := ⟨m - 2, by omega⟩
    have a1 := hN1 (m + 1) (by omega)
    have a2 : h.number (m + 1) s.root = some _ := hN3 (m + 1) (by omega)
    have a3 : h.txt S (m + 1) (h.get s.root).title = outcomeOf (typedSpans title) := txt_any (fun I => hm.inv.2.1.headed.txt) _
    have a4 : h.txt S (m + 1) (h.get s.root).body = outcomeOf (typedBlks ((Part.mk title tags split hide body subs).typedToc ks) body) := by
      refine Bodied.txt ?_ hm.inv.2.2.1
      exact hN2 m (by omega) m
    show h.sectTxt S (m + 1) (h.txt S (m + 1)) _ s.root = _
    rw [Heap.sectTxt]
    rw [if_pos (Or.inl hm.inv.2.1.style), Heap.sectTmpl]
    rw [hm.inv.2.1.parent, a2, a3, a4, Part.typed, hm.inv.2.1.split, hm.inv.2.1.children,
      show (Part.mk title tags split hide body subs).split = split from rfl]
    have num : (if par.isSome = true then (Res.ofFuel (some (dotted (ks.map (· + 1))))).map fun k => k ++ q%" " else .ok []) =
        .ok (if ks = [] then [] else numeral ks ++ q%" ") := by
      by_cases hk : ks = []
      · rw [if_neg (by rw [hpar]; simp [hk]), if_pos hk]
      · rw [if_pos (hpar.2 hk), if_neg hk]
        rfl
    rw [num]
    show (outcomeOf (typedSpans title)).bind _ = outcomeOf ((typedSpans title).bind _)
    refine outcome_bind _ fun t => ?_
    refine outcome_bind _ fun x => ?_
    cases split with
    | true =>
      rw [if_pos rfl, if_pos rfl]
      rfl
    | false =>
      simp only [Bool.false_eq_true, if_false, kids_flat]
      show ((resMap _ _).map _).map _ = outcomeOf ((typedParts ks 0 subs).bind _)
      cases er : resMap (fun c => h.txt S (m + 1) (.sect c)) (s.kids.map Tree.root) with
      | ok ts =>
        rw [er] at a1
        cases e2 : typedParts ks 0 subs with
        | none => rw [e2] at a1; cases a1
        | some x => rw [e2] at a1; cases a1; rfl
      | _ =>
        rw [er] at a1
        cases e2 : typedParts ks 0 subs with
        | none => rw [e2] at a1; first | (cases a1; rfl) | cases a1
        | some x => rw [e2] at a1; cases a1
theorem MadeL.typed (L : Loaded h b t) : ∀ (ps : List Part) {ks : List Nat} {k i : Nat} {kids : List Tree},
    MadeL true h (some i) ps kids → (∀ j c, kids[j]? = some c → t.At (ks ++ [k + j]) c) →
    ∃ N, ∀ m, N ≤ m → (resMap (fun c => h.txt S m (.sect c)) (kids.map Tree.root)).map (fun ts => (ts.map fun t => q%"\n" ++ t ++ q%"\n").flatten) =
      outcomeOf (typedParts ks k ps)
  | [], ks, k, i, kids, hm, ha => by
    cases hm
    exact ⟨0, fun _ _ => rfl⟩
  | p :: ps, ks, k, i, _, .cons (t := c) (ts := cs) h1 h2, ha => by
    have hat := ha 0 c rfl
    rw [Nat.add_zero] at hat
    obtain ⟨N1, hN1⟩ := MadeL.typed (ks := ks) (k := k + 1) L ps h2
      (fun j c hc => by have := ha (j + 1) c hc; rwa [show k + 1 + j = k + (j + 1) by omega])
    obtain ⟨N2, hN2⟩ := Made.typed L p h1 hat (by simp)
    refine ⟨N1 + N2, fun m hm => ?_⟩
    have a1 := hN1 m (by omega)
    rw [List.map_cons, resMap, hN2 m (by omega), typedParts]
    cases p.typed (ks ++ [k]) with
    | none => rfl
    | some x =>
      show ((resMap _ _).map _).map _ = outcomeOf ((typedParts ks (k + 1) ps).bind _)
      cases er : resMap (fun c => h.txt S m (.sect c)) (cs.map Tree.root) with
      | ok ts =>
        rw [er] at a1
        cases e2 : typedParts ks (k + 1) ps with
        | none => rw [e2] at a1; cases a1
        | some y => rw [e2] at a1; cases a1; rfl
      | _ =>
        rw [er] at a1
        cases e2 : typedParts ks (k + 1) ps with
        | none => rw [e2] at a1; first | (cases a1; rfl) | cases a1
        | some x => rw [e2] at a1; cases a1
end

/-- The plain text of a page. -/
theorem Loaded.typedPage (L : Loaded h b t) {ks os : List Nat} {n : Nat} {o p : Part} (hp : Place b ks n os o p) {s : Tree} (ha : t.At ks s) :
    ∃ N, ∀ m, N ≤ m → h.txtPage S m s.root = outcomeOf (Ms.typedPage ks p) := by
  obtain ⟨s', so, par, par', a1, a2, a3, a4, a5, a6⟩ := place_at L.made hp
  obtain rfl := ha.inj a1
  have hpar : par.isSome = true ↔ ks ≠ [] := by
    rw [← a2.inv.2.1.parent]
    cases ha with
    | here => rw [L.made.inv.2.1.parent]; simp
    | @step ks q k s hq hk =>
      obtain ⟨n', os', o', p', par0, _, hm0⟩ := at_place L.made hq
      obtain ⟨r, hr, hmr⟩ := hm0.inv.2.2.2.get' hk
      rw [hmr.inv.2.1.parent]
      simp
  obtain ⟨N, hN⟩ := Made.typed (S := S) L p a2 ha hpar
  refine ⟨N, fun m hm => ?_⟩
  rw [Heap.txtPage, if_neg (by rw [a2.inv.2.1.style]; simp), Heap.pageTmpl, a2.inv.2.1.text, hN m hm]
  show (outcomeOf (p.typed ks)).map _ = _
  rw [outcome_map, Ms.typedPage, Option.map_eq_bind]
  rfl

end Booklit.Ms
