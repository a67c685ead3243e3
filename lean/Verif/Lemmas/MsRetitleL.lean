import Verif.Spec.MsRetitle
import Verif.Lemmas.MsGrowL

/-!
Manuscripts that differ in the title of one section only.
-/

namespace Booklit.Ms

open Booklit

variable {b b' : Part} {ks : List Nat} {E : Prop} {T : List Str}

mutual
/-- The same but for the title of the section at `ks`; the section is at `js`. `T` are the names of that section; if not `E`, the titles are the
same but for what is auxiliary. -/
inductive Renamed (ks : List Nat) (E : Prop) (T : List Str) : List Nat → Part → Part → Prop
  | mk {js : List Nat} {title title' : List Span} {tags : List Str} {split hide : Bool} {body : List Blk} {subs subs' : List Part} :
      (js ≠ ks → title' = title) → (¬ E → essence title' = essence title) → tagsOr title' tags = tagsOr title tags →
      (js = ks → ∀ g ∈ tagsOr title tags, g ∈ T) → RenamedL ks E T js 0 subs subs' →
      Renamed ks E T js (.mk title tags split hide body subs) (.mk title' tags split hide body subs')
inductive RenamedL (ks : List Nat) (E : Prop) (T : List Str) : List Nat → Nat → List Part → List Part → Prop
  | nil {js : List Nat} {k : Nat} : RenamedL ks E T js k [] []
  | cons {js : List Nat} {k : Nat} {p p' : Part} {ps ps' : List Part} :
      Renamed ks E T (js ++ [k]) p p' → RenamedL ks E T js (k + 1) ps ps' → RenamedL ks E T js k (p :: ps) (p' :: ps')
end

theorem headD_tagsOr (title : List Span) (tags : List Str) : tags.headD (slug (plainSpans (essence title))) = (tagsOr title tags).headD [] := by
  cases tags <;> rfl

mutual
/-- Nothing different at all. -/
theorem Renamed.self : ∀ (p : Part) (js : List Nat), ¬ js <+: ks → Renamed ks E T js p p
  | .mk _ _ _ _ _ subs, js, h => .mk (fun _ => rfl) (fun _ => rfl) rfl (fun e => absurd (e ▸ List.prefix_rfl) h) (RenamedL.self subs js 0 (.inl h))
theorem RenamedL.self : ∀ (ps : List Part) (js : List Nat) (k : Nat), ¬ js <+: ks ∨ (∀ j, k ≤ j → ¬ js ++ [j] <+: ks) → RenamedL ks E T js k ps ps
  | [], _, _, _ => .nil
  | p :: ps, js, k, h => by
    have h' : ∀ j, k ≤ j → ¬ js ++ [j] <+: ks := fun j hj => h.elim (fun h g => h ((List.prefix_append js [j]).trans g)) (· j hj)
    exact .cons (Renamed.self p _ (h' k (Nat.le_refl _))) (RenamedL.self ps js (k + 1) (.inr fun j hj => h' j (by omega)))
end

mutual
theorem Renamed.symm : ∀ {js : List Nat} {p p' : Part}, Renamed ks E T js p p' → Renamed ks E T js p' p
  | _, _, _, .mk h1 h2 h3 h4 h5 => .mk (fun e => (h1 e).symm) (fun e => (h2 e).symm) h3.symm (fun e => by rw [h3]; exact h4 e) h5.symm
theorem RenamedL.symm : ∀ {js : List Nat} {k : Nat} {ps ps' : List Part}, RenamedL ks E T js k ps ps' → RenamedL ks E T js k ps' ps
  | _, _, _, _, .nil => .nil
  | _, _, _, _, .cons h1 h2 => .cons h1.symm h2.symm
end

theorem Renamed.same {js : List Nat} {p p' : Part} (h : Renamed ks E T js p p') :
    p'.name = p.name ∧ p'.split = p.split ∧ p'.hide = p.hide ∧ p'.body = p.body ∧ p'.tags = p.tags := by
  cases h with
  | mk _ _ h3 _ _ =>
    refine ⟨?_, rfl, rfl, rfl, h3⟩
    rw [Part.name, Part.name, headD_tagsOr, headD_tagsOr, h3]

theorem Renamed.titles {js : List Nat} {p p' : Part} (h : Renamed ks E T js p p') : (js ≠ ks → p'.title = p.title) ∧ (¬ E → essence p'.title = essence p.title) := by
  cases h with
  | mk h1 h2 _ _ _ => exact ⟨h1, h2⟩

theorem Renamed.subs {js : List Nat} {p p' : Part} (h : Renamed ks E T js p p') : RenamedL ks E T js 0 p.subs p'.subs := by
  cases h with
  | mk _ _ _ _ h5 => exact h5

theorem RenamedL.get {js : List Nat} : ∀ {k : Nat} {ps ps' : List Part}, RenamedL ks E T js k ps ps' → ∀ {j : Nat} {q : Part}, ps[j]? = some q →
    ∃ q', ps'[j]? = some q' ∧ Renamed ks E T (js ++ [k + j]) q q'
  | _, _, _, .nil, _, _, e => by cases e
  | k, _, _, .cons h1 h2, 0, _, e => by cases e; exact ⟨_, rfl, h1⟩
  | k, _, _, .cons h1 h2, j + 1, _, e => by
    obtain ⟨q', h3, h4⟩ := h2.get (j := j) e
    exact ⟨q', h3, by rwa [show k + 1 + j = k + (j + 1) by omega] at h4⟩

/-- Places correspond. -/
theorem Renamed.place (h : Renamed ks E T [] b b') {js pg : List Nat} {n : Nat} {o p : Part} (hp : Place b js n pg o p) :
    ∃ o' p', Place b' js n pg o' p' ∧ Renamed ks E T js p p' ∧ Renamed ks E T pg o o' := by
  induction hp with
  | top => exact ⟨b', b', .top, h, h⟩
  | @page js n pg o p q k _ hs hk ih =>
    obtain ⟨o', p', h1, h2, h3⟩ := ih
    obtain ⟨q', h4, h5⟩ := h2.subs.get hk
    rw [Nat.zero_add] at h5
    exact ⟨q', q', .page h1 (by rw [h2.same.2.1, hs]) h4, h5, h5⟩
  | @same js n pg o p q k _ hs hk ih =>
    obtain ⟨o', p', h1, h2, h3⟩ := ih
    obtain ⟨q', h4, h5⟩ := h2.subs.get hk
    rw [Nat.zero_add] at h5
    exact ⟨o', q', .same h1 (by rw [h2.same.2.1, hs]) h4, h5, h3⟩

/-- The files of pages are the same. -/
theorem Renamed.apart (off : Renamed ks E T [] b b') (hp : PagesApart b) : PagesApart b' := by
  intro ks1 p1 h1
  obtain ⟨_, p2, h2, h3, -⟩ := off.symm.place h1
  obtain ⟨-, -, -, rfl⟩ := place_unique h2 (place_part h2)
  have e := h3.same.1
  refine ⟨by rw [← e]; exact (hp _ _ h2).1, fun ks3 p3 h4 e3 => ?_⟩
  obtain ⟨_, p4, h5, h6, -⟩ := off.symm.place h4
  obtain ⟨-, -, -, rfl⟩ := place_unique h5 (place_part h5)
  exact (hp _ _ h2).2 _ _ h5 (by rw [h6.same.1, e, e3])

/-! ### Names -/

open Classical in
/-- What is known of what a name stands for. -/
noncomputable def outer (E : Prop) (T : List Str) (a : Str × Str × List Span) : Str × Str × Option Str :=
  (a.1, a.2.1, if E ∧ a.1 ∈ T then none else some (webTitle (essence a.2.2)))

mutual
theorem Renamed.aims : ∀ {js : List Nat} {p p' : Part}, Renamed ks E T js p p' → ∀ top page, (p'.aims top page).map (outer E T) = (p.aims top page).map (outer E T)
  | js, _, _, .mk (title := title) (title' := title') (tags := tags) h1 h2 h3 h4 h5, top, page => by
    rw [Part.aims, Part.aims, List.map_append, List.map_append, List.map_append, List.map_append, h5.aims, h3, headD_tagsOr, headD_tagsOr, h3]
    refine congrArg (· ++ _ ++ _) ?_
    rw [List.map_map, List.map_map]
    refine List.map_congr_left fun g hg => ?_
    simp only [Function.comp, outer]
    by_cases hc : E ∧ g ∈ T
    · rw [if_pos hc, if_pos hc]
    · rw [if_neg hc, if_neg hc]
      by_cases e : js = ks
      · rw [h2 fun hE => hc ⟨hE, h4 e g hg⟩]
      · rw [h1 e]
theorem RenamedL.aims : ∀ {js : List Nat} {k : Nat} {ps ps' : List Part}, RenamedL ks E T js k ps ps' → ∀ split page,
    (aimsParts split page ps').map (outer E T) = (aimsParts split page ps).map (outer E T)
  | _, _, _, _, .nil, _, _ => rfl
  | _, _, _, _, .cons h1 h2, split, page => by rw [aimsParts, aimsParts, List.map_append, List.map_append, h2.aims, h1.same.1, h1.aims]
end

theorem Renamed.names (h : Renamed ks E T [] b b') : b'.names = b.names := by
  rw [← Part.aims_names b' true [], ← Part.aims_names b true []]
  have := congrArg (List.map Prod.fst) (h.aims true [])
  rwa [List.map_map, List.map_map] at this

/-- Names lead to where they lead, and only what has another title is shown differently. -/
theorem Renamed.refTo (h : Renamed ks E T [] b b') (page name : Str) :
    (refTo b' page name).1 = (refTo b page name).1 ∧ (¬ (E ∧ name ∈ T) → refTo b' page name = refTo b page name) := by
  have e := h.aims true b.name
  generalize hl : b.aims true b.name = l at e
  generalize hl' : b'.aims true b.name = l' at e
  have e2 : (l'.filter fun a => a.1 = name).map (outer E T) = (l.filter fun a => a.1 = name).map (outer E T) := by
    have f := congrArg (List.filter fun a : Str × Str × Option Str => a.1 = name) e
    rwa [List.filter_map, List.filter_map] at f
  have hn : ∀ a ∈ l.filter (fun a => a.1 = name), a.1 = name := fun a ha => by simpa using (List.mem_filter.1 ha).2
  rw [Ms.refTo, Ms.refTo, h.same.1, hl, hl']
  generalize l.filter (fun a => a.1 = name) = m at e2 hn
  generalize l'.filter (fun a => a.1 = name) = m' at e2
  match m, m', e2 with
  | [], [], _ => exact ⟨rfl, fun _ => rfl⟩
  | [a], [a'], e2 =>
    obtain ⟨e1, e2, e3⟩ : a'.1 = a.1 ∧ a'.2.1 = a.2.1 ∧ (outer E T a').2.2 = (outer E T a).2.2 := by
      have := (List.cons.inj e2).1
      exact ⟨congrArg (·.1) this, congrArg (·.2.1) this, congrArg (·.2.2) this⟩
    refine ⟨e2, fun hc => ?_⟩
    have ha := hn a (by simp)
    simp only [outer] at e3
    rw [e1, ha, if_neg hc, if_neg hc] at e3
    show (a'.2.1, webTitle (essence a'.2.2)) = (a.2.1, webTitle (essence a.2.2))
    rw [e2, Option.some.inj e3]
  | _ :: _ :: _, _ :: _ :: _, _ => exact ⟨rfl, fun _ => rfl⟩
  | [], _ :: _, e2 => cases e2
  | _ :: _, [], e2 => cases e2
  | [_], _ :: _ :: _, e2 => simp at e2
  | _ :: _ :: _, [_], e2 => simp at e2

/-! ### Tables of contents -/

mutual
/-- Tables of contents without an entry for the section are the same. -/
theorem Renamed.toc : ∀ {js : List Nat} {p p' : Part}, Renamed ks E T js p p' → ∀ {n : Nat} {pg : List Nat} {o : Part}, Place b js n pg o p →
    ¬ (E ∧ Enters b ks js) → ∀ page, p'.webToc js page = p.webToc js page
  | js, _, _, .mk (title := title) (title' := title') (tags := tags) (split := split) (hide := hide) (body := body) (subs := subs) (subs' := subs') h1 h2 h3 h4 h5,
      n, pg, o, hp, hc, page => by
    rw [Part.webToc, Part.webToc]
    cases hide with
    | true => rw [Bool.or_true, Bool.or_true, if_pos rfl, if_pos rfl]
    | false =>
      have hself : ∀ is n' os o' p', Place b is n' os o' p' → is = js → p'.hide = false := by
        rintro is n' os o' p' h rfl
        obtain ⟨-, -, -, rfl⟩ := place_unique h hp
        rfl
      have e := h5.toc (fun j q hq => by
          rw [Nat.zero_add]
          cases split with
          | true => exact ⟨_, _, _, .page hp rfl hq⟩
          | false => exact ⟨_, _, _, .same hp rfl hq⟩)
        (fun j hE => by
          rw [Nat.zero_add]
          intro ej
          refine hc ⟨hE, ⟨[j], ej⟩, fun e => ?_, fun is n' os o' p' hi h6 h7 h8 => ?_⟩
          · rw [e] at ej
            simp at ej
          · subst ej
            refine hself _ _ _ _ _ hi ?_
            obtain ⟨u, rfl⟩ := h6
            obtain ⟨v, hv⟩ := h7
            rw [List.append_assoc] at hv
            have hv := List.append_cancel_left hv
            cases u with
            | nil => rw [List.append_nil]
            | cons x u =>
              obtain ⟨rfl, hw⟩ := List.cons.inj hv
              obtain ⟨rfl, -⟩ := List.append_eq_nil_iff.1 hw
              exact absurd rfl h8)
        (fun j ⟨hE, he⟩ => by
          rw [Nat.zero_add] at he
          refine hc ⟨hE, (List.prefix_append js [j]).trans he.1, fun e => ?_, fun is n' os o' p' hi h6 h7 h8 => ?_⟩
          · have := he.1.length_le
            rw [e, List.length_append] at this
            exact absurd this (Nat.not_succ_le_self _)
          · by_cases ei : is = js
            · exact hself _ _ _ _ _ hi ei
            · refine he.2.2 is n' os o' p' hi ?_ h7 h8
              obtain ⟨u, rfl⟩ := h6
              obtain ⟨v, hv⟩ := h7
              obtain ⟨w, hw⟩ := he.1
              rw [← hw, List.append_assoc, List.append_assoc] at hv
              have hv := List.append_cancel_left hv
              cases u with
              | nil => exact absurd (List.append_nil _) ei
              | cons x u =>
                obtain ⟨rfl, -⟩ := List.cons.inj hv
                exact ⟨u, by simp⟩) split page
      rw [e]
      cases h5 <;> rfl
theorem RenamedL.toc : ∀ {js : List Nat} {k : Nat} {ps ps' : List Part}, RenamedL ks E T js k ps ps' →
    (∀ (j : Nat) (q : Part), ps[j]? = some q → ∃ n pg o, Place b (js ++ [k + j]) n pg o q) → (∀ j, E → js ++ [k + j] ≠ ks) →
    (∀ j, ¬ (E ∧ Enters b ks (js ++ [k + j]))) → ∀ split page, webEntries js k split page ps' = webEntries js k split page ps
  | _, _, _, _, .nil, _, _, _, _, _ => rfl
  | js, k, p :: ps, p' :: ps', .cons h1 h2, hp, hk, hc, split, page => by
    obtain ⟨n, pg, o, h0⟩ := hp 0 p rfl
    have e : essence p'.title = essence p.title := by
      by_cases hE : E
      · rw [h1.titles.1 (hk 0 hE)]
      · exact h1.titles.2 hE
    have e2 : ∀ page, p'.webToc (js ++ [k]) page = p.webToc (js ++ [k]) page := h1.toc h0 (hc 0)
    rw [webEntries, webEntries, h2.toc (fun j q hq => by rw [show k + 1 + j = k + (j + 1) by omega]; exact hp (j + 1) q hq)
      (fun j => by rw [show k + 1 + j = k + (j + 1) by omega]; exact hk (j + 1)) (fun j => by rw [show k + 1 + j = k + (j + 1) by omega]; exact hc (j + 1)),
      h1.same.1, e]
    simp only [e2]
end

/-! ### Pages -/

mutual
/-- On pages without the section, and without a table of contents with an entry for it, sections are the same but for references. -/
theorem Renamed.web {os : List Nat} (hks : ∀ n o q, ¬ Place b ks n os o q) (hl : ∀ js n o q, Place b js n os o q → listsBlks q.body = true → ¬ (E ∧ Enters b ks js)) :
    ∀ {js : List Nat} {p p' : Part}, Renamed ks E T js p p' → ∀ {n : Nat} {o : Part}, Place b js n os o p → ∀ r m page, p'.web r js m page = p.web r js m page
  | js, _, _, .mk (title := title) (title' := title') (tags := tags) (split := split) (hide := hide) (body := body) (subs := subs) (subs' := subs') h1 h2 h3 h4 h5,
      n, o, hp, r, m, page => by
    have e := h1 fun e => hks _ _ _ (e ▸ hp)
    subst e
    have hb : webBlks r (Part.webToc js page (.mk title' tags split hide body subs')) body = webBlks r (Part.webToc js page (.mk title' tags split hide body subs)) body := by
      cases hls : listsBlks body with
      | false => exact webBlks_lists _ _ _ hls
      | true => rw [(Renamed.mk (split := split) (hide := hide) (body := body) h1 h2 h3 h4 h5 : Renamed ks E T js _ _).toc hp (hl _ _ _ _ hp hls)]
    rw [Part.web, Part.web, hb]
    cases split with
    | true => rfl
    | false => rw [h5.web hks hl fun j q hq => ⟨_, _, by rw [Nat.zero_add]; exact .same hp rfl hq⟩]
theorem RenamedL.web {os : List Nat} (hks : ∀ n o q, ¬ Place b ks n os o q) (hl : ∀ js n o q, Place b js n os o q → listsBlks q.body = true → ¬ (E ∧ Enters b ks js)) :
    ∀ {js : List Nat} {k : Nat} {ps ps' : List Part}, RenamedL ks E T js k ps ps' →
      (∀ (j : Nat) (q : Part), ps[j]? = some q → ∃ n o, Place b (js ++ [k + j]) n os o q) → ∀ r m page, webParts r js k m page ps' = webParts r js k m page ps
  | _, _, _, _, .nil, _, _, _, _ => rfl
  | js, k, p :: ps, p' :: ps', .cons h1 h2, hp, r, m, page => by
    obtain ⟨n, o, h0⟩ := hp 0 p rfl
    rw [Nat.add_zero] at h0
    rw [webParts, webParts, h2.web hks hl fun j q hq => by rw [show k + 1 + j = k + (j + 1) by omega]; exact hp (j + 1) q hq, Renamed.web hks hl h1 h0]
end

mutual
theorem Span.web_cites {r r' : Str → Str × Str} (hu : ∀ x, (r x).1 = (r' x).1) : ∀ s : Span, (∀ x ∈ s.cites, r x = r' x) → s.web r = s.web r'
  | .text _, _ => rfl
  | .code _, _ => rfl
  | .styled f ss, h => by rw [Span.web, Span.web, webSpans_cites hu ss h]
  | .link ss u, h => by rw [Span.web, Span.web, webSpans_cites hu ss h]
  | .ref name, h => by rw [Span.web, Span.web, h name (by simp [Span.cites])]
  | .see name ss, h => by rw [Span.web, Span.web, hu name, webSpans_cites hu ss h]
  | .image _ _, _ => rfl
  | .target _ _, _ => rfl
  | .aux ss, h => by rw [Span.web, Span.web, webSpans_cites hu ss h]
theorem webSpans_cites {r r' : Str → Str × Str} (hu : ∀ x, (r x).1 = (r' x).1) : ∀ ss : List Span, (∀ x ∈ citesSpans ss, r x = r' x) → webSpans r ss = webSpans r' ss
  | [], _ => rfl
  | s :: ss, h => by
    rw [webSpans, webSpans, Span.web_cites hu s fun x hx => h x (by rw [citesSpans]; exact List.mem_append_left _ hx),
      webSpans_cites hu ss fun x hx => h x (by rw [citesSpans]; exact List.mem_append_right _ hx)]
end

mutual
theorem Blk.web_cites {r r' : Str → Str × Str} (hu : ∀ x, (r x).1 = (r' x).1) {toc : Str} : ∀ x : Blk, (∀ n ∈ x.cites, r n = r' n) → x.web r toc = x.web r' toc
  | .para ls, h => by
    rw [Blk.web, Blk.web, List.map_congr_left fun l hl => webSpans_cites hu l fun n hn => h n (by rw [Blk.cites]; exact List.mem_flatMap.2 ⟨l, hl, hn⟩)]
  | .code _, _ => rfl
  | .list o items, h => by
    have e : ∀ l ∈ items, webSpans r l = webSpans r' l := fun l hl => webSpans_cites hu l fun n hn => h n (by rw [Blk.cites]; exact List.mem_flatMap.2 ⟨l, hl, hn⟩)
    rw [Blk.web, Blk.web, List.flatMap_def, List.flatMap_def, List.map_congr_left fun l hl => by rw [e l hl]]
  | .table rows, h => by
    have e : ∀ row ∈ rows, ∀ l ∈ row, webSpans r l = webSpans r' l := fun row hrow l hl =>
      webSpans_cites hu l fun n hn => h n (by rw [Blk.cites]; exact List.mem_flatMap.2 ⟨row, hrow, List.mem_flatMap.2 ⟨l, hl, hn⟩⟩)
    rw [Blk.web, Blk.web, List.flatMap_def, List.flatMap_def (l := rows), List.map_congr_left fun row hrow => by
      rw [List.flatMap_def, List.map_congr_left fun l hl => by rw [e row hrow l hl], ← List.flatMap_def]]
  | .defs ds, h => by
    have e : ∀ d ∈ ds, webSpans r d.1 = webSpans r' d.1 ∧ webSpans r d.2 = webSpans r' d.2 := fun d hd =>
      ⟨webSpans_cites hu d.1 fun n hn => h n (by rw [Blk.cites]; exact List.mem_flatMap.2 ⟨d, hd, List.mem_append_left _ hn⟩),
        webSpans_cites hu d.2 fun n hn => h n (by rw [Blk.cites]; exact List.mem_flatMap.2 ⟨d, hd, List.mem_append_right _ hn⟩)⟩
    rw [Blk.web, Blk.web, List.flatMap_def, List.flatMap_def, List.map_congr_left fun d hd => by rw [(e d hd).1, (e d hd).2]]
  | .box a bs, h => by rw [Blk.web, Blk.web, webBlks_cites hu bs h]
  | .toc, _ => rfl
theorem webBlks_cites {r r' : Str → Str × Str} (hu : ∀ x, (r x).1 = (r' x).1) {toc : Str} : ∀ xs : List Blk, (∀ n ∈ citesBlks xs, r n = r' n) →
    webBlks r toc xs = webBlks r' toc xs
  | [], _ => rfl
  | x :: xs, h => by
    rw [webBlks, webBlks, Blk.web_cites hu x fun n hn => h n (by rw [citesBlks]; exact List.mem_append_left _ hn),
      webBlks_cites hu xs fun n hn => h n (by rw [citesBlks]; exact List.mem_append_right _ hn)]
end

mutual
theorem Part.web_cites {os : List Nat} {r r' : Str → Str × Str} (hu : ∀ x, (r x).1 = (r' x).1)
    (hc : ∀ js n o q, Place b js n os o q → ∀ x ∈ citesBlks q.body, r x = r' x) : ∀ (p : Part) {js : List Nat} {n : Nat} {o : Part}, Place b js n os o p → ∀ m page,
    p.web r js m page = p.web r' js m page
  | .mk title tags split hide body subs, js, n, o, hp, m, page => by
    rw [Part.web, Part.web, webBlks_cites hu body (hc _ _ _ _ hp)]
    cases split with
    | true => rfl
    | false => rw [webParts_cites hu hc subs fun j q hq => ⟨_, _, by rw [Nat.zero_add]; exact .same hp rfl hq⟩]
theorem webParts_cites {os : List Nat} {r r' : Str → Str × Str} (hu : ∀ x, (r x).1 = (r' x).1)
    (hc : ∀ js n o q, Place b js n os o q → ∀ x ∈ citesBlks q.body, r x = r' x) : ∀ (ps : List Part) {js : List Nat} {k : Nat},
    (∀ (j : Nat) (q : Part), ps[j]? = some q → ∃ n o, Place b (js ++ [k + j]) n os o q) → ∀ {m page},
    webParts r js k m page ps = webParts r' js k m page ps
  | [], _, _, _, _, _ => rfl
  | p :: ps, js, k, hp, m, page => by
    obtain ⟨n, o, h0⟩ := hp 0 p rfl
    rw [Nat.add_zero] at h0
    rw [webParts, webParts, Part.web_cites hu hc p h0, webParts_cites hu hc ps fun j q hq => by rw [show k + 1 + j = k + (j + 1) by omega]; exact hp (j + 1) q hq]
end

/-! ### Giving another title -/

theorem RenamedL.modify {f : Part → Part} {js : List Nat} : ∀ {ps : List Part} {i k : Nat} {q : Part}, ps[k]? = some q → js ++ [i + k] <+: ks →
    Renamed ks E T (js ++ [i + k]) q (f q) → RenamedL ks E T js i ps (ps.modify k f)
  | [], _, _, _, e, _, _ => by cases e
  | p :: ps, i, 0, _, e, hk, h => by
    cases e
    refine .cons h (RenamedL.self ps js (i + 1) (.inr fun j hj hn => ?_))
    have := (List.prefix_of_prefix_length_le hk hn (by simp)).eq_of_length (by simp)
    simp at this
    omega
  | p :: ps, i, k + 1, q, e, hk, h => by
    rw [List.modify_succ_cons]
    refine .cons (Renamed.self p _ fun hn => ?_) (RenamedL.modify (i := i + 1) (k := k) e (by rwa [show i + 1 + k = i + (k + 1) by omega])
      (by rwa [show i + 1 + k = i + (k + 1) by omega]))
    have := (List.prefix_of_prefix_length_le hk hn (by simp)).eq_of_length (by simp)
    simp at this

theorem retitle_renamed {title : List Span} {os : List Nat} {l : Nat} {o p : Part} (hp : Place b ks l os o p) (ht : (p.retitle title []).tags = p.tags) :
    ∀ (r : List Nat) {js pg : List Nat} {n : Nat} {o0 p0 : Part}, Place b js n pg o0 p0 → js ++ r = ks →
      Renamed ks (essence title ≠ essence p.title) p.tags js p0 (p0.retitle title r)
  | [], js, pg, n, o0, p0, h0, e => by
    rw [List.append_nil] at e
    subst e
    obtain ⟨rfl, rfl, rfl, rfl⟩ := place_unique h0 hp
    cases p0
    rw [Part.retitle]
    refine .mk (fun e => absurd rfl e) (fun e => Classical.not_not.1 e) ht (fun _ g hg => hg) (RenamedL.self _ _ _ (.inr fun j _ hn => ?_))
    have := hn.length_le
    rw [List.length_append] at this
    exact absurd this (Nat.not_succ_le_self _)
  | k :: r, js, pg, n, o0, p0, h0, e => by
    have e' : (js ++ [k]) ++ r = ks := by rw [← e]; simp
    obtain ⟨n1, os1, o1, p1, h1⟩ := place_prefix (b := b) r (ks := js ++ [k]) (by rw [e']; exact hp)
    have kid : p0.subs[k]? = some p1 := place_kid h0 h1
    have ih := retitle_renamed hp ht r h1 e'
    cases p0 with
    | mk t tags split hide body subs =>
      rw [Part.retitle]
      refine .mk (fun _ => rfl) (fun _ => rfl) rfl (fun ej => ?_) (RenamedL.modify kid ⟨r, by rw [Nat.zero_add]; exact e'⟩ (by rw [Nat.zero_add]; exact ih))
      rw [ej] at e
      simp at e

theorem retitle_ok {title : List Span} (ht : titleOk title) : ∀ (ks : List Nat) (p : Part), p.ok → (p.retitle title ks).ok
  | [], .mk _ _ _ _ _ _, h => ⟨ht, h.2.1, h.2.2.1, h.2.2.2⟩
  | k :: ks, .mk _ _ _ _ _ subs, h => ⟨h.1, h.2.1, h.2.2.1, okParts_modify (retitle_ok ht ks) subs k h.2.2.2⟩

theorem Renamed.refsOk (h : Renamed ks E T [] b b') (hr : RefsOk b) : RefsOk b' := by
  intro js n os o p hp name hn
  obtain ⟨o2, p2, h2, h3, -⟩ := h.symm.place hp
  rw [h.names]
  exact hr _ _ _ _ _ h2 name (by rw [h3.same.2.2.2.1]; exact hn)

/-- Pages that do not show the title are the same. -/
theorem retitle_page {title : List Span} {os : List Nat} {l : Nat} {o p : Part} (hp : Place b ks l os o p) (ht : (p.retitle title []).tags = p.tags)
    {js : List Nat} {q q' : Part} (hq : Place b js 1 js q q) (h : Renamed ks (essence title ≠ essence p.title) p.tags js q q') (hm : ¬ Mentions b ks p title js) :
    webPage (b.retitle title ks) js q' = webPage b js q := by
  have off := retitle_renamed hp ht ks .top rfl
  have hks : ∀ n o q, ¬ Place b ks n js o q := fun n o q hn => hm ⟨_, _, _, _, hn, .inl rfl⟩
  have hne : js ≠ ks := by
    rintro rfl
    exact hks _ _ _ hq
  rw [webPage, webPage, webShown, webShown, h.titles.1 hne, h.same.1,
    h.web hks (fun js' n o q hj hl he => hm ⟨_, _, _, _, hj, .inr ⟨he.1, .inl ⟨hl, he.2⟩⟩⟩) hq,
    Part.web_cites (fun x => (off.refTo _ x).1) (fun js' n o q hj x hx => (off.refTo _ x).2 fun he => hm ⟨_, _, _, _, hj, .inr ⟨he.1, .inr ⟨x, hx, he.2⟩⟩⟩) q hq]

/-! ### Checks -/

/-- The names of the pages on which the title of the section at `ks`, with the names `T`, may be shown. -/
def mentioners (b : Part) (ks : List Nat) (T : List Str) : List Str :=
  let l := spots [] 1 [] none b
  (l.filter fun e => decide (e.ks = ks) || (listsBlks e.p.body && e.ks.isPrefixOf ks &&
      (l.all fun i => !(e.ks.isPrefixOf i.ks && i.ks.isPrefixOf ks && decide (i.ks ≠ ks)) || !i.p.hide)) ||
    (citesBlks e.p.body).any fun x => decide (x ∈ T)).map (·.o.name)

theorem mem_mentioners {p q : Part} {title : List Span} {js : List Nat} (hq : Place b js 1 js q q) (h : Mentions b ks p title js) :
    q.name ∈ mentioners b ks p.tags := by
  obtain ⟨is, n, o, p', hp, h⟩ := h
  obtain ⟨-, -, -, rfl⟩ := place_unique hq (place_part hp)
  refine List.mem_map.2 ⟨⟨is, n, js, q, p'⟩, List.mem_filter.2 ⟨(mem_spots _).2 hp, ?_⟩, rfl⟩
  simp only [Bool.and_eq_true, Bool.or_eq_true, List.isPrefixOf_iff_prefix, List.all_eq_true, Bool.not_eq_true', decide_eq_true_eq, List.any_eq_true]
  rcases h with h | ⟨-, ⟨h1, h2⟩ | h⟩
  · exact .inl (.inl h)
  · refine .inl (.inr ⟨⟨h1, h2.1⟩, fun i hi => ?_⟩)
    by_cases hc : (is <+: i.ks ∧ i.ks <+: ks) ∧ i.ks ≠ ks
    · exact .inr (h2.2.2 _ _ _ _ _ ((mem_spots i).1 hi) hc.1.1 hc.1.2 hc.2)
    · refine .inl ?_
      rw [Bool.eq_false_iff]
      intro hn
      rw [Bool.and_eq_true, Bool.and_eq_true, List.isPrefixOf_iff_prefix, List.isPrefixOf_iff_prefix, decide_eq_true_eq] at hn
      exact hc hn
  · exact .inr h

end Booklit.Ms
