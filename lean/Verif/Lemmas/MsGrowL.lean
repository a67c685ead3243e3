import Verif.Spec.MsGrow
import Verif.Spec.MsRefs
import Verif.Lemmas.MsEditL
import Verif.Lemmas.MsCheck

/-!
Manuscripts with another section.
-/

namespace Booklit.Ms

open Booklit

variable {b : Part} {qs : List Part} {ks : List Nat}

theorem add_same (qs : List Part) (r : List Nat) (p : Part) : (p.add qs r).title = p.title ∧ (p.add qs r).name = p.name ∧ (p.add qs r).split = p.split ∧
    (p.add qs r).body = p.body ∧ (p.add qs r).tags = p.tags := by
  cases p
  cases r <;> exact ⟨rfl, rfl, rfl, rfl, rfl⟩

theorem add_subs_nil (qs : List Part) (p : Part) : (p.add qs []).subs = p.subs ++ qs := by cases p; rfl

theorem add_subs_cons (qs : List Part) (k : Nat) (r : List Nat) (p : Part) : (p.add qs (k :: r)).subs = p.subs.modify k (Part.add qs r) := by cases p; rfl

theorem append_eq_append {α : Type} {js r r' ks : List α} (h : ks = js ++ r) (h' : ks = js ++ r') : r = r' :=
  List.append_cancel_left (h.symm.trans h')

/-- How a section is changed. -/
structure Grown (qs : List Part) (ks js : List Nat) (p p' : Part) : Prop where
  above : ∀ r, ks = js ++ r → p' = p.add qs r
  aside : (∀ r, ks ≠ js ++ r) → p' = p

theorem Grown.same {js : List Nat} {p p' : Part} (h : Grown qs ks js p p') :
    p'.title = p.title ∧ p'.name = p.name ∧ p'.split = p.split ∧ p'.body = p.body ∧ p'.tags = p.tags := by
  by_cases hr : ∃ r, ks = js ++ r
  · obtain ⟨r, e⟩ := hr
    rw [h.above r e]
    exact add_same qs r p
  · rw [h.aside fun r e => hr ⟨r, e⟩]
    exact ⟨rfl, rfl, rfl, rfl, rfl⟩

theorem Grown.get {js : List Nat} {p p' : Part} (h : Grown qs ks js p p') {k : Nat} {c : Part} (hc : p.subs[k]? = some c) :
    ∃ c', p'.subs[k]? = some c' ∧ Grown qs ks (js ++ [k]) c c' := by
  by_cases hr : ∃ r, ks = js ++ r
  · obtain ⟨r, e⟩ := hr
    have hp := h.above r e
    subst hp
    cases r with
    | nil =>
      have hlt : k < p.subs.length := (List.getElem?_eq_some_iff.1 hc).1
      refine ⟨c, by rw [add_subs_nil, List.getElem?_append_left hlt, hc], fun r' e' => ?_, fun _ => rfl⟩
      rw [e, List.append_assoc] at e'
      cases append_eq_append rfl e'
    | cons k' r =>
      by_cases hk : k' = k
      · subst hk
        refine ⟨c.add qs r, by rw [add_subs_cons, List.getElem?_modify, hc]; simp, fun r' e' => ?_, fun hn => absurd ?_ (hn r)⟩
        · rw [e, List.append_assoc] at e'
          cases append_eq_append rfl e'
          rfl
        · rw [e, List.append_assoc]; rfl
      · refine ⟨c, by rw [add_subs_cons, List.getElem?_modify, hc]; simp [hk], fun r' e' => ?_, fun _ => rfl⟩
        rw [e, List.append_assoc] at e'
        cases append_eq_append rfl e'
        exact absurd rfl hk
  · have hp := h.aside fun r e => hr ⟨r, e⟩
    subst hp
    exact ⟨c, hc, fun r e => absurd (by rw [e, List.append_assoc]) (fun e' => hr ⟨[k] ++ r, e'⟩), fun _ => rfl⟩

/-- All sections are still where they were. -/
theorem add_place {js os : List Nat} {n : Nat} {o p : Part} (h : Place b js n os o p) :
    ∃ o' p', Place (b.add qs ks) js n os o' p' ∧ Grown qs ks js p p' ∧ Grown qs ks os o o' := by
  induction h with
  | top =>
    have g : Grown qs ks [] b (b.add qs ks) := ⟨fun r e => by rw [e]; rfl, fun hn => absurd rfl (hn ks)⟩
    exact ⟨_, _, .top, g, g⟩
  | @page js n os o p c k _ hs hk ih =>
    obtain ⟨o', p', h1, h2, h3⟩ := ih
    obtain ⟨c', h4, h5⟩ := h2.get hk
    exact ⟨c', c', .page h1 (by rw [h2.same.2.2.1, hs]) h4, h5, h5⟩
  | @same js n os o p c k _ hs hk ih =>
    obtain ⟨o', p', h1, h2, h3⟩ := ih
    obtain ⟨c', h4, h5⟩ := h2.get hk
    exact ⟨o', c', .same h1 (by rw [h2.same.2.2.1, hs]) h4, h5, h3⟩

theorem Grown.back {js : List Nat} {p p' : Part} (h : Grown qs ks js p p') {k : Nat} {c' : Part} (hc : p'.subs[k]? = some c') :
    (∃ c, p.subs[k]? = some c) ∨ js = ks ∧ p.subs.length ≤ k := by
  by_cases hr : ∃ r, ks = js ++ r
  · obtain ⟨r, e⟩ := hr
    have hp := h.above r e
    subst hp
    have hlt := (List.getElem?_eq_some_iff.1 hc).1
    cases r with
    | nil =>
      rw [add_subs_nil, List.length_append] at hlt
      by_cases hk : p.subs.length ≤ k
      · exact .inr ⟨by rw [e, List.append_nil], hk⟩
      · have hlt' : k < p.subs.length := by omega
        exact .inl ⟨_, List.getElem?_eq_getElem hlt'⟩
    | cons k' r =>
      rw [add_subs_cons, List.length_modify] at hlt
      exact .inl ⟨_, List.getElem?_eq_getElem hlt⟩
  · have hp := h.aside fun r e => hr ⟨r, e⟩
    subst hp
    exact .inl ⟨_, hc⟩

/-- Sections are where they were, or they are in what is new. -/
theorem place_add {l : Nat} {os0 : List Nat} {o0 p0 : Part} (hs : Place b ks l os0 o0 p0) {js os : List Nat} {n : Nat} {o' p' : Part}
    (h : Place (b.add qs ks) js n os o' p') : (∃ o p, Place b js n os o p) ∨ ∃ k, p0.subs.length ≤ k ∧ ks ++ [k] <+: js := by
  induction h with
  | top => exact .inl ⟨_, _, .top⟩
  | @page js n os o' p' c' k hp hsp hk ih =>
    rcases ih with ⟨o, p, h1⟩ | ⟨i, hi, r, e⟩
    · obtain ⟨o2, p2, h2, h3, -⟩ := add_place (qs := qs) (ks := ks) h1
      obtain ⟨-, -, -, rfl⟩ := place_unique h2 hp
      rcases h3.back hk with ⟨c, h4⟩ | ⟨rfl, hle⟩
      · exact .inl ⟨c, c, .page h1 (by rw [← h3.same.2.2.1, hsp]) h4⟩
      · obtain ⟨-, -, -, rfl⟩ := place_unique hs h1
        exact .inr ⟨k, hle, [], by rw [List.append_nil]⟩
    · exact .inr ⟨i, hi, r ++ [k], by rw [← e, List.append_assoc (ks ++ _)]⟩
  | @same js n os o' p' c' k hp hsp hk ih =>
    rcases ih with ⟨o, p, h1⟩ | ⟨i, hi, r, e⟩
    · obtain ⟨o2, p2, h2, h3, -⟩ := add_place (qs := qs) (ks := ks) h1
      obtain ⟨-, -, -, rfl⟩ := place_unique h2 hp
      rcases h3.back hk with ⟨c, h4⟩ | ⟨rfl, hle⟩
      · exact .inl ⟨o, c, .same h1 (by rw [← h3.same.2.2.1, hsp]) h4⟩
      · obtain ⟨-, -, -, rfl⟩ := place_unique hs h1
        exact .inr ⟨k, hle, [], by rw [List.append_nil]⟩
    · exact .inr ⟨i, hi, r ++ [k], by rw [← e, List.append_assoc (ks ++ _)]⟩

theorem okParts_append : ∀ {ps qs : List Part}, okParts ps → okParts qs → okParts (ps ++ qs)
  | [], _, _, h => h
  | _ :: _, _, h, h' => ⟨h.1, okParts_append h.2 h'⟩

theorem add_ok (hq : okParts qs) : ∀ (ks : List Nat) (p : Part), p.ok → (p.add qs ks).ok
  | [], .mk _ _ _ _ _ _, h => ⟨h.1, h.2.1, h.2.2.1, okParts_append h.2.2.2 hq⟩
  | k :: ks, .mk _ _ _ _ _ subs, h => ⟨h.1, h.2.1, h.2.2.1, okParts_modify (add_ok hq ks) subs k h.2.2.2⟩

/-! ### References -/

theorem aimsParts_append (split : Bool) (page : Str) : ∀ ps qs : List Part, aimsParts split page (ps ++ qs) = aimsParts split page ps ++ aimsParts split page qs
  | [], _ => rfl
  | p :: ps, qs => by rw [List.cons_append, aimsParts, aimsParts, aimsParts_append split page ps qs, List.append_assoc]

theorem aims_none {name : Str} (hn : name ∉ namesParts qs) (split : Bool) (page : Str) : (aimsParts split page qs).filter (fun a => a.1 = name) = [] := by
  rw [List.filter_eq_nil_iff]
  intro a ha e
  refine hn ?_
  rw [← aimsParts_names qs split page, ← of_decide_eq_true e]
  exact List.mem_map_of_mem ha

mutual
theorem aims_add {name : Str} (hn : name ∉ namesParts qs) : ∀ (ks : List Nat) (p : Part) (top : Bool) (page : Str),
    ((p.add qs ks).aims top page).filter (fun a => a.1 = name) = (p.aims top page).filter (fun a => a.1 = name)
  | [], .mk title tags split hide body subs, top, page => by
    rw [Part.add, Part.aims, Part.aims, aimsParts_append]
    simp only [List.filter_append, aims_none hn, List.append_nil]
  | k :: ks, .mk title tags split hide body subs, top, page => by
    rw [Part.add, Part.aims, Part.aims, List.filter_append, List.filter_append _ (aimsParts split page subs), aimsParts_add hn ks k subs split page]
theorem aimsParts_add {name : Str} (hn : name ∉ namesParts qs) : ∀ (ks : List Nat) (k : Nat) (ps : List Part) (split : Bool) (page : Str),
    (aimsParts split page (ps.modify k (Part.add qs ks))).filter (fun a => a.1 = name) = (aimsParts split page ps).filter (fun a => a.1 = name)
  | _, _, [], _, _ => by simp
  | ks, 0, p :: ps, split, page => by
    rw [List.modify_zero_cons, aimsParts, aimsParts, (add_same qs ks p).2.1, List.filter_append, List.filter_append, aims_add hn ks p]
  | ks, k + 1, p :: ps, split, page => by
    rw [List.modify_succ_cons, aimsParts, aimsParts, List.filter_append, List.filter_append, aimsParts_add hn ks k ps]
end

/-- What is not new stands for what it stood for. -/
theorem refTo_add {name : Str} (hn : name ∉ namesParts qs) (page : Str) : refTo (b.add qs ks) page name = refTo b page name := by
  rw [refTo, refTo, (add_same qs ks b).2.1, aims_add hn]

theorem count_modify {f : Part → Part} {name : Str} : ∀ (ps : List Part) (k : Nat) (c : Part), ps[k]? = some c → ∀ m : Nat,
    (f c).names.count name = c.names.count name + m → (namesParts (ps.modify k f)).count name = (namesParts ps).count name + m
  | [], _, _, e, _, _ => by cases e
  | p :: ps, 0, c, e, m, h => by
    cases e
    rw [List.modify_zero_cons, namesParts, namesParts, List.count_append, List.count_append, h]
    omega
  | p :: ps, k + 1, c, e, m, h => by
    rw [List.modify_succ_cons, namesParts, namesParts, List.count_append, List.count_append, count_modify ps k c e m h]
    omega

theorem namesParts_append : ∀ ps qs : List Part, namesParts (ps ++ qs) = namesParts ps ++ namesParts qs
  | [], _ => rfl
  | p :: ps, qs => by rw [List.cons_append, namesParts, namesParts, namesParts_append ps qs, List.append_assoc]

theorem place_kid {ks0 : List Nat} {n0 : Nat} {os0 : List Nat} {o0 p0 : Part} (h0 : Place b ks0 n0 os0 o0 p0) {k : Nat} {n1 : Nat} {os1 : List Nat}
    {o1 p1 : Part} (h1 : Place b (ks0 ++ [k]) n1 os1 o1 p1) : p0.subs[k]? = some p1 := by
  generalize ek : ks0 ++ [k] = ks1 at h1
  cases h1 with
  | top => simp at ek
  | page h2 h3 h4 =>
    obtain ⟨rfl, e2⟩ := List.append_inj' ek rfl
    obtain rfl := (List.cons.inj e2).1
    obtain ⟨rfl, rfl, rfl, rfl⟩ := place_unique h0 h2
    exact h4
  | same h2 h3 h4 =>
    obtain ⟨rfl, e2⟩ := List.append_inj' ek rfl
    obtain rfl := (List.cons.inj e2).1
    obtain ⟨rfl, rfl, rfl, rfl⟩ := place_unique h0 h2
    exact h4

theorem names_add (name : Str) : ∀ (r : List Nat) {js os : List Nat} {n : Nat} {o p : Part}, Place b js n os o p →
    (∃ l os0 o0 p0, Place b (js ++ r) l os0 o0 p0) → (p.add qs r).names.count name = p.names.count name + (namesParts qs).count name
  | [], _, _, _, _, .mk title tags split hide body subs, _, _ => by
    rw [Part.add, Part.names, Part.names, namesParts_append]
    simp only [List.count_append]
    omega
  | k :: r, js, os, n, o, .mk title tags split hide body subs, hp, ⟨l, os0, o0, p0, h0⟩ => by
    have h0 : Place b ((js ++ [k]) ++ r) l os0 o0 p0 := by rw [List.append_assoc]; exact h0
    obtain ⟨_, _, _, c, hc⟩ := place_prefix r h0
    have hk := place_kid hp hc
    have ih := names_add name r hc ⟨_, _, _, _, h0⟩
    rw [Part.add, Part.names, Part.names]
    simp only [List.count_append]
    have := count_modify subs k c hk _ ih
    rw [this]
    omega

mutual
theorem Span.web_congr {r r' : Str → Str × Str} : ∀ s : Span, (∀ x ∈ s.refs, r x = r' x) → s.web r = s.web r'
  | .text _, _ => rfl
  | .code _, _ => rfl
  | .styled f ss, h => by rw [Span.web, Span.web, webSpans_congr ss h]
  | .link ss u, h => by rw [Span.web, Span.web, webSpans_congr ss h]
  | .ref name, h => by rw [Span.web, Span.web, h name (by simp [Span.refs])]
  | .see name ss, h => by
    rw [Span.web, Span.web, h name (by simp [Span.refs]), webSpans_congr ss fun x hx => h x (by rw [Span.refs]; exact List.mem_cons_of_mem _ hx)]
  | .image _ _, _ => rfl
  | .target _ _, _ => rfl
  | .aux ss, h => by rw [Span.web, Span.web, webSpans_congr ss h]
theorem webSpans_congr {r r' : Str → Str × Str} : ∀ ss : List Span, (∀ x ∈ refsSpans ss, r x = r' x) → webSpans r ss = webSpans r' ss
  | [], _ => rfl
  | s :: ss, h => by
    rw [webSpans, webSpans, Span.web_congr s fun x hx => h x (by rw [refsSpans]; exact List.mem_append_left _ hx),
      webSpans_congr ss fun x hx => h x (by rw [refsSpans]; exact List.mem_append_right _ hx)]
end

mutual
theorem Blk.web_congr {r r' : Str → Str × Str} {toc : Str} : ∀ x : Blk, (∀ n ∈ x.refs, r n = r' n) → x.web r toc = x.web r' toc
  | .para ls, h => by
    rw [Blk.web, Blk.web, List.map_congr_left fun l hl => webSpans_congr l fun n hn => h n (by rw [Blk.refs]; exact List.mem_flatMap.2 ⟨l, hl, hn⟩)]
  | .code _, _ => rfl
  | .list o items, h => by
    have e : ∀ l ∈ items, webSpans r l = webSpans r' l := fun l hl => webSpans_congr l fun n hn => h n (by rw [Blk.refs]; exact List.mem_flatMap.2 ⟨l, hl, hn⟩)
    rw [Blk.web, Blk.web, List.flatMap_def, List.flatMap_def, List.map_congr_left fun l hl => by rw [e l hl]]
  | .table rows, h => by
    have e : ∀ row ∈ rows, ∀ l ∈ row, webSpans r l = webSpans r' l := fun row hrow l hl =>
      webSpans_congr l fun n hn => h n (by rw [Blk.refs]; exact List.mem_flatMap.2 ⟨row, hrow, List.mem_flatMap.2 ⟨l, hl, hn⟩⟩)
    rw [Blk.web, Blk.web, List.flatMap_def, List.flatMap_def (l := rows), List.map_congr_left fun row hrow => by
      rw [List.flatMap_def, List.map_congr_left fun l hl => by rw [e row hrow l hl], ← List.flatMap_def]]
  | .defs ds, h => by
    have e : ∀ d ∈ ds, webSpans r d.1 = webSpans r' d.1 ∧ webSpans r d.2 = webSpans r' d.2 := fun d hd =>
      ⟨webSpans_congr d.1 fun n hn => h n (by rw [Blk.refs]; exact List.mem_flatMap.2 ⟨d, hd, List.mem_append_left _ hn⟩),
        webSpans_congr d.2 fun n hn => h n (by rw [Blk.refs]; exact List.mem_flatMap.2 ⟨d, hd, List.mem_append_right _ hn⟩)⟩
    rw [Blk.web, Blk.web, List.flatMap_def, List.flatMap_def, List.map_congr_left fun d hd => by rw [(e d hd).1, (e d hd).2]]
  | .box a bs, h => by rw [Blk.web, Blk.web, webBlks_congr bs h]
  | .toc, _ => rfl
theorem webBlks_congr {r r' : Str → Str × Str} {toc : Str} : ∀ xs : List Blk, (∀ n ∈ refsBlks xs, r n = r' n) → webBlks r toc xs = webBlks r' toc xs
  | [], _ => rfl
  | x :: xs, h => by
    rw [webBlks, webBlks, Blk.web_congr x fun n hn => h n (by rw [refsBlks]; exact List.mem_append_left _ hn),
      webBlks_congr xs fun n hn => h n (by rw [refsBlks]; exact List.mem_append_right _ hn)]
end

mutual
theorem Part.web_congr {r r' : Str → Str × Str} : ∀ (p : Part) (ks : List Nat) (n : Nat) (page : Str), (∀ x ∈ p.shownRefs, r x = r' x) →
    p.web r ks n page = p.web r' ks n page
  | .mk title tags split hide body subs, ks, n, page, h => by
    rw [Part.web, Part.web, webBlks_congr body fun x hx => h x (by rw [Part.shownRefs]; exact List.mem_append_left _ hx)]
    cases split with
    | true => rfl
    | false =>
      have := webParts_congr subs ks 0 n page fun x hx => h x (by rw [Part.shownRefs]; exact List.mem_append_right _ hx)
      rw [this]
theorem webParts_congr {r r' : Str → Str × Str} : ∀ (ps : List Part) (ks : List Nat) (k n : Nat) (page : Str), (∀ x ∈ shownRefsParts ps, r x = r' x) →
    webParts r ks k n page ps = webParts r' ks k n page ps
  | [], _, _, _, _, _ => rfl
  | p :: ps, ks, k, n, page, h => by
    rw [webParts, webParts, Part.web_congr p _ _ _ fun x hx => h x (by rw [shownRefsParts]; exact List.mem_append_left _ hx),
      webParts_congr ps _ _ _ _ fun x hx => h x (by rw [shownRefsParts]; exact List.mem_append_right _ hx)]
end

/-! ### Pages -/

mutual
theorem Blk.web_lists {r : Str → Str × Str} (t t' : Str) : ∀ x : Blk, x.lists = false → x.web r t = x.web r t'
  | .para _, _ => rfl
  | .code _, _ => rfl
  | .list _ _, _ => rfl
  | .table _, _ => rfl
  | .defs _, _ => rfl
  | .box a bs, h => by rw [Blk.web, Blk.web, webBlks_lists t t' bs (by rwa [Blk.lists] at h)]
  | .toc, h => by cases h
theorem webBlks_lists {r : Str → Str × Str} (t t' : Str) : ∀ xs : List Blk, listsBlks xs = false → webBlks r t xs = webBlks r t' xs
  | [], _ => rfl
  | x :: xs, h => by
    rw [listsBlks, Bool.or_eq_false_iff] at h
    rw [webBlks, webBlks, Blk.web_lists t t' x h.1, webBlks_lists t t' xs h.2]
end

theorem webParts_modify {r : Str → Str × Str} {f : Part → Part} {js : List Nat} {n : Nat} {page : Str} : ∀ (ps : List Part) (i k : Nat) (c : Part), ps[k]? = some c →
    (f c).web r (js ++ [i + k]) (n + 1) page = c.web r (js ++ [i + k]) (n + 1) page → webParts r js i n page (ps.modify k f) = webParts r js i n page ps
  | [], _, _, _, e, _ => by cases e
  | p :: ps, i, 0, c, e, h => by
    cases e
    rw [List.modify_zero_cons, webParts, webParts]
    rw [Nat.add_zero] at h
    rw [h]
  | p :: ps, i, k + 1, c, e, h => by
    rw [List.modify_succ_cons, webParts, webParts, webParts_modify ps (i + 1) k c e (by rwa [show i + 1 + k = i + (k + 1) by omega])]

theorem webEntries_modify {f : Part → Part} {js : List Nat} {split : Bool} {page : Str} (hf : ∀ p, (f p).name = p.name ∧ (f p).title = p.title) :
    ∀ (ps : List Part) (i k : Nat) (c : Part), ps[k]? = some c → (∀ page, (f c).webToc (js ++ [i + k]) page = c.webToc (js ++ [i + k]) page) →
      webEntries js i split page (ps.modify k f) = webEntries js i split page ps
  | [], _, _, _, e, _ => by cases e
  | p :: ps, i, 0, c, e, h => by
    cases e
    rw [List.modify_zero_cons, webEntries, webEntries]
    rw [Nat.add_zero] at h
    simp only [(hf p).1, (hf p).2, h]
  | p :: ps, i, k + 1, c, e, h => by
    rw [List.modify_succ_cons, webEntries, webEntries, webEntries_modify hf ps (i + 1) k c e (by rwa [show i + 1 + k = i + (k + 1) by omega])]

/-- Tables of contents that do not go down to what is new are the same. -/
theorem toc_add {is is' : List Nat} {n' : Nat} {o' p' : Part} (hi : Place b is n' is' o' p') (hh : p'.hide = true) (hik : is <+: ks) :
    ∀ (r : List Nat) {js os : List Nat} {n : Nat} {o p : Part}, Place b js n os o p → ks = js ++ r → js <+: is → ∀ page : Str,
      (Part.add qs r p).webToc js page = p.webToc js page
  | [], js, os, n, o, .mk title tags split hide body subs, hp, e, hji, page => by
    rw [List.append_nil] at e
    subst e
    obtain rfl := List.IsPrefix.eq_of_length hji (Nat.le_antisymm hji.length_le hik.length_le)
    obtain ⟨-, -, -, rfl⟩ := place_unique hi hp
    have hh : hide = true := hh
    rw [Part.add, Part.webToc, Part.webToc, hh, Bool.or_true, Bool.or_true, if_pos rfl, if_pos rfl]
  | k :: r, js, os, n, o, .mk title tags split hide body subs, hp, e, hji, page => by
    cases hide with
    | true => rw [Part.add, Part.webToc, Part.webToc, Bool.or_true, Bool.or_true, if_pos rfl, if_pos rfl]
    | false =>
      obtain ⟨u, rfl⟩ := hji
      obtain ⟨v, hv⟩ := hik
      rw [e, List.append_assoc] at hv
      have hv := List.append_cancel_left hv
      cases u with
      | nil =>
        rw [List.append_nil] at hi
        obtain ⟨-, -, -, rfl⟩ := place_unique hi hp
        cases hh
      | cons k' u =>
        obtain ⟨rfl, hv⟩ := List.cons.inj hv
        have hc : Place b ((js ++ [k']) ++ u) n' is' o' p' := by rw [List.append_assoc]; exact hi
        obtain ⟨n1, os1, o1, c, hc1⟩ := place_prefix u hc
        have hk : subs[k']? = some c := place_kid hp hc1
        have ih := toc_add hi hh ⟨v, by rw [e, List.append_assoc, ← hv]; first | done | rfl⟩ r hc1 (by rw [e, List.append_assoc]; rfl) ⟨u, by rw [List.append_assoc]; rfl⟩
        rw [Part.add, Part.webToc, Part.webToc, webEntries_modify (fun p => ⟨(add_same qs r p).2.1, (add_same qs r p).1⟩) subs 0 k' c hk
          (by rw [Nat.zero_add]; exact ih)]
        cases subs with
        | nil => cases hk
        | cons a as => cases k' <;> rfl

theorem body_add {os : List Nat} (ht : ¬ Tells b ks os) (w : Str → Str × Str) (page : Str) {r js : List Nat} {n : Nat} {o p : Part}
    (hp : Place b js n os o p) (e : ks = js ++ r) :
    webBlks w ((Part.add qs r p).webToc js page) p.body = webBlks w (p.webToc js page) p.body := by
  cases hb : listsBlks p.body with
  | false => exact webBlks_lists _ _ _ hb
  | true =>
    by_cases hg : GoesTo b ks js
    · exact absurd ⟨js, n, o, p, hp, ⟨r, e.symm⟩, .inl ⟨hb, hg⟩⟩ ht
    · have : ∃ is n' is' o' p', Place b is n' is' o' p' ∧ js <+: is ∧ is <+: ks ∧ p'.hide = true := by
        refine Classical.byContradiction fun hn => hg fun is n' is' o' p' h1 h2 h3 => ?_
        cases h4 : p'.hide with
        | false => rfl
        | true => exact absurd ⟨is, n', is', o', p', h1, h2, h3, h4⟩ hn
      obtain ⟨is, n', is', o', p', h1, h2, h3, h4⟩ := this
      rw [toc_add h1 h4 h3 r hp e h2]

/-- Sections on pages that do not tell look the same. -/
theorem web_add {os : List Nat} (ht : ¬ Tells b ks os) (w : Str → Str × Str) (page : Str) : ∀ (r : List Nat) {js : List Nat} {n : Nat} {o p : Part},
    Place b js n os o p → ks = js ++ r → (∃ l os0 o0 p0, Place b ks l os0 o0 p0) → (p.add qs r).web w js n page = p.web w js n page
  | [], js, n, o, .mk title tags split hide body subs, hp, e, _ => by
    have hbody := body_add (qs := qs) ht w page hp e
    rw [List.append_nil] at e
    have hsp : split = true := by
      cases split with
      | true => rfl
      | false => exact absurd ⟨js, n, o, _, hp, ⟨[], by rw [e, List.append_nil]⟩, .inr ⟨e.symm, rfl⟩⟩ ht
    subst hsp
    rw [Part.add] at hbody ⊢
    rw [Part.web, Part.web]
    have hbody : webBlks w _ body = webBlks w _ body := hbody
    rw [hbody]
    rfl
  | k :: r, js, n, o, .mk title tags split hide body subs, hp, e, ⟨l, os0, o0, p0, h0⟩ => by
    have hbody := body_add (qs := qs) ht w page hp e
    rw [Part.add] at hbody ⊢
    rw [Part.web, Part.web]
    have hbody : webBlks w _ body = webBlks w _ body := hbody
    rw [hbody]
    cases split with
    | true => rfl
    | false =>
      have h0' : Place b ((js ++ [k]) ++ r) l os0 o0 p0 := by rw [List.append_assoc]; rw [e] at h0; exact h0
      obtain ⟨_, _, _, c, hc⟩ := place_prefix r h0'
      have hk : subs[k]? = some c := place_kid hp hc
      have ih := web_add ht w page r (.same hp rfl hk) (by rw [e, List.append_assoc]; rfl) ⟨_, _, _, _, h0⟩
      have := webParts_modify (f := Part.add qs r) (r := w) (js := js) (n := n) (page := page) subs 0 k c hk (by rw [Nat.zero_add]; exact ih)
      rw [this]

mutual
/-- What is shown with a section is referred to in some section. -/
theorem shown_refs {x : Str} : ∀ (p : Part) {js os : List Nat} {n : Nat} {o : Part}, Place b js n os o p → x ∈ p.shownRefs →
    ∃ js' n' os' o' p', Place b js' n' os' o' p' ∧ x ∈ refsBlks p'.body
  | .mk title tags split hide body subs, js, os, n, o, hp, hx => by
    rw [Part.shownRefs, List.mem_append] at hx
    rcases hx with hx | hx
    · exact ⟨_, _, _, _, _, hp, hx⟩
    · cases split with
      | true => cases hx
      | false => exact shown_refsL subs hx fun k c hk => ⟨_, _, _, _, .same hp rfl hk⟩
theorem shown_refsL {x : Str} : ∀ (ps : List Part), x ∈ shownRefsParts ps → (∀ (k : Nat) (c : Part), ps[k]? = some c → ∃ js n os o, Place b js n os o c) →
    ∃ js' n' os' o' p', Place b js' n' os' o' p' ∧ x ∈ refsBlks p'.body
  | [], h, _ => by cases h
  | p :: ps, h, hp => by
    rw [shownRefsParts, List.mem_append] at h
    rcases h with h | h
    · obtain ⟨_, _, _, _, h1⟩ := hp 0 p rfl
      exact shown_refs p h1 h
    · exact shown_refsL ps h fun k c hk => hp (k + 1) c hk
end

/-- Pages that do not tell are the same. -/
theorem page_add (hu : Unasked b qs) {l : Nat} {os0 : List Nat} {o0 p0 : Part} (hs : Place b ks l os0 o0 p0) {js : List Nat} {p p' : Part}
    (hp : Place b js 1 js p p) (g : Grown qs ks js p p') (ht : ¬ Tells b ks js) : webPage (Part.add qs ks b) js p' = webPage b js p := by
  have e : ∀ w, p'.web w js 1 p.name = p.web w js 1 p.name := by
    intro w
    by_cases hr : ∃ r, ks = js ++ r
    · obtain ⟨r, e⟩ := hr
      rw [g.above r e]
      exact web_add ht w _ r hp e ⟨_, _, _, _, hs⟩
    · rw [g.aside fun r e => hr ⟨r, e⟩]
  rw [webPage, webPage, webShown, webShown, g.same.1, g.same.2.1, e, Part.web_congr p js 1 p.name fun x hx => ?_]
  obtain ⟨_, _, _, _, _, h1, h2⟩ := shown_refs p hp hx
  exact refTo_add (hu _ _ _ _ _ h1 x h2) _

theorem unasked_of_refs (h : RefsOk b) (h' : RefsOk (Part.add qs ks b)) {l : Nat} {os0 : List Nat} {o0 p0 : Part} (hs : Place b ks l os0 o0 p0) : Unasked b qs := by
  intro js n os o p hp name hn hin
  obtain ⟨o', p', h1, g, -⟩ := add_place (qs := qs) (ks := ks) hp
  have e := h' _ _ _ _ _ h1 name (by rw [g.same.2.2.2.1]; exact hn)
  rw [names_add name ks .top ⟨_, _, _, _, hs⟩, h _ _ _ _ _ hp name hn] at e
  have := List.count_pos_iff.2 hin
  omega

theorem apart_add (hp : PagesApart (Part.add qs ks b)) : PagesApart b := by
  intro js p h
  obtain ⟨_, p', h1, g, -⟩ := add_place (qs := qs) (ks := ks) h
  obtain ⟨-, -, -, rfl⟩ := place_unique h1 (place_part h1)
  refine ⟨by rw [← g.same.2.1]; exact (hp _ _ h1).1, fun js2 p2 h2 e => ?_⟩
  obtain ⟨_, p2', h3, g2, -⟩ := add_place (qs := qs) (ks := ks) h2
  obtain ⟨-, -, -, rfl⟩ := place_unique h3 (place_part h3)
  exact (hp _ _ h1).2 _ _ h3 (by rw [g.same.2.1, g2.same.2.1, e])

/-! ### Checks -/

/-- The names of the pages that tell. -/
def tellers (b : Part) (ks : List Nat) : List Str :=
  let l := spots [] 1 [] none b
  (l.filter fun e => e.ks.isPrefixOf ks &&
    (listsBlks e.p.body && (l.all fun i => !(e.ks.isPrefixOf i.ks && i.ks.isPrefixOf ks) || !i.p.hide) || decide (e.ks = ks) && !e.p.split)).map (·.o.name)

theorem mem_tellers {b q : Part} {ks js : List Nat} (hq : Place b js 1 js q q) : Tells b ks js ↔ q.name ∈ tellers b ks ∧ Tells b ks js := by
  refine ⟨fun h => ⟨?_, h⟩, fun h => h.2⟩
  obtain ⟨is, n, o, p, hp, hpre, h⟩ := h
  obtain ⟨-, -, -, rfl⟩ := place_unique hq (place_part hp)
  refine List.mem_map.2 ⟨⟨is, n, js, q, p⟩, List.mem_filter.2 ⟨(mem_spots _).2 hp, ?_⟩, rfl⟩
  simp only [Bool.and_eq_true, Bool.or_eq_true, List.isPrefixOf_iff_prefix, List.all_eq_true, Bool.not_eq_true', decide_eq_true_eq]
  refine ⟨hpre, h.imp (fun h => ⟨h.1, fun i hi => ?_⟩) id⟩
  by_cases hc : is <+: i.ks ∧ i.ks <+: ks
  · exact .inr (h.2 _ _ _ _ _ ((mem_spots i).1 hi) hc.1 hc.2)
  · refine .inl ?_
    rw [Bool.eq_false_iff]
    intro hn
    rw [Bool.and_eq_true, List.isPrefixOf_iff_prefix, List.isPrefixOf_iff_prefix] at hn
    exact hc hn

end Booklit.Ms
