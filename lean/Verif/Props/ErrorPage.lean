import Verif.Lemmas.ReportL
import Verif.Lemmas.RefErrL
import Verif.Lemmas.PrintL
import Verif.Props.Answers
import Verif.Props.Errors
import Verif.Props.Origin

/-!
C75 to C77: the errors that users see, on error pages and on the terminal.
-/

namespace Booklit.Props

open Tree

theorem book_kids {h : Heap} {t : Tree} (b : Book h t) {i : Nat} (hi : i ∈ t.ids) : ∀ c ∈ (h.get i).children, c ∈ t.ids := by
  intro c hc
  obtain ⟨u, hu, rfl⟩ := mem_ids.1 hi
  rw [b.children u hu] at hc
  obtain ⟨k, hk, rfl⟩ := List.mem_map.1 hc
  exact mem_ids.2 ⟨k, hu.kid hk, rfl⟩

theorem book_parents {h : Heap} {t : Tree} (b : Book h t) {i p : Nat} (hi : i ∈ t.ids) (hp : (h.get i).parent = some p) :
    p ∈ t.ids := by
  obtain ⟨u, ⟨ks, hu⟩, rfl⟩ := mem_ids.1 hi
  cases hu with
  | here => rw [b.top] at hp; cases hp
  | @step ks q k _ hq hk =>
    have := b.parent q ⟨_, hq⟩ u (List.mem_of_getElem? hk)
    rw [hp] at this
    cases this
    exact mem_ids.2 ⟨q, ⟨_, hq⟩, rfl⟩

/-- Tags that have been found are those of the book. -/
theorem found_tags {h : Heap} {t : Tree} (b : Book h t) {i : Nat} (hi : i ∈ t.ids) {n : Nat} {name : Str} {gs : List Tag}
    (e : h.findTag n i name = some gs) : gs.Perm (t.tagsNamed h name) := by
  obtain ⟨u, hu, rfl⟩ := mem_ids.1 hi
  obtain ⟨r, hr, hp⟩ := C21_find_tag b u hu name
  rw [hr.of_mono fun m hm => tagsUp_mono _ _ _ _ e m hm]
  exact hp

theorem known_tags {h : Heap} {t : Tree} (b : Book h t) {i : Nat} (hi : i ∈ t.ids) {n : Nat} {gs : List Tag}
    (e : h.tagsUp (fun _ => true) n none i = some gs) : (gs.map Tag.name).Perm (t.tagNames h) := by
  obtain ⟨u, ⟨ks, hu⟩, rfl⟩ := mem_ids.1 hi
  obtain ⟨r, hr, hp⟩ := tagsUp_ends b (fun _ => true) hu none [] (.inl ⟨rfl, rfl⟩)
  rw [hr.of_mono fun m hm => tagsUp_mono _ _ _ _ e m hm]
  rw [List.append_nil] at hp
  have : (Booklit.tagsOf h (fun _ => true) t.ids).map Tag.name = t.tagNames h := by
    have : ∀ l : List Tag, l.filter (fun _ => true) = l := fun l => List.filter_eq_self.2 fun _ _ => rfl
    simp [Booklit.tagsOf, Tree.tagNames, List.map_flatMap, this]
  rw [← this]
  exact hp.map _

/-- **C75**: an error of rendering a page of a loaded book is one of a template, which has no place, or one of a
reference. If it says that a tag is unknown, then a `\reference` to it is written in the file named, there is a call at the
place named, no section of the book has such a tag, and the tags it may suggest are those of the book. If it says that a tag
is ambiguous, then the book has at least two tags of that name and the error lists the places of all of them, each of which
is a call in the file named. Other plugins make no references and targets of their own. -/
theorem C75_reference_errors {W : World} {F : Content → Prop} (hF : W.Makes F) (hm : ∀ c, F c → c.placeless = true)
    (hfs : W.fs [] = none) {n : Nat} {path : Str} {plugins : List Nat} {s s' : St} {i : Nat} (hr : Reach W s)
    (h0 : plugins.head? = some 0) (hl : loadFile W n none path plugins s = (.ok i, s')) {S : Site}
    (hS : ∀ i c, S.force i = some c → ∀ d ∈ c.parts true, d.placeless = true) :
    ∃ t, t.root = i ∧ Book s'.heap t ∧ ∀ o ∈ t.ids, ∀ k e, s'.heap.page S k o = .err e →
      (∃ w, e = .plain w) ∨
      (∃ tag known p l, e = .unknownTag tag known p l ∧ W.RefIn p tag l ∧ t.tagsNamed s'.heap tag = [] ∧
        known.Perm (t.tagNames s'.heap)) ∨
      (∃ tag ds p l, e = .ambiguous tag ds p l ∧ W.RefIn p tag l ∧ 2 ≤ (t.tagsNamed s'.heap tag).length ∧
        (ds.map (·.2)).Perm ((t.tagsNamed s'.heap tag).map Tag.loc) ∧ ∀ d ∈ ds, ∃ fn, W.CallIn d.1 fn d.2) := by
  have hr' : Reach W s' := by
    have := Reach.load n none path plugins hr (by simp) h0
    rw [hl] at this
    exact this
  obtain ⟨t, rfl, b⟩ := C28_loaded_tree hl
  refine ⟨t, rfl, b, fun o ho k e he => ?_⟩
  let R : Nat → Str → Location → Prop := fun j tag l => ∃ p, FileOf s'.heap j p ∧ W.RefIn p tag l
  have shown : ∀ i ∈ t.ids, ∀ c ∈ (s'.heap.get i).shown, c.all (partOk (· ∈ t.ids) R) = true := by
    intro i hi c hc
    refine (all_iff c).2 fun d hd => ?_
    by_cases hlt : i < s'.heap.length
    · obtain ⟨p, f⟩ := FileOf.exists hr'.sound i hlt
      have x := (hr'.between hF hfs).heap i p hlt f
      have ho : Origin W F p i d := by
        simp only [Sec.shown, List.mem_cons, List.mem_map] at hc
        rcases hc with rfl | rfl | ⟨g, hg, rfl⟩
        · exact x.title d hd
        · exact x.body d hd
        · exact (x.tags g hg).2.1 d hd
      cases ho
      case ref h1 h2 h3 h4 =>
        simp only [partOk, decide_eq_true_eq]
        exact ⟨hi, p, f, place_in h4, _, _, _, _, h1, h2, h3⟩
      case toc => simpa [partOk] using hi
      case plugin hp =>
        have := hm d hp
        cases d <;> first | rfl | cases this
      all_goals rfl
    · rw [Heap.get_out hlt] at hc
      simp only [Sec.shown, Sec.fresh, List.map_nil, List.mem_cons, List.not_mem_nil, or_false] at hc
      rcases hc with rfl | rfl
      all_goals
        simp only [Content.parts, List.mem_singleton] at hd
        subst hd
        rfl
  have H : ShownWithin (· ∈ t.ids) (partOk (· ∈ t.ids) R) S s'.heap := {
    title := fun i hi => shown i hi _ (by simp [Sec.shown])
    body := fun i hi => shown i hi _ (by simp [Sec.shown])
    tags := fun i hi g hg => shown i hi _ (by simp only [Sec.shown, List.mem_cons, List.mem_map]; exact .inr (.inr ⟨g, hg, rfl⟩))
    force := fun _ i c _ hc => (all_iff c).2 fun d hd => by
      have := hS i c hc d hd
      cases d <;> first | rfl | cases this
    sect := fun i => by simp [partOk]
    toc := fun i h => by simpa [partOk] using h
    ref := fun s t c o l h => by
      simp only [partOk, decide_eq_true_eq] at h
      exact h.1
    kids := fun i hi => book_kids b hi
    parent := fun i p hi hp => book_parents b hi hp
    str := fun _ => rfl
    strip := partOk_strip _ R }
  refine page_errs (Q := fun e => (∃ w, e = .plain w) ∨
      (∃ tag known p l, e = .unknownTag tag known p l ∧ W.RefIn p tag l ∧ t.tagsNamed s'.heap tag = [] ∧
        known.Perm (t.tagNames s'.heap)) ∨
      (∃ tag ds p l, e = .ambiguous tag ds p l ∧ W.RefIn p tag l ∧ 2 ≤ (t.tagsNamed s'.heap tag).length ∧
        (ds.map (·.2)).Perm ((t.tagsNamed s'.heap tag).map Tag.loc) ∧ ∀ d ∈ ds, ∃ fn, W.CallIn d.1 fn d.2)) ?_ H k o ho e he
  refine ⟨fun w => .inl ⟨w, rfl⟩, fun n j tag c o l p gs ok hp hf hg => .inr (.inl ?_),
    fun n j tag c o l p ds gs ok hp hf h2 hds hd => .inr (.inr ?_)⟩
  · simp only [partOk, decide_eq_true_eq] at ok
    obtain ⟨hj, p', f, hR⟩ := ok
    cases f.filePath hp
    exact ⟨_, _, _, _, rfl, hR, List.nil_perm.1 (found_tags b hj hf), known_tags b hj hg⟩
  · simp only [partOk, decide_eq_true_eq] at ok
    obtain ⟨hj, p', f, hR⟩ := ok
    cases f.filePath hp
    have perm := found_tags b hj hf
    refine ⟨_, _, _, _, rfl, hR, ?_, ?_, fun d hdm => ?_⟩
    · rw [← perm.length_eq]
      exact h2
    · rw [hds]
      exact perm.map _
    · obtain ⟨j', g, i', hj', hg, hn, hi', hloc, hq⟩ := hd d hdm
      have own := C49_own_tags hr' j' g hg
      rw [hi'] at own
      cases own
      have hlt : j' < s'.heap.length := by
        refine Classical.byContradiction fun hlt => ?_
        rw [Heap.get_out hlt] at hg
        cases hg
      obtain ⟨q, f'⟩ := FileOf.exists hr'.sound j' hlt
      cases f'.filePath hq
      rcases (C63_places hF hfs hr' hlt f').2.2.1 g hg with h | h
      · rw [← hloc]
        exact h
      · cases hm _ h

/-! ### The errors of the server -/

theorem places_load {W : World} {G : Err → Prop} (hG : ∀ e, G e → e.places = []) {e : Err} (h : ErrorFrom W G e) : W.Places e := by
  induction h with
  | plain w => intro sp hs; cases hs
  | parse h1 h2 h3 =>
    intro sp hs
    cases List.mem_singleton.1 hs
    exact .inr ⟨_, _, rfl, h1, h2, h3⟩
  | undefined h =>
    intro sp hs
    cases List.mem_singleton.1 hs
    exact .inl ⟨_, call_in h⟩
  | @failed p fn l args e h _ hp ih =>
    intro sp hs
    rcases List.mem_cons.1 hs with rfl | hs
    · exact .inl ⟨_, call_in h⟩
    · cases e with
      | plain w => cases hs
      | _ => cases hp
  | titleTwice h1 h2 =>
    intro sp hs
    rcases List.mem_cons.1 hs with rfl | hs
    · exact .inl (place_in h2)
    · cases List.mem_singleton.1 hs
      exact .inl (place_in h1)
  | plugin h =>
    intro sp hs
    rw [hG _ h] at hs
    cases hs

/-- **C75**: every place told by an error the development server answers a request with is that of a call in the file named,
or, for a parse error, where that file stops to parse. Other plugins make no references and targets of their own, and
their errors do not pretend to have a place. -/
theorem C75_answers {W : World} {F : Content → Prop} {G : Err → Prop} (hF : W.Makes F) (hm : ∀ c, F c → c.placeless = true)
    (hW : W.Fails G) (hG : ∀ e, G e → e.places = []) (hfs : W.fs [] = none) {s : St} (hr : Reach W s) {S : Site}
    (hS : ∀ i c, S.force i = some c → ∀ d ∈ c.parts true, d.placeless = true) {n k : Nat} {input path : Str} {e : Err} {s' : St}
    (h : answer W (htmlEngine S) n k input path s = (.err e, s')) : W.Places e := by
  unfold answer at h
  cases ht : requestTag (htmlEngine S).ext path with
  | none => rw [ht] at h; cases h
  | some name =>
    rw [ht] at h
    dsimp only at h
    cases hl : loadFile W n none input [0] s with
    | mk r s1 =>
      rw [hl] at h
      cases r with
      | panic => cases h
      | more => cases h
      | err x =>
        cases h
        exact places_load hG (C63_error_places hF hW hfs hr n input (by simp) rfl hl)
      | ok i =>
        obtain ⟨t, rfl, b, hp⟩ := C75_reference_errors hF hm hfs hr rfl hl hS
        have hr' : Reach W s1 := by
          have := Reach.load n none input [0] hr (by simp) rfl
          rw [hl] at this
          exact this
        dsimp only at h
        cases hq : s1.heap.requested (htmlEngine S).ext k t.root path with
        | none => rw [hq] at h; cases h
        | some x =>
          rw [hq] at h
          cases x with
          | none => cases h
          | some j =>
            dsimp only at h
            have hj : j ∈ t.ids := by
              unfold Heap.requested at hq
              rw [ht] at hq
              dsimp only at hq
              cases hf : s1.heap.findTag k t.root name with
              | none => rw [hf] at hq; cases hq
              | some gs =>
                rw [hf] at hq
                cases gs with
                | nil => cases hq
                | cons g gs =>
                  simp only [Option.some.injEq] at hq
                  obtain ⟨j', hj', hg⟩ := tagsUp_mem s1.heap (· ∈ t.ids) (fun i hi => book_kids b hi)
                    (fun i p hi hp => book_parents b hi hp) _ _ _ _ _ (mem_ids.2 ⟨t, ⟨[], .here⟩, rfl⟩) hf g (by simp)
                  rw [C49_own_tags hr' j' g hg] at hq
                  cases hq
                  exact hj'
            cases hpg : s1.heap.page S k j with
            | err x =>
              change (Res.map _ (s1.heap.page S k j), s1) = _ at h
              rw [hpg] at h
              cases h
              rcases hp j hj k _ hpg with ⟨w, rfl⟩ | ⟨tag, known, p, l, rfl, hR, _⟩ | ⟨tag, ds, p, l, rfl, hR, _, _, hd⟩
              · intro sp hs; cases hs
              · intro sp hs
                cases List.mem_singleton.1 hs
                exact .inl hR.1
              · intro sp hs
                rcases List.mem_cons.1 hs with rfl | hs
                · exact .inl hR.1
                · obtain ⟨d, hdm, rfl⟩ := List.mem_map.1 hs
                  exact .inl (hd d hdm)
            | _ =>
              change (Res.map _ (s1.heap.page S k j), s1) = _ at h
              rw [hpg] at h
              cases h

/-! ### Error pages -/

/-- Places in files can be shown. -/
theorem place_fine {W : World} {e : Err} (h : W.Places e) (hc : ∀ p l, e = .parse p l → l.col ≠ 0) :
    ∀ sp ∈ e.places, sp.Fine W.bytes := by
  intro sp hs
  refine Spot.fine_of (.inr ?_)
  rcases h sp hs with ⟨fn, info, d, h1, h2, pre, post, rfl, _, hl⟩ | ⟨info, d, he, h1, h2, h3⟩
  · refine ⟨(by rw [hl]; show 1 + _ ≠ 0; omega), utf8 (pre ++ '\\' :: (fn ++ post)), ?_⟩
    obtain ⟨t, ht⟩ := lineInQuestion_some (bs := utf8 (pre ++ '\\' :: (fn ++ post))) (n := sp.loc.line) (by
      rw [count_utf8, (show sp.loc.line = lineOf pre by rw [hl]), lineOf, List.count_append]
      omega)
    exact ⟨t, by simp [World.bytes, h1, h2], ht⟩
  · refine ⟨hc _ _ he, utf8 d, ?_⟩
    obtain ⟨t, ht⟩ := lineInQuestion_some (bs := utf8 d) (n := sp.loc.line) (by
      obtain ⟨pre, post, rfl, _, hw⟩ := C10_error_position_partial d _ h3
      rw [count_utf8, List.count_append]
      rcases hw with ⟨hl, _⟩ | ⟨hn, hl, _⟩
      · rw [hl, lineOf]; omega
      · rw [hl, lineOf]
        cases post with
        | nil => cases hn
        | cons c post => cases hn; rw [List.count_cons]; simp; omega)
    exact ⟨t, by simp [World.bytes, h1, h2], ht⟩

/-- What an error page tells: the headlines of the error and of those it wraps; the files, line numbers and lines of
all its places, with the marked parts; messages of errors that are not booklit's own; suggested tags; explanations. -/
structure Tells (M : Wording) (fs : Disk8) (e : Err) (ds : List Dom) : Prop where
  headlines : ofClass q%"error-message" ds = e.headlines.map fun m => arrivingBytes (utf8 m)
  files : ofClass q%"file-path" ds = e.lines.map fun sp => arrivingBytes (utf8 (sp.path ++ q%":"))
  numbers : ofClass q%"lineno" ds = e.lines.map fun sp => arrivingBytes (lineno sp.loc.line)
  lines : ofClass q%"line" ds = e.lines.map fun sp => (annotatedHTML (fs sp.path) sp.loc sp.len).line
  marks : ofClass q%"annotated" ds = e.lines.flatMap fun sp => (annotatedHTML (fs sp.path) sp.loc sp.len).marks
  messages : ofClass q%"raw-error" ds = (e.raws M).map arrivingBytes
  suggestions : ofName q%"li" ds = (e.suggestions M).map fun t => arrivingBytes (utf8 t)
  notes : ofName q%"p" ds = (e.notes M).map arrivingBytes

/-- **C76**: whatever the error and whatever is in the files and in the messages, if the places of the error can be shown the
error page is well-formed, consists of nothing that does more than show text, and tells all there is to tell, in order. -/
theorem C76_page (M : Wording) (fs : Disk8) {css : Str} (hcss : css.all (fun c => c != '<' && c != '&') = true) (e : Err)
    (h : ∀ sp ∈ e.places, sp.Fine fs) :
    ∃ ds, readHtml (errorResponse M fs css e) = some ds ∧ ReportOnly ds ∧ Tells M fs e ds := by
  obtain ⟨t, ht⟩ := Err.fine (M := M) h
  obtain ⟨x, ds, hd, hs, ho⟩ := Rs.page hcss (Err.reads M fs e t ht)
  refine ⟨ds, ?_, ho, ?_⟩
  · rw [errorResponse, ht]
    exact reads_iff.1 hd
  · have hs := fun {α : Type} (f : Said → α) => congrArg f hs
    exact ⟨hs Said.msg, hs Said.path, hs Said.no, hs Said.line, hs Said.mark, hs Said.raw, hs Said.items, hs Said.notes⟩

/-- **C76**: the error pages of the development server. Whatever the error, unless it is a parse error at the end of a line
(column 0, see `C76_false`), the page is well-formed, does no more than show text, and tells all there is to tell, in order.

Missing: parse errors at the end of a line (`C76_false`). What is shown of a line can be nothing (`C76_false_line`). -/
theorem C76_answers_partial {W : World} {F : Content → Prop} {G : Err → Prop} (hF : W.Makes F) (hm : ∀ c, F c → c.placeless = true)
    (hW : W.Fails G) (hG : ∀ e, G e → e.places = []) (hfs : W.fs [] = none) {s : St} (hr : Reach W s) {S : Site}
    (hS : ∀ i c, S.force i = some c → ∀ d ∈ c.parts true, d.placeless = true) {n k : Nat} {input path : Str} {e : Err} {s' : St}
    (h : answer W (htmlEngine S) n k input path s = (.err e, s')) (hc : ∀ p l, e = .parse p l → l.col ≠ 0) (M : Wording) {css : Str}
    (hcss : css.all (fun c => c != '<' && c != '&') = true) :
    ∃ ds, readHtml (errorResponse M W.bytes css e) = some ds ∧ ReportOnly ds ∧ Tells M W.bytes e ds :=
  C76_page M W.bytes hcss e (place_fine (C75_answers hF hm hW hG hfs hr hS h) hc)

/-- **C76**: the same of a server that has answered requests before, while files changed. -/
theorem C76_served_partial {W : World} (hL : W.Local) {S : Site} (hP : S.Plain) {input : Str} {fs : Files} {past : List Files} {s : St}
    (hs : Served W (htmlEngine S) input (fs :: past) s) {F : Content → Prop} {G : Err → Prop} (hF : (W.on fs).Makes F)
    (hm : ∀ c, F c → c.placeless = true) (hW : (W.on fs).Fails G) (hG : ∀ e, G e → e.places = []) (hfs : fs [] = none)
    (hS : ∀ i c, S.force i = some c → ∀ d ∈ c.parts true, d.placeless = true) {n k n' k' : Nat} (hn : n ≤ n') (hk : k ≤ k') {path : Str}
    (hq : (answer (W.on fs) (htmlEngine S) n k input path ⟨[], []⟩).1 ≠ .more) {e : Err}
    (h : (answer (W.on fs) (htmlEngine S) n' k' input path s).1 = .err e) (hc : ∀ p l, e = .parse p l → l.col ≠ 0) (M : Wording)
    {css : Str} (hcss : css.all (fun c => c != '<' && c != '&') = true) :
    ∃ ds, readHtml (errorResponse M (W.on fs).bytes css e) = some ds ∧ ReportOnly ds ∧ Tells M (W.on fs).bytes e ds := by
  rw [C74_history hL hP hs path hn hk hq] at h
  cases ha : answer (W.on fs) (htmlEngine S) n k input path ⟨[], []⟩ with
  | mk r s1 =>
    rw [ha] at h
    cases h
    exact C76_answers_partial hF hm hW hG hfs .start hS ha hc M hcss

theorem wrote_parse {W : World} {p : Str} {t : Node} (h : W.Wrote p t) :
    ∃ info d, W.fs p = some info ∧ info.data = some d ∧ Peg.parseDoc d = some (.ok (.node t)) := by
  obtain ⟨info, hf, hp⟩ := h
  rw [parseFile] at hp
  cases hd : info.data with
  | none => rw [hd] at hp; cases hp
  | some d =>
    rw [hd] at hp
    dsimp only at hp
    refine ⟨info, d, hf, hd, ?_⟩
    cases ho : Peg.parseDoc d with
    | none => rw [ho] at hp; cases hp
    | some o =>
      rw [ho] at hp
      cases o with
      | ok v => cases v <;> cases hp; rfl
      | _ => cases hp

/-- **C76 (calls)**: if a book cannot be loaded because a function is not there or fails, the error page shows the line that has
the call, in a file without lines of 4096 bytes or more, and if what precedes the call on its line is ASCII, the call is marked.
If it was not ASCII something else is marked (`C50_false_bytes`). -/
theorem C76_call_partial {W : World} {F : Content → Prop} {G : Err → Prop} (hF : W.Makes F) (hW : W.Fails G)
    (hG : ∀ e, G e → e.places = []) (hfs : W.fs [] = none) {s : St} (hr : Reach W s) {n : Nat} {parent : Option Nat} {path : Str}
    {plugins : List Nat} (hp : ∀ q, parent = some q → q < s.heap.length) (h0 : plugins.head? = some 0) {e : Err} {s' : St}
    (he : loadFile W n parent path plugins s = (.err e, s')) {fn p : Str} {l : Location}
    (hc : e = .undefined fn p l ∨ ∃ x, e = .failed fn x p l)
    (hs : ∀ info d, W.fs p = some info → info.data = some d → ShortLines 4096 d) (M : Wording) {css : Str}
    (hcss : css.all (fun c => c != '<' && c != '&') = true) :
    ∃ info d a b, W.fs p = some info ∧ info.data = some d ∧ LineAt d l.line (a ++ ('\\' :: fn) ++ b) ∧
      (∀ c ∈ b.head?, isFnChar c = false) ∧
      ∃ ds, readHtml (errorResponse M W.bytes css e) = some ds ∧
        ofClass q%"file-path" ds = [arrivingBytes (utf8 (p ++ q%":"))] ∧ ofClass q%"lineno" ds = [arrivingBytes (lineno l.line)] ∧
        ofClass q%"line" ds = [arrivingBytes (utf8 (a ++ ('\\' :: fn) ++ b))] ∧
        (Ascii a → ofClass q%"annotated" ds = [arrivingBytes (utf8 ('\\' :: fn))]) := by
  have from' := C63_error_places hF hW hfs hr n path hp h0 he
  have hpl : W.Places e := places_load hG from'
  have key : ∃ args, W.Has p (.invoke fn args l) ∧ e.places = [⟨p, l, (utf8 ('\\' :: fn)).length⟩] := by
    cases from' with
    | plain w => rcases hc with h | ⟨_, h⟩ <;> cases h
    | parse _ _ _ => rcases hc with h | ⟨_, h⟩ <;> cases h
    | undefined h =>
      rcases hc with hc | ⟨_, hc⟩ <;> cases hc
      exact ⟨_, h, rfl⟩
    | @failed _ _ _ _ x h _ hx =>
      rcases hc with hc | ⟨_, hc⟩ <;> cases hc
      refine ⟨_, h, ?_⟩
      cases x with
      | plain w => rfl
      | _ => cases hx
    | titleTwice _ _ => rcases hc with h | ⟨_, h⟩ <;> cases h
    | plugin h =>
      have := hG _ h
      rcases hc with rfl | ⟨_, rfl⟩ <;> cases this
  obtain ⟨args, ⟨t, hw, hm⟩, hpe⟩ := key
  obtain ⟨info, d, h1, h2, h3⟩ := wrote_parse hw
  obtain ⟨a, b, hl, hb, _, ⟨x, y, z, hx, hxyz⟩, hA⟩ := C50_call_partial d t h3 (hs info d h1 h2) fn args l hm
  have hlen : (utf8 ('\\' :: fn)).length = fn.length + 1 := by
    rw [utf8_ascii_length (fn_ascii ((C08_tree_shape _ t h3).2.2.2 fn args _ hm).2).1]; rfl
  refine ⟨info, d, a, b, h1, h2, hl, hb, ?_⟩
  obtain ⟨ds, hd, _, T⟩ := C76_page M W.bytes hcss e (place_fine hpl (by
    rintro q m rfl
    rcases hc with h | ⟨_, h⟩ <;> cases h))
  have hW8 : W.bytes p = some (utf8 d) := by simp [World.bytes, h1, h2]
  have hl0 : (l.line != 0) = true := by
    obtain ⟨pre, _, _, e, _⟩ := hl
    rw [e, lineOf, bne_iff_ne]
    omega
  have hlines : e.lines = [⟨p, l, fn.length + 1⟩] := by
    rw [Err.lines, hpe, hlen, List.filter_cons, if_pos hl0]
    rfl
  refine ⟨ds, hd, ?_, ?_, ?_, fun ha => ?_⟩
  · rw [T.files, hlines]; rfl
  · rw [T.numbers, hlines]; rfl
  · rw [T.lines, hlines]
    simp only [List.map_cons, List.map_nil, hW8, hx, Snippet.line, hxyz]
  · rw [T.marks, hlines]
    simp only [List.flatMap_cons, List.flatMap_nil, hW8, hA ha, Snippet.marks, List.append_nil]

/-! ### Reports on the terminal -/

/-- What a report on the terminal tells. -/
structure Reports (M : Wording) (fs : Disk8) (e : Err) (report : List Byte) : Prop where
  /-- It ends with a line feed. -/
  ended : Ended report
  /-- It begins with the file, the line and what happened. -/
  opening : ∀ sp rest, e.places = sp :: rest → ∃ post,
    report = utf8 (sp.path ++ (if sp.loc.line = 0 then [] else ':' :: decimal sp.loc.line) ++ q%": ") ++ e.says M ++ [10, 10] ++ post
  /-- The line of each place is there, and carets directly below it. -/
  places : ∀ sp ∈ e.places, ∀ line pad carets, annotateLocation (fs sp.path) sp.loc sp.len = .shown line pad carets →
    ∃ k, PrintsBelow report k line (caretLine pad carets)
  /-- The message of an error that is none of booklit's own, in yellow if it is that of a function. -/
  plain : ∀ w, e = .plain w → report = M.plain w ++ [10]
  inner : ∀ fn w p l, e = .failed fn (.plain w) p l → PrintsText report (utf8 q%"\x1b[33m" ++ M.plain w ++ utf8 q%"\x1b[0m\n")
  /-- The similar tags. -/
  similar : ∀ t known p l, e = .unknownTag t known p l →
    (∀ g ∈ known, M.similar t g = true → PrintsText report (utf8 (q%"- " ++ g ++ q%"\n"))) ∧
    ((∀ g ∈ known, M.similar t g = false) → PrintsText report (utf8 q%"I couldn't find any similar tags. :(\n"))
  /-- The places of the tags of an ambiguous reference, each below the name of its file. -/
  defined : ∀ t ds p l, e = .ambiguous t ds p l → ∀ d ∈ ds, ∀ line pad carets,
    annotateLocation (fs d.1) d.2 0 = .shown line pad carets →
    PrintsText report (utf8 (q%"- " ++ d.1 ++ q%":\n") ++ [32, 32] ++ line ++ [10] ++ [32, 32] ++ caretLine pad carets ++ [10])

/-- **C77**: the report of any error, whatever is in the files and in the messages: it begins with the file, the line and what
happened; the line of each place is printed with carets below it, also inside the reports of errors that wrap others;
similar tags and the places of ambiguous ones are listed. Nothing is held back, since every report ends with a line feed. -/
theorem C77_report (M : Wording) (fs : Disk8) (e : Err) : Reports M fs e (e.print M fs) where
  ended := Err.print_ended M fs e
  opening := by
    intro sp rest h
    cases e with
    | plain w => cases h
    | parse p l =>
      cases h
      rw [Err.print, head_eq]
      exact ⟨_, rfl⟩
    | undefined fn p l =>
      cases h
      rw [Err.print, head_eq]
      exact ⟨_, rfl⟩
    | failed fn e p l =>
      obtain ⟨X, hX, _⟩ := print_failed M fs fn e p l
      rw [hX, head_eq]
      cases h
      exact ⟨(Err.failed fn e p l).spot.print M fs ++ X, by rw [List.append_assoc _ _ X]; rfl⟩
    | titleTwice p first l =>
      cases h
      rw [Err.print, head_eq]
      exact ⟨_, by simp only [List.append_assoc]; rfl⟩
    | unknownTag t known p l =>
      cases h
      rw [Err.print, head_eq]
      exact ⟨_, by simp only [List.append_assoc]; rfl⟩
    | ambiguous t ds p l =>
      cases h
      rw [Err.print, head_eq]
      exact ⟨_, by simp only [List.append_assoc]; rfl⟩
  places := Err.print_shows M fs e
  plain := by
    rintro w rfl
    rw [Err.print]
  inner := by
    rintro fn w p l rfl
    rw [Err.print]
    exact (PrintsText.self _).right ((Spot.head_ended ..).append (Spot.print_ended ..))
  similar := by
    rintro t known p l rfl
    rw [Err.print]
    refine ⟨fun g hg hs => ?_, fun h => ?_⟩
    · have hm : g ∈ M.like t known := List.mem_filter.2 ⟨hg, hs⟩
      rw [if_neg (List.ne_nil_of_mem hm)]
      exact PrintsText.right ((listed hm).right (.after (by decide))).left ((Spot.head_ended ..).append (Spot.print_ended ..))
    · have : M.like t known = [] := by
        rw [Wording.like, List.filter_eq_nil_iff]
        intro g hg
        rw [h g hg]
        decide
      rw [if_pos this]
      exact (PrintsText.self _).right ((Spot.head_ended ..).append (Spot.print_ended ..))
  defined := by
    rintro t ds p l rfl d hd line pad carets h
    rw [Err.print]
    exact PrintsText.left ((defined_listed hd h).right (((Spot.head_ended ..).append (Spot.print_ended ..)).append (.after (by decide))))

/-- **C77 (places)**: for every error of the server, and of loading a book: if the place it tells is that of a call, in a file
without lines of 4096 bytes or more, then the report has the line of the call, and below it carets that begin below the
backslash, however the characters before it are encoded. -/
theorem C77_places_partial {W : World} {e : Err} (h : W.Places e) (hc : ∀ p l, e ≠ .parse p l)
    (hs : ∀ p info d, W.fs p = some info → info.data = some d → ShortLines 4096 d) (M : Wording) :
    ∀ sp ∈ e.places, ∃ info d a b, W.fs sp.path = some info ∧ info.data = some d ∧ LineAt d sp.loc.line (a ++ '\\' :: b) ∧
      sp.loc.col = a.length + 1 ∧
      ∃ k, PrintsBelow (e.print M W.bytes) k (gutter sp.loc.line ++ utf8 (a ++ '\\' :: b))
        (caretLine ((gutter sp.loc.line).length + a.length) sp.len) := by
  intro sp hsp
  rcases h sp hsp with ⟨fn, info, d, h1, h2, pre, post, rfl, _, hl⟩ | ⟨_, _, he, _⟩
  · obtain ⟨a, b, hla, hca, _, q, hq⟩ := line_around pre ['\\'] (fn ++ post) (by decide) (by simp) (by decide)
    have e1 : a ++ ['\\'] ++ b = a ++ '\\' :: b := by simp
    have e2 : pre ++ (['\\'] ++ (fn ++ post)) = pre ++ '\\' :: (fn ++ post) := by simp
    have hline : sp.loc.line = lineOf pre := by rw [hl]
    rw [e1, e2, ← hline] at hla
    have hcol : sp.loc.col = a.length + 1 := (show sp.loc.col = colOf pre by rw [hl]).trans hca
    refine ⟨info, _, a, b, h1, h2, hla, hcol, (C77_report M W.bytes e).places sp hsp _ _ _ ?_⟩
    have hq := C50_line hla (hs _ _ _ h1 h2)
    have h0 : sp.loc.line ≠ 0 := by
      rw [hl]
      show 1 + _ ≠ 0
      omega
    rw [annotateLocation, if_neg h0]
    simp only [World.bytes, h1, h2, Option.bind_some, Option.map_some, hq]
    rw [show (gutter sp.loc.line).length + sp.loc.col - 1 = (gutter sp.loc.line).length + a.length by omega]
  · exact absurd he (hc _ _)

/-! ### What is not so, and examples -/

/-- **C76**: a parse error at the end of a line has no page: what is answered is the beginning of one and the message that it could
not be made, as it is. -/
theorem C76_newline {W : World} {p : Str} {l : Location} (h : W.Places (.parse p l)) (h0 : l.col = 0) (M : Wording) (css : Str) :
    errorResponse M W.bytes css (.parse p l) =
      errorPageStart css ++ q%"failed to render error page: " ++ latin (M.broken ⟨p, l, 1⟩) := by
  rcases h ⟨p, l, 1⟩ (by simp [Err.places]) with ⟨fn, info, d, h1, h2, pre, post, rfl, _, hl⟩ | ⟨info, d, he, h1, h2, h3⟩
  · have : l.col = colOf pre := by rw [show l = _ from hl]
    have : colOf pre = 0 := this.symm.trans h0
    obtain ⟨a, _, _, hca, _⟩ := line_around pre ['\\'] [] (by decide) (by simp) (by decide)
    omega
  · obtain ⟨t, ht⟩ := lineInQuestion_some (bs := utf8 d) (n := l.line) (by
      obtain ⟨pre, post, rfl, _, hw⟩ := C10_error_position_partial d _ h3
      rw [count_utf8, List.count_append]
      rcases hw with ⟨hl, _⟩ | ⟨hn, hl, _⟩
      · rw [show l.line = _ from hl, lineOf]; omega
      · rw [show l.line = _ from hl, lineOf]
        cases post with
        | nil => cases hn
        | cons c post => cases hn; rw [List.count_cons]; simp; omega)
    have hl0 : l.line ≠ 0 := by
      obtain ⟨pre, post, rfl, _, hw⟩ := C10_error_position_partial d _ h3
      rcases hw with ⟨hl, _⟩ | ⟨hn, hl, _⟩
      · rw [show l.line = _ from hl, lineOf]; omega
      · rw [show l.line = _ from hl, lineOf]; omega
    have hp := C50_newline_panics d l hl0 h0 t ht
    have hW8 : W.bytes p = some (utf8 d) := by
      have h1 : W.fs p = some info := h1
      simp [World.bytes, h1, h2]
    rw [errorResponse, Err.html]
    simp only [Err.spot, Spot.html, hW8, hp]

/-- Messages as they could be. -/
def words : Wording where
  plain := utf8
  parse := fun _ _ => utf8 q%"no match found"
  unreadable := fun _ => utf8 q%"no such file or directory"
  broken := fun _ => utf8 q%"template: page.tmpl:13:10: executing \"page.tmpl\" at <error>: error calling error: template: parse-error.tmpl:7:21: executing \"parse-error.tmpl\" at <annotate>: error calling annotate: runtime error: slice bounds out of range [:-1]"
  similar := fun a b => a.head? == b.head?

/-- The error that is answered. -/
def errorOf (text path : Str) : Option Err :=
  match answer (oneFile text) (htmlEngine plainSite) 5 9 q%"x.lit" path ⟨[], []⟩ with
  | (.err e, _) => some e
  | _ => none

/-- A test of the page for the error that is answered. -/
def errorPage (text path : Str) (P : List Dom → Bool) : Bool :=
  match errorOf text path with
  | some e => (match readHtml (errorResponse words (oneFile text).bytes q%"b { color: red }" e) with
    | some ds => P ds
    | none => false)
  | none => false

/-- A test of the report of the error that is answered. -/
def errorReport (text path : Str) (P : List Byte → Bool) : Bool :=
  match errorOf text path with
  | some e => P (e.print words (oneFile text).bytes)
  | none => false

/-- Whether the one list occurs in the other. -/
def occursBytes (w : List Byte) : List Byte → Bool
  | [] => w == []
  | c :: s => w.isPrefixOf (c :: s) || occursBytes w s

/-- **C76 is false (1):** the error page for a parse error at the end of a line is not well-formed. -/
theorem C76_false : (match errorOf q%"a\\\nb" q%"/" with
    | some e => (match e with | .parse p l => p == q%"x.lit" && l == ⟨2, 0, 2⟩ | _ => false) &&
        (readHtml (errorResponse words (oneFile q%"a\\\nb").bytes q%"b { color: red }" e)).isNone
    | none => false) = true := by decide +kernel

/-- **C76 is false (2):** the error page for a reference that has a call in its arguments shows an empty line if the call is
near the end of the line: the place is that of the call, and the length that of `\reference`. -/
theorem C76_false_line : errorPage q%"\\title{T}{t}\n\n\\reference{\\bold{u}}" q%"/t.html" (fun ds =>
    ofClass q%"error-message" ds == [q%"reference to unknown tag: u"] && ofClass q%"lineno" ds == [q%"   3"] &&
      ofClass q%"line" ds == [q%""]) = true := by decide +kernel

-- Undefined functions, failed functions, second titles, parse errors in a line, unknown and ambiguous tags.
example : errorPage q%"a <\\no" q%"/" (fun ds =>
    ofClass q%"error-message" ds == [q%"undefined function: \\no"] && ofClass q%"file-path" ds == [q%"x.lit:"] &&
      ofClass q%"lineno" ds == [q%"   1"] && ofClass q%"line" ds == [q%"a <\\no"] && ofClass q%"annotated" ds == [q%"\\no"]) = true := by
  decide +kernel

example : errorPage q%"\\use-plugin{p}\n\n\\bad" q%"/" (fun ds =>
    ofClass q%"error-message" ds == [q%"function \\bad returned an error"] && ofClass q%"raw-error" ds == [q%"bad"] &&
      ofClass q%"annotated" ds == [q%"\\bad"]) = true := by
  decide +kernel

example : errorPage q%"\\title{A}\n\n\\title{<b>}" q%"/" (fun ds =>
    ofClass q%"error-message" ds == [q%"cannot set title twice"] && ofClass q%"line" ds == [q%"\\title{<b>}", q%"\\title{A}"] &&
      ofClass q%"annotated" ds == [q%"\\title", q%"\\title"] && ofName q%"p" ds ==
        [q%"The section's title was first set here:", q%"Maybe the second \\title should be in a \\section{...}?"]) = true := by
  decide +kernel

example : errorPage q%"a } b" q%"/" (fun ds =>
    ofClass q%"error-message" ds == [q%"parse error"] && ofName q%"p" ds == [q%"no match found"] &&
      ofClass q%"annotated" ds == [q%"}"]) = true := by
  decide +kernel

example : errorPage q%"\\title{T}{t}\n\n\\reference{tu}" q%"/t.html" (fun ds =>
    ofClass q%"error-message" ds == [q%"reference to unknown tag: tu"] && ofName q%"li" ds == [q%"t"] &&
      ofClass q%"annotated" ds == [q%"\\reference"]) = true := by
  decide +kernel

example : errorPage q%"\\title{T}{t}\n\n\\target{u} \\target{u} \\reference{u}" q%"/t.html" (fun ds =>
    ofClass q%"error-message" ds == [q%"ambiguous reference tag: u"] && (ofClass q%"line" ds).length == 3 &&
      ofClass q%"annotated" ds == [q%"\\reference", [], []]) = true := by
  decide +kernel

-- The conditions of the theorems above are met.
example (text : Str) : (oneFile text).fs [] = none := rfl

example : baseOnly.Makes (fun _ => False) ∧ baseOnly.Fails (fun _ => False) ∧
    (∀ i c, plainSite.force i = some c → ∀ d ∈ c.parts true, d.placeless = true) :=
  ⟨(fun _ _ _ h => by cases h), (fun _ _ _ h => by cases h), (fun _ _ h => by cases h)⟩

example : (match asked (oneAt 2 q%"\\title{B}{b}\n\n\\reference{u}") remembers with
    | (.err e, _) => (readHtml (errorResponse words (baseOnly.on (oneAt 2 q%"\\title{B}{b}\n\n\\reference{u}")).bytes q%"" e)).any fun ds =>
        ofClass q%"line" ds == [q%"\\reference{u}"]
    | _ => false) = true := by decide +kernel

-- Reports.
example : errorReport q%"\\title{T}{t}\n\né \\reference{tu}" q%"/t.html" (fun r => r == utf8 (
    q%"x.lit:3: unknown tag 'tu'\n\n   3| é \\reference{tu}\n        \x1b[31m^^^^^^^^^^\x1b[0m\nThese tags seem similar:\n\n- t\n\nDid you mean one of these?\n"))
    = true := by decide +kernel

example : errorReport q%"\\title{T}{t}\n\n\\target{u} \\target{u} \\reference{u}" q%"/t.html" (fun r => occursBytes (utf8 (
    q%"- x.lit:\n     3| \\target{u} \\target{u} \\reference{u}\n        \x1b[31m\x1b[0m\n")) r) = true := by decide +kernel

end Booklit.Props
