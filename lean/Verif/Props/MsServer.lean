import Verif.Props.Manuscript
import Verif.Props.Answers
import Verif.Props.MsFiles
import Verif.Props.SameTime
import Verif.Lemmas.IncludesServe

/-!
C93: the development server shows a manuscript as it is now.
-/

namespace Booklit.Props

open Booklit Booklit.Src Booklit.Ms Booklit.Cache

/-- A request for a name of a section or of a target in it, if the name is given once. -/
theorem asks_section {h : Heap} {b : Part} {t : Tree} (L : Loaded h b t) {ks os : List Nat} {n : Nat} {o p : Part} (hp : Place b ks n os o p)
    {name : Str} (hn : name ∈ p.tags ++ (marksBlks p.body).map (·.1)) (hc : b.names.count name = 1) :
    ∃ s, t.At ks s ∧ Ends (fun n => h.requested htmlExt n t.root ('/' :: (name ++ ['.'] ++ htmlExt))) (some s.root) := by
  have bk := L.made.book L.nodup
  obtain ⟨s, so, par, par', a1, a2, -⟩ := place_at L.made hp
  obtain ⟨g, -, -, -, -, -, -, -, ht, -⟩ := tagsNamed_one L.made hc
  rw [← a2.inv.2.1.names] at hn
  obtain ⟨g', hg', e⟩ := List.mem_map.1 hn
  have hg : g' ∈ t.tagsNamed h name := by
    rw [Tree.tagsNamed, List.mem_flatMap]
    exact ⟨s.root, Tree.mem_ids.2 ⟨s, ⟨ks, a1⟩, rfl⟩, List.mem_filter.2 ⟨hg', by simpa using e⟩⟩
  rw [ht, List.mem_singleton] at hg
  obtain ⟨r, ⟨N, hN⟩, hr⟩ := findTag_ends bk .here name
  rw [ht] at hr
  obtain rfl := List.perm_singleton.1 hr
  refine ⟨s, a1, N, fun n hn => ?_⟩
  have hN : h.findTag n t.root name = some [g] := hN n hn
  simp only [Heap.requested, requestTag_page, hN]
  rw [← hg, (a2.inv.2.1.tag_title hg').2.1]

section
variable {nl : Str} (hnl : nl = ['\n'] ∨ nl = ['\r', '\n']) {b : Part} (hb : b.ok) (hr : RefsOk b) {W : World} (hW : W.Local) {S : Site}
  (hS : ∀ i, S.force i = none) {input : Str} {fs : Files} {info : FileInfo} (hf : fs input = some info) (hd : info.data = some (b.src nl))
  {past : List Files} {s : St} (hs : Served W (htmlEngine S) input (fs :: past) s)
include hnl hb hr hW hS hf hd hs

/-- **C93**: a file holds a manuscript (see C85). Whatever the development server has been asked before, and whatever was in
the files then, to the request for a section by one of its names, or by the name of a target in it, it answers with a page, and
on the page is what the manuscript says now: this section, and the sections below it unless they have pages of their own. The
name has to be given once. -/
theorem C93_pages {ks os : List Nat} {n : Nat} {o p : Part} (hp : Place b ks n os o p) {name : Str}
    (hn : name ∈ p.tags ++ (marksBlks p.body).map (·.1)) (hc : b.names.count name = 1) :
    ∃ M, ∀ m, M ≤ m → ∃ K, ∀ k, K ≤ k → ∃ txt ds,
      (answer (W.on fs) (htmlEngine S) m k input ('/' :: (name ++ q%".html")) s).1 = .ok (.page txt) ∧
      readHtml txt = some ds ∧ PageDom b ks n p ds := by
  refine ⟨depth b + 1, fun m hm => ?_⟩
  obtain ⟨s', t, hl, L⟩ := load_part (W := W.on fs) hnl hb hf hd (plugins := [0]) rfl (n := depth b) (Nat.le_refl _)
  have bk := L.made.book L.nodup
  obtain ⟨z, hz, N, hN⟩ := asks_section L hp hn hc
  obtain ⟨txt, K, hK⟩ := page_done bk (L.sane (S := S) hr) (Tree.mem_ids.2 ⟨z, ⟨ks, hz⟩, rfl⟩)
  refine ⟨K + N, fun k hk => ?_⟩
  have hpage := hK k (by omega)
  obtain ⟨ds, h1, h2⟩ := L.page hr hS hp hz hpage
  refine ⟨txt, ds, ?_, h1, h2⟩
  have fresh : (answer (W.on fs) (htmlEngine S) (depth b + 1) k input ('/' :: (name ++ q%".html")) ⟨[], []⟩).1 = .ok (.page txt) := by
    have h4 : s'.heap.requested htmlExt k 0 ('/' :: (name ++ ['.'] ++ htmlExt)) = some (some z.root) := by
      rw [← L.top]
      exact hN k (by omega)
    have hname : name ++ q%".html" = name ++ ['.'] ++ htmlExt := by simp [htmlExt]
    rw [hname]
    unfold answer
    change (match requestTag htmlExt _ with | none => _ | some _ => _ : Res Answer × St).1 = _
    rw [requestTag_page]
    dsimp only
    rw [hl]
    dsimp only
    change (match s'.heap.requested htmlExt k 0 _ with | none => _ | some none => _ | some (some j) => _ : Res Answer × St).1 = _
    rw [h4]
    change (s'.heap.page S k z.root).map _ = _
    rw [hpage]
    rfl
  rw [C74_history hW (fun i c e => by rw [hS] at e; cases e) hs _ hm (Nat.le_refl k) (by rw [fresh]; simp), fresh]

/-- **C93**: links lead where they should. The URL of a section or a target is the file of a page, with a place on it or not.
To the request for the file the server answers with the page that the section is on. -/
theorem C93_links {name : Str} {ks : List Nat} {p : Part} {u : Str} {title : List Span} (ha : Aim b name ks p u title) :
    ∃ os n o frag, Place b ks n os o p ∧ u = o.name ++ q%".html" ++ frag ∧ (frag = [] ∨ frag = '#' :: p.name ∨ frag = '#' :: name) ∧
      (b.names.count o.name = 1 → ∃ M, ∀ m, M ≤ m → ∃ K, ∀ k, K ≤ k → ∃ txt ds,
        (answer (W.on fs) (htmlEngine S) m k input ('/' :: (o.name ++ q%".html")) s).1 = .ok (.page txt) ∧
        readHtml txt = some ds ∧ PageDom b os 1 o ds) := by
  have page : ∀ {ks os : List Nat} {n : Nat} {o p : Part}, Place b ks n os o p → Place b os 1 os o o := by
    intro ks os n o p hp
    induction hp with
    | top => exact .top
    | page hp h1 h2 _ => exact .page hp h1 h2
    | same _ _ _ ih => exact ih
  cases ha with
  | sect hp hn =>
    refine ⟨_, _, _, _, hp, rfl, ?_, fun hc => C93_pages hnl hb hr hW hS hf hd hs (page hp) (List.mem_append_left _ (Part.name_mem _)) hc⟩
    split
    · exact .inl rfl
    · exact .inr (.inl rfl)
  | target hp hm =>
    exact ⟨_, _, _, '#' :: name, hp, by simp, .inr (.inr rfl), fun hc => C93_pages hnl hb hr hW hS hf hd hs (page hp) (List.mem_append_left _ (Part.name_mem _)) hc⟩

/-- **C93**: requests for names that the manuscript does not give are left to the file server. -/
theorem C93_others {name : Str} (hn : name ∉ b.names) :
    ∃ M, ∀ m, M ≤ m → ∃ K, ∀ k, K ≤ k →
      (answer (W.on fs) (htmlEngine S) m k input ('/' :: (name ++ q%".html")) s).1 = .ok .files := by
  refine ⟨depth b + 1, fun m hm => ?_⟩
  obtain ⟨s', t, hl, L⟩ := load_part (W := W.on fs) hnl hb hf hd (plugins := [0]) rfl (n := depth b) (Nat.le_refl _)
  have bk := L.made.book L.nodup
  obtain ⟨r, ⟨N, hN⟩, hp⟩ := findTag_ends bk .here name
  have ht := tagsNamed_count L.made name
  rw [List.count_eq_zero.2 hn] at ht
  rw [List.length_eq_zero_iff.1 ht] at hp
  obtain rfl := List.perm_nil.1 hp
  refine ⟨N, fun k hk => ?_⟩
  have fresh : (answer (W.on fs) (htmlEngine S) (depth b + 1) k input ('/' :: (name ++ q%".html")) ⟨[], []⟩).1 = .ok .files := by
    have h4 : s'.heap.requested htmlExt k 0 ('/' :: (name ++ ['.'] ++ htmlExt)) = some none := by
      rw [← L.top]
      have hN : s'.heap.findTag k t.root name = some [] := hN k hk
      simp only [Heap.requested, requestTag_page, hN]
    have hname : name ++ q%".html" = name ++ ['.'] ++ htmlExt := by simp [htmlExt]
    rw [hname]
    unfold answer
    change (match requestTag htmlExt _ with | none => _ | some _ => _ : Res Answer × St).1 = _
    rw [requestTag_page]
    dsimp only
    rw [hl]
    dsimp only
    change (match s'.heap.requested htmlExt k 0 _ with | none => _ | some none => _ | some (some j) => _ : Res Answer × St).1 = _
    rw [h4]
  rw [C74_history hW (fun i c e => by rw [hS] at e; cases e) hs _ hm (Nat.le_refl k) (by rw [fresh]; simp), fresh]

end

/-! ### Several files -/

section
variable {p : Script} (hb : p.whole.ok) (hr : RefsOk p.whole) {W : World} (hW : ∀ q n, W.foreign q n = none) {S : Site}
  (hS : ∀ i, S.force i = none) {input : Str} (hi : input ≠ []) {fs : Files} (hf : InFile fs input p) (hst : p.Stored fs (dirPath input))
  {past : List Files} {s : St} (hs : Served W (htmlEngine S) input (fs :: past) s)
include hb hW hS hi hf hst hs

/-- The server answers for the files what a new server answers for the whole manuscript in one file. -/
theorem script_answer : ∃ fs0 : Files, (∃ i, fs0 input = some i ∧ i.data = some (p.whole.src ['\n'])) ∧ ∀ {n N k : Nat} {path : Str} {a : Answer},
    (answer (W.on fs0) (htmlEngine S) n k input path ⟨[], []⟩).1 = .ok a → (p.nest + 1) * n ≤ N →
    (answer (W.on fs) (htmlEngine S) N k input path s).1 = .ok a := by
  refine ⟨fun q => if q = input then some ⟨0, some (p.whole.src ['\n'])⟩ else none, ⟨_, if_pos rfl, rfl⟩, ?_⟩
  intro n N k path a h hN
  have h' := answer_apart (W := W.on fun q => if q = input then some ⟨0, some (p.whole.src ['\n'])⟩ else none) (W' := W.on fs) rfl rfl hW hW
    (script_files hb (.inl rfl) (if_pos rfl) rfl (fun q hq => if_neg hq) hst hf) hi trivial hS hN h
  rw [C74_history (fun _ _ _ f e => by rw [hW] at e; cases e) (fun i c e => by rw [hS] at e; cases e) hs _ (Nat.le_refl N) (Nat.le_refl k)
    (by rw [h']; simp), h']

include hr

/-- **C93**: the same if the manuscript is distributed over several files (see C90), any of which may have been changed. -/
theorem C93_files {ks os : List Nat} {n : Nat} {o q : Part} (hp : Place p.whole ks n os o q) {name : Str}
    (hn : name ∈ q.tags ++ (marksBlks q.body).map (·.1)) (hc : p.whole.names.count name = 1) :
    ∃ M, ∀ m, M ≤ m → ∃ K, ∀ k, K ≤ k → ∃ txt ds,
      (answer (W.on fs) (htmlEngine S) m k input ('/' :: (name ++ q%".html")) s).1 = .ok (.page txt) ∧
      readHtml txt = some ds ∧ PageDom p.whole ks n q ds := by
  obtain ⟨fs0, ⟨i, h1, h2⟩, ht⟩ := script_answer hb hW hS hi hf hst hs
  obtain ⟨M, hM⟩ := C93_pages (.inl rfl) hb hr (W := W) (fun _ _ _ f e => by rw [hW] at e; cases e) hS h1 h2 (.start fs0) hp hn hc
  obtain ⟨K, hK⟩ := hM M (Nat.le_refl _)
  refine ⟨(p.nest + 1) * M, fun m hm => ⟨K, fun k hk => ?_⟩⟩
  obtain ⟨txt, ds, e1, e2⟩ := hK k hk
  exact ⟨txt, ds, ht e1 hm, e2⟩

/-- **C93**: and so with names that the manuscript does not give. -/
theorem C93_files_others {name : Str} (hn : name ∉ p.whole.names) :
    ∃ M, ∀ m, M ≤ m → ∃ K, ∀ k, K ≤ k →
      (answer (W.on fs) (htmlEngine S) m k input ('/' :: (name ++ q%".html")) s).1 = .ok .files := by
  obtain ⟨fs0, ⟨i, h1, h2⟩, ht⟩ := script_answer hb hW hS hi hf hst hs
  obtain ⟨M, hM⟩ := C93_others (.inl rfl) hb hr (W := W) (fun _ _ _ f e => by rw [hW] at e; cases e) hS h1 h2 (.start fs0) hn
  obtain ⟨K, hK⟩ := hM M (Nat.le_refl _)
  exact ⟨(p.nest + 1) * M, fun m hm => ⟨K, fun k hk => ht (hK k hk) hm⟩⟩

end

/-- **C93**: and so if several requests are served at the same time. Whatever has happened before (`as`), and whatever other
requests do while this one is served (`bs`): if the files hold the manuscript, and are not changed while the request is
served, the page shows what it says. -/
theorem C93_same_time {p : Script} (hb : p.whole.ok) (hr : RefsOk p.whole) {W : World} (hW : ∀ q n, W.foreign q n = none) {S : Site}
    (hS : ∀ i, S.force i = none) {input : Str} (hi : input ≠ []) {as bs : List Cache.Action} {s t : Cache.Sys} (before : Cache.run Sys.init as = some s)
    (during : Cache.run s bs = some t) (quiet : ∀ a ∈ bs, a.changes = false) (times : ∀ q, Increasing (t.disk q))
    {env : Nat → Moment} (finds : ∀ k, Meets s bs (env k)) (hf : InFile s.files input p) (hst : p.Stored s.files (dirPath input))
    {ks os : List Nat} {n : Nat} {o q : Part} (hp : Place p.whole ks n os o q) {name : Str}
    (hn : name ∈ q.tags ++ (marksBlks q.body).map (·.1)) (hc : p.whole.names.count name = 1) :
    ∃ M, ∀ m, M ≤ m → ∃ K, ∀ k, K ≤ k → ∃ txt ds,
      answerAmid W env (htmlEngine S) m k input ('/' :: (name ++ q%".html")) = .ok (.page txt) ∧
      readHtml txt = some ds ∧ PageDom p.whole ks n q ds := by
  obtain ⟨M, hM⟩ := C93_files hb hr hW hS hi hf hst (.start s.files) hp hn hc
  refine ⟨M, fun m hm => ?_⟩
  obtain ⟨K, hK⟩ := hM m hm
  refine ⟨K, fun k hk => ?_⟩
  obtain ⟨txt, ds, e1, e2⟩ := hK k hk
  exact ⟨txt, ds, by rw [C78_same_time before during quiet times finds _ _ _ _ _ (by rw [e1]; simp), e1], e2⟩

/-! ### Examples -/

/-- A server that has shown a page of a book, after which the book was replaced by the manuscript. -/
theorem someServer : Served baseOnly (htmlEngine plainSite) q%"x.lit" [oneAt 2 (someManuscript.src ['\n']), oneAt 1 before] remembers := by
  refine .edit _ (.request 5 9 q%"/b.html" (.request 5 9 q%"/b.html" (.start _))) ?_
  intro old ho path i i' h1 h2
  rw [List.mem_singleton.1 ho, oneAt] at h1
  rw [oneAt] at h2
  split at h1
  · next h =>
    rw [if_pos h] at h2
    cases h1
    cases h2
    exact .inr (by decide)
  · cases h1

/-- It shows a page of the manuscript, asked for by the second of its names, and a section that is on a page with others, and a link to a target leads to a page. The name of
the target can be asked for, too. The page it
showed before is gone. -/
example : let ask := fun (n k : Nat) (path : Str) => answer (baseOnly.on (oneAt 2 (someManuscript.src ['\n']))) (htmlEngine plainSite) n k q%"x.lit" path remembers
    ∃ n k, (∃ txt ds p, (ask n k q%"/second.html").1 = .ok (.page txt) ∧ readHtml txt = some ds ∧ PageDom someManuscript [1] 1 p ds) ∧
      (∃ txt ds p, (ask n k q%"/one-half.html").1 = .ok (.page txt) ∧ readHtml txt = some ds ∧ PageDom someManuscript [0, 0] 2 p ds) ∧
      (∃ txt ds p, (ask n k q%"/one.html").1 = .ok (.page txt) ∧ readHtml txt = some ds ∧ PageDom someManuscript [0] 1 p ds) ∧
      (∃ txt ds p, (ask n k q%"/spot.html").1 = .ok (.page txt) ∧ readHtml txt = some ds ∧ PageDom someManuscript [0] 1 p ds) ∧
      (ask n k q%"/b.html").1 = .ok .files := by
  have local_ : baseOnly.Local := fun _ _ _ _ h => by cases h
  have refs : RefsOk someManuscript := .of_check (by decide +kernel)
  have p1 : Place someManuscript [1] 1 [1] _ _ := .page (k := 1) .top rfl rfl
  have p2 : Place someManuscript [0, 0] 2 [0] _ _ := .same (k := 0) (.page (k := 0) .top rfl rfl) rfl rfl
  have p3 : Place someManuscript [0] 1 [0] _ _ := .page (k := 0) .top rfl rfl
  have p4 : Aim someManuscript q%"spot" [0] _ q%"one.html#spot" [.text q%"A {Spot}"] := .target p3 (by decide +kernel)
  obtain ⟨M1, h1⟩ := C93_pages (S := plainSite) (.inl rfl) someManuscript_ok refs local_ (fun _ => rfl) rfl rfl someServer p1 (name := q%"second") (by decide +kernel) (by decide +kernel)
  obtain ⟨M2, h2⟩ := C93_pages (S := plainSite) (.inl rfl) someManuscript_ok refs local_ (fun _ => rfl) rfl rfl someServer p2 (name := q%"one-half") (by decide +kernel) (by decide +kernel)
  obtain ⟨os, n, o, frag, q1, q2, q3, h3⟩ := C93_links (S := plainSite) (.inl rfl) someManuscript_ok refs local_ (fun _ => rfl) rfl rfl someServer p4
  obtain ⟨rfl, rfl, rfl, -⟩ := place_unique q1 p3
  obtain ⟨M3, h3⟩ := h3 (by decide +kernel)
  obtain ⟨M4, h4⟩ := C93_others (S := plainSite) (.inl rfl) someManuscript_ok refs local_ (fun _ => rfl) rfl rfl someServer (name := q%"b") (by decide +kernel)
  obtain ⟨M5, h5⟩ := C93_pages (S := plainSite) (.inl rfl) someManuscript_ok refs local_ (fun _ => rfl) rfl rfl someServer p3 (name := q%"spot") (by decide +kernel) (by decide +kernel)
  refine ⟨M1 + M2 + M3 + M4 + M5, ?_⟩
  obtain ⟨K1, h1⟩ := h1 _ (show M1 ≤ M1 + M2 + M3 + M4 + M5 by omega)
  obtain ⟨K2, h2⟩ := h2 _ (show M2 ≤ M1 + M2 + M3 + M4 + M5 by omega)
  obtain ⟨K3, h3⟩ := h3 _ (show M3 ≤ M1 + M2 + M3 + M4 + M5 by omega)
  obtain ⟨K4, h4⟩ := h4 _ (show M4 ≤ M1 + M2 + M3 + M4 + M5 by omega)
  obtain ⟨K5, h5⟩ := h5 _ (show M5 ≤ M1 + M2 + M3 + M4 + M5 by omega)
  refine ⟨K1 + K2 + K3 + K4 + K5, ?_, ?_, ?_, ?_, h4 _ (by omega)⟩
  · obtain ⟨txt, ds, e⟩ := h1 _ (show K1 ≤ K1 + K2 + K3 + K4 + K5 by omega)
    exact ⟨txt, ds, _, e⟩
  · obtain ⟨txt, ds, e⟩ := h2 _ (show K2 ≤ K1 + K2 + K3 + K4 + K5 by omega)
    exact ⟨txt, ds, _, e⟩
  · obtain ⟨txt, ds, e⟩ := h3 _ (show K3 ≤ K1 + K2 + K3 + K4 + K5 by omega)
    exact ⟨txt, ds, _, e⟩
  · obtain ⟨txt, ds, e⟩ := h5 _ (show K5 ≤ K1 + K2 + K3 + K4 + K5 by omega)
    exact ⟨txt, ds, _, e⟩

/-- A server that has shown a page of a book in one file; then the book was replaced by the manuscript in four files. -/
theorem scriptServer : Served baseOnly (htmlEngine plainSite) q%"d/x.lit" [fun q => (someFiles q).map fun i => { i with mtime := 2 },
    fun q => if q = q%"d/x.lit" then some ⟨1, some before⟩ else none]
    (answer (baseOnly.on fun q => if q = q%"d/x.lit" then some ⟨1, some before⟩ else none) (htmlEngine plainSite) 5 9 q%"d/x.lit" q%"/b.html" ⟨[], []⟩).2 := by
  refine .edit _ (.request 5 9 q%"/b.html" (.start _)) ?_
  intro old ho path i i' h1 h2
  rw [List.mem_singleton.1 ho] at h1
  dsimp only at h1
  obtain ⟨j, -, rfl⟩ := Option.map_eq_some_iff.1 h2
  split at h1
  · cases h1
    exact .inr (show 1 < 2 by decide)
  · cases h1

/-- It shows the section that is in the file of a file. -/
example : ∃ n k txt ds p, (answer (baseOnly.on fun q => (someFiles q).map fun i => { i with mtime := 2 }) (htmlEngine plainSite) n k q%"d/x.lit" q%"/deep.html"
      (answer (baseOnly.on fun q => if q = q%"d/x.lit" then some ⟨1, some before⟩ else none) (htmlEngine plainSite) 5 9 q%"d/x.lit" q%"/b.html" ⟨[], []⟩).2).1 =
      .ok (.page txt) ∧ readHtml txt = some ds ∧ PageDom someScript.whole [0, 0] 2 p ds := by
  have late : ∀ {path : Str} {p : Script}, InFile someFiles path p → InFile (fun q => (someFiles q).map fun i => { i with mtime := 2 }) path p := by
    rintro path p ⟨nl, i, h1, h2, h3⟩
    exact ⟨nl, { i with mtime := 2 }, h1, by dsimp only; rw [h2]; rfl, h3⟩
  obtain ⟨h1, h2⟩ := someScript_stored
  have p1 : Place someScript.whole [0, 0] 2 [0] _ _ := .same (k := 0) (.page (k := 0) .top rfl rfl) rfl rfl
  obtain ⟨a1, a2, ⟨a3, a4, a5, a6⟩, ⟨a7, a8⟩, a9⟩ := h2
  obtain ⟨M, hM⟩ := C93_files someScript_ok (.of_check (by decide +kernel)) (fun _ _ => rfl) (fun _ => rfl) (by decide) (late h1)
    ⟨a1, late a2, ⟨a3, late a4, a5, a6⟩, ⟨a7, late a8.1, a8.2⟩, a9⟩ scriptServer p1 (name := q%"deep") (by decide +kernel) (by decide +kernel)
  obtain ⟨K, hK⟩ := hM M (Nat.le_refl _)
  obtain ⟨txt, ds, e⟩ := hK K (Nat.le_refl _)
  exact ⟨M, K, txt, ds, _, e⟩

/-- A small manuscript. -/
def tinyScript : Script := .mk [.text q%"B"] [] false false [.para [[.text q%"Hi ", .ref q%"c"]]] [(none, .mk [.text q%"C"] [] false false [] [])]

/-- A load has stored an old version of the book; then the file was replaced by the manuscript. -/
def replaced : List Cache.Action :=
  [.edit q%"x.lit" ⟨1, some before⟩, .stat 0 q%"x.lit", .look 0, .read 0, .store 0, .edit q%"x.lit" ⟨2, some (tinyScript.src ['\n'])⟩]

/-- While two other requests are served (see `others`), a request for the page shows what the manuscript says. -/
example (env : Nat → Moment) (finds : ∀ k, Meets (stateAfter replaced) others (env k)) : ∃ m k txt ds,
    answerAmid baseOnly env (htmlEngine plainSite) m k q%"x.lit" q%"/b.html" = .ok (.page txt) ∧ readHtml txt = some ds ∧
      PageDom tinyScript.whole [] 1 tinyScript.whole ds := by
  have ok : tinyScript.whole.ok := by
    simp [tinyScript, Script.whole, wholes, Part.ok, okParts, okBlks, Blk.ok, okSpans, Span.ok, Ms.lineOk, runOk, apart, Span.isText, oneLine, isBlank, titleOk, notOnlyAux, bareSpans, Span.bare]
  have all : (run Sys.init (replaced ++ others)).isSome = true := by decide +kernel
  have hd : ((stateAfter replaced).files q%"x.lit").bind FileInfo.data = some (tinyScript.src ['\n']) := by decide +kernel
  obtain ⟨i, h1, h2⟩ := Option.bind_eq_some_iff.1 hd
  have times : ∀ q, Increasing ((stateAfter (replaced ++ others)).disk q) := by
    intro q
    rw [run_edits q (run_stateAfter all)]
    by_cases h : q = q%"x.lit"
    · subst h
      simp [Increasing, edits, replaced, others, Sys.init]
    · simp [Increasing, edits, replaced, others, Sys.init, h]
  obtain ⟨M, hM⟩ := C93_same_time (W := baseOnly) (S := plainSite) (input := q%"x.lit") ok (.of_check (by decide +kernel)) (fun _ _ => rfl) (fun _ => rfl)
    (by decide) (run_stateAfter (as := replaced) (by decide +kernel)) (run_from all) (by decide) times finds ⟨['\n'], i, .inl rfl, h1, h2⟩ ⟨trivial, trivial⟩
    .top (name := q%"b") (by decide +kernel) (by decide +kernel)
  obtain ⟨K, hK⟩ := hM M (Nat.le_refl _)
  obtain ⟨txt, ds, e⟩ := hK K (Nat.le_refl _)
  exact ⟨M, K, txt, ds, e⟩

example : Meets (stateAfter replaced) others ⟨(stateAfter (replaced ++ others.take 4)).files, (stateAfter (replaced ++ others.take 5)).cache,
    (stateAfter (replaced ++ others)).files⟩ :=
  ⟨others.take 4, [.store 1], [.look 2], [], _, _, _, rfl, run_from (as := replaced) (by decide +kernel),
      run_from (as := replaced ++ others.take 4) (by decide +kernel), run_from (as := replaced ++ others.take 5) (by decide +kernel), rfl⟩

end Booklit.Props
