import Verif.Lemmas.MsRetitleL
import Verif.Props.MsIndexEdit
import Verif.Props.MsLetters

/-!
C101: giving a section another title.
-/

namespace Booklit.Props

open Booklit Booklit.Src Booklit.Ms

/-- **C101**: if a section of a manuscript gets another title, but keeps its names, and the book is built again, then the only files that change are
those of pages that show the title: the page with the section, pages with a table of contents that has an entry for it, pages that refer to
it by its title, and the search index. If the titles only differ in what is auxiliary, it is only the page with the section. -/
theorem C101_retitle {nl : Str} (hnl : nl = ['\n'] ∨ nl = ['\r', '\n']) {b : Part} (hb : b.ok) (hp : PagesApart b)
    {ks os : List Nat} {l : Nat} {o p : Part} (hs : Place b ks l os o p) {title : List Span} (ht : titleOk title)
    (hg : (p.retitle title []).tags = p.tags) {S : Site} (hr : S.brokenOk = true ∨ RefsOk b)
    {J : Job} (hJ : J.Whole) {W W' : World} {info info' : FileInfo} (hf : W.fs J.input = some info) (hd : info.data = some (b.src nl))
    (hf' : W'.fs J.input = some info') (hd' : info'.data = some ((b.retitle title ks).src nl))
    {O O' : Outside} (hO : O.Fine) (hO' : O'.Fine) (short short' : Bool) :
    ∃ N, ∀ n, N ≤ n → ∃ K, ∀ k, K ≤ k → ∀ d, let B := J.build W O (htmlEngine S) S.brokenOk short n k d
      let B' := J.build W' O' (htmlEngine S) S.brokenOk short' n k B.disk
      B.res = .ok () ∧ B'.res = .ok () ∧
      ∀ f, (∀ js q, Place b js 1 js q q → Mentions b ks p title js → f ≠ joinPath J.out (q.name ++ q%".html")) →
        (J.saveIndex = true → f ≠ joinPath J.out q%"search_index.json") → B'.disk f = B.disk f := by
  have off := retitle_renamed hs hg ks .top rfl
  obtain ⟨N, hN⟩ := C96_letters hnl hb hr hp hJ hf hd hO short
  obtain ⟨N', hN'⟩ := C96_letters hnl (retitle_ok ht ks b hb) (hr.imp_right off.refsOk) (off.apart hp) hJ hf' hd' hO' short'
  refine ⟨N + N', fun n hn => ?_⟩
  obtain ⟨K, hK⟩ := hN n (by omega)
  obtain ⟨K', hK'⟩ := hN' n (by omega)
  refine ⟨K + K', fun k hk d => ?_⟩
  obtain ⟨h1, h2, h3⟩ := hK k (by omega) d
  obtain ⟨h4, h5, h6⟩ := hK' k (by omega) (J.build W O (htmlEngine S) S.brokenOk short n k d).disk
  refine ⟨h1, h4, fun f hfo hfi => ?_⟩
  by_cases hpage : ∃ js q, Place b js 1 js q q ∧ f = joinPath J.out (q.name ++ q%".html")
  · obtain ⟨js, q, h7, rfl⟩ := hpage
    obtain ⟨_, q', h8, h9, -⟩ := off.place h7
    obtain ⟨-, -, -, rfl⟩ := place_unique h8 (place_part h8)
    rw [h2 _ _ h7, ← h9.same.1, h5 _ _ h8, retitle_page hs hg h7 h9 fun hm => hfo js q h7 hm rfl]
  · refine h6 f (fun js q h7 e => hpage ?_) hfi
    obtain ⟨_, q', h8, h9, -⟩ := off.symm.place h7
    obtain ⟨-, -, -, rfl⟩ := place_unique h8 (place_part h8)
    exact ⟨js, _, h8, by rw [h9.same.1]; exact e⟩

theorem renamed_aim {b b' : Part} {ks : List Nat} {E : Prop} {T : List Str} (h : Renamed ks E T [] b b') {name : Str} {js : List Nat} {p : Part} {u : Str}
    {title : List Span} (ha : Aim b name js p u title) :
    ∃ p' title', Aim b' name js p' u title' ∧ p'.body = p.body ∧ p'.name = p.name ∧ (name ∉ T → title' = title) := by
  cases ha with
  | @sect _ os n o _ _ hp hn =>
    obtain ⟨o', p', h1, h2, h3⟩ := h.place hp
    have e1 : url js os o' p' = url js os o p := by rw [url, url, h3.same.1, h2.same.1]
    have := Aim.sect h1 (by rw [h2.same.2.2.2.2]; exact hn)
    rw [e1] at this
    refine ⟨p', _, this, h2.same.2.2.2.1, h2.same.1, fun hT => h2.titles.1 fun e => ?_⟩
    cases h2 with
    | mk _ _ _ h4 _ => exact hT (h4 e _ hn)
  | @target _ os n o _ _ title hp hn =>
    obtain ⟨o', p', h1, h2, h3⟩ := h.place hp
    have := Aim.target h1 (by rw [h2.same.2.2.2.1]; exact hn)
    rw [h3.same.1] at this
    exact ⟨p', _, this, h2.same.2.2.2.1, h2.same.1, fun _ => rfl⟩

/-- **C101**: if a section of a manuscript gets another title, but keeps its names, and the book is built again, then in the search index only
entries for its names change, and for names of sections and targets that are in a text that refers to it by its title. Names must
not be given twice. -/
theorem C101_index {nl : Str} (hnl : nl = ['\n'] ∨ nl = ['\r', '\n']) {b : Part} (hb : b.ok)
    {ks os : List Nat} {l : Nat} {o p : Part} (hs : Place b ks l os o p) {title : List Span} (ht : titleOk title)
    (hg : (p.retitle title []).tags = p.tags) (hr : RefsOk b) {S : Site}
    {J : Job} (hJ : J.Whole) (hJi : J.saveIndex = true) {W W' : World} {info info' : FileInfo} (hf : W.fs J.input = some info)
    (hd : info.data = some (b.src nl)) (hf' : W'.fs J.input = some info') (hd' : info'.data = some ((b.retitle title ks).src nl))
    {O O' : Outside} (hO : O.Fine) (hO' : O'.Fine) (short short' : Bool) :
    ∃ N, ∀ n, N ≤ n → ∃ K, ∀ k, K ≤ k → ∀ d, let B := J.build W O (htmlEngine S) S.brokenOk short n k d
      let B' := J.build W' O' (htmlEngine S) S.brokenOk short' n k B.disk
      ∃ txt txt' j j', B.disk (joinPath J.out q%"search_index.json") = some txt ∧ Json.read txt = some j ∧
        B'.disk (joinPath J.out q%"search_index.json") = some txt' ∧ Json.read txt' = some j' ∧
        ∀ name, b.names.count name ≤ 1 → name ∉ p.tags →
          (∀ js q u t, Aim b name js q u t → ∀ x ∈ citesBlks q.body, x ∉ p.tags) → j'.get name = j.get name := by
  have off := retitle_renamed hs hg ks .top rfl
  have hr' := off.refsOk hr
  obtain ⟨N, hN⟩ := C86_index hnl hb hr hJ hJi hf hd hO (S := S) short
  obtain ⟨N', hN'⟩ := C86_index hnl (retitle_ok ht ks b hb) hr' hJ hJi hf' hd' hO' (S := S) short'
  refine ⟨N + N', fun n hn => ?_⟩
  obtain ⟨K, hK⟩ := hN n (by omega)
  obtain ⟨K', hK'⟩ := hN' n (by omega)
  refine ⟨K + K', fun k hk d => ?_⟩
  obtain ⟨txt, j, h1, h2, h3⟩ := hK k (by omega) d
  obtain ⟨txt', j', h4, h5, h6⟩ := hK' k (by omega) (J.build W O (htmlEngine S) S.brokenOk short n k d).disk
  refine ⟨txt, txt', j, j', h1, h2, h4, h5, fun name hc hno hci => ?_⟩
  by_cases hn : name ∈ b.names
  · have hc1 : (b.retitle title ks).names.count name = 1 := by
      have := List.count_pos_iff.2 hn
      rw [off.names]
      omega
    obtain ⟨js, q, u, t, text, a1, a2, a3⟩ := (h3 name).2 hn
    obtain ⟨js', q', u', t', text', a4, a5, a6⟩ := (h6 name).2 (by rw [off.names]; exact hn)
    obtain ⟨q0, t0, a7, a8, a9, a10⟩ := renamed_aim off a1
    obtain ⟨rfl, rfl, rfl⟩ := aim_unique hc1 a4 a7
    obtain ⟨n1, os1, o1, p1⟩ := aim_place a4
    obtain ⟨n2, os2, o2, p2⟩ := aim_place a7
    obtain ⟨-, -, -, rfl⟩ := place_unique p1 p2
    have htext : text' = text := by
      have hb' := a8
      rw [a8] at a5
      refine a2.same a5 fun x hx ks1 r1 u1 t1 ks2 r2 u2 t2 b1 b2 => ?_
      obtain ⟨r3, t3, b3, -, -, b4⟩ := renamed_aim off b1
      rw [(aim_unique (hr' _ _ _ _ _ p1 x (by rw [hb']; exact cites_refsBlks _ hx)) b2 b3).2.2, b4 (hci _ _ _ _ a1 x hx)]
    rw [a3, a6, htext, a9, a10 hno]
  · rw [(h3 name).1 hn, (h6 name).1 (by rw [off.names]; exact hn)]

/-! ### A manuscript -/

/-- Another title for the section below the first chapter, which keeps the name it has from its title: the page of the second chapter stays as it is.
The page of the whole does not: it has a reference (there is no entry in its table of contents). -/
example (d : Disk) : let b' := someManuscript.retitle [.text q%"One half"] [0, 0]
    ∃ n k, let B := someJob.build (plainFile (someManuscript.src ['\n'])) calm (htmlEngine ⟨false, fun _ => none⟩) false true n k d
      let B' := someJob.build (plainFile (b'.src ['\n'])) calm (htmlEngine ⟨false, fun _ => none⟩) false true n k B.disk
      B'.res = .ok () ∧ B'.disk q%"o/two.html" = B.disk q%"o/two.html" := by
  intro b'
  obtain ⟨n, hn⟩ := C101_retitle (.inl rfl) someManuscript_ok (.of_check (by decide +kernel)) (ks := [0, 0])
    (.same (k := 0) (.page (k := 0) .top rfl rfl) rfl rfl) (title := [.text q%"One half"])
    (by simp [titleOk, runOk, apart, okSpans, Span.ok, oneLine, Span.isText, notOnlyAux, bareSpans, Span.bare]) (by decide +kernel)
    (S := ⟨false, fun _ => none⟩) (.inr (.of_check (by decide +kernel)))
    (J := someJob) ⟨by simp [someJob], rfl, rfl⟩ (W := plainFile (someManuscript.src ['\n'])) (W' := plainFile (b'.src ['\n'])) rfl rfl rfl rfl
    (O := calm) (O' := calm) (fun _ => ⟨rfl, rfl, rfl⟩) (fun _ => ⟨rfl, rfl, rfl⟩) true true
  obtain ⟨k, hk⟩ := hn n (Nat.le_refl _)
  obtain ⟨h1, h2, h3⟩ := hk k (Nat.le_refl _) d
  refine ⟨n, k, h2, h3 _ (fun js q hq hm e => ?_) fun _ => by decide⟩
  have told : mentioners someManuscript [0, 0] [q%"one-half"] = [q%"top", q%"one"] := by decide +kernel
  have := mem_mentioners hq hm
  rw [show (Part.tags _) = [q%"one-half"] by decide +kernel, told] at this
  simp only [List.mem_cons, List.not_mem_nil, or_false] at this
  rcases this with this | this
  · rw [this] at e
    exact absurd e (by decide)
  · rw [this] at e
    exact absurd e (by decide)

/-- The entry for the second chapter stays as it is. -/
example (d : Disk) : let b' := someManuscript.retitle [.text q%"One half"] [0, 0]
    ∃ n k, let B := someJob.build (plainFile (someManuscript.src ['\n'])) calm (htmlEngine ⟨false, fun _ => none⟩) false true n k d
      let B' := someJob.build (plainFile (b'.src ['\n'])) calm (htmlEngine ⟨false, fun _ => none⟩) false true n k B.disk
      ∃ txt txt' j j', B.disk q%"o/search_index.json" = some txt ∧ Json.read txt = some j ∧ B'.disk q%"o/search_index.json" = some txt' ∧ Json.read txt' = some j' ∧
        j'.get q%"two" = j.get q%"two" := by
  intro b'
  obtain ⟨n, hn⟩ := C101_index (.inl rfl) someManuscript_ok (ks := [0, 0])
    (.same (k := 0) (.page (k := 0) .top rfl rfl) rfl rfl) (title := [.text q%"One half"])
    (by simp [titleOk, runOk, apart, okSpans, Span.ok, oneLine, notOnlyAux, bareSpans, Span.bare]) (by decide +kernel)
    (.of_check (by decide +kernel)) (S := ⟨false, fun _ => none⟩)
    (J := someJob) ⟨by simp [someJob], rfl, rfl⟩ rfl (W := plainFile (someManuscript.src ['\n'])) (W' := plainFile (b'.src ['\n'])) rfl rfl rfl rfl
    (O := calm) (O' := calm) (fun _ => ⟨rfl, rfl, rfl⟩) (fun _ => ⟨rfl, rfl, rfl⟩) true true
  obtain ⟨k, hk⟩ := hn n (Nat.le_refl _)
  obtain ⟨txt, txt', j, j', h1, h2, h3, h4, h5⟩ := hk k (Nat.le_refl _) d
  refine ⟨n, k, txt, txt', j, j', h1, h2, h3, h4, h5 _ (by decide +kernel) (by decide +kernel) ?_⟩
  intro js q u t ha x hx
  obtain ⟨⟨_, _, _, hp⟩, -, -, -⟩ := someManuscript_aim (name := q%"two") [1] q%"two.html" q%"Two" (by decide +kernel) ha
  obtain ⟨-, -, -, rfl⟩ := place_unique hp (.page (k := 1) .top rfl rfl)
  exact absurd hx (by rw [show citesBlks _ = [] by decide +kernel]; exact List.not_mem_nil)

/-- Where titles may be shown: that of the first chapter, in its own page and in the table of contents of the whole; that of the second; and
that of the whole, in its own page only: the reference to it in the second chapter has a text of its own. -/
example : mentioners someManuscript [0] [q%"one"] = [q%"top", q%"one"] ∧ mentioners someManuscript [1] [q%"two", q%"second"] = [q%"top", q%"two"] ∧
    mentioners someManuscript [] [q%"top"] = [q%"top"] := by decide +kernel

/-- On the page with the section it is different. -/
example : let b' := someManuscript.retitle [.text q%"Second"] [1]
    ∀ p, Place b' [1] 1 [1] p p → ∀ q, Place someManuscript [1] 1 [1] q q → webPage b' [1] p ≠ webPage someManuscript [1] q := by
  intro b' p hp q hq
  obtain ⟨-, -, -, rfl⟩ := place_unique hp (.page (k := 1) .top rfl rfl)
  obtain ⟨-, -, -, rfl⟩ := place_unique hq (.page (k := 1) .top rfl rfl)
  decide +kernel

end Booklit.Props
