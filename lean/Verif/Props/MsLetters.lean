import Verif.Lemmas.MsEditL
import Verif.Props.MsTyped

/-!
C96: the pages of a manuscript, to the letter.
-/

namespace Booklit.Props

open Booklit Booklit.Src Booklit.Ms

/-- **C96**: for each section of a manuscript that starts a page there is a file with its name, and in it is, to the letter, what `webPage`
says. No other file is touched, except that of the search index if it is asked for. References must be in order, unless broken ones are allowed:
then those lead to the top of the page that they are on. -/
theorem C96_letters {nl : Str} (hnl : nl = ['\n'] ∨ nl = ['\r', '\n']) {b : Part} (hb : b.ok) {S : Site} (hr : S.brokenOk = true ∨ RefsOk b)
    (hp : PagesApart b) {J : Job} (hJ : J.Whole) {W : World} {info : FileInfo} (hf : W.fs J.input = some info) (hd : info.data = some (b.src nl))
    {O : Outside} (hO : O.Fine) (short : Bool) :
    ∃ N, ∀ n, N ≤ n → ∃ K, ∀ k, K ≤ k → ∀ d, let B := J.build W O (htmlEngine S) S.brokenOk short n k d
      B.res = .ok () ∧
      (∀ ks p, Place b ks 1 ks p p → B.disk (joinPath J.out (p.name ++ q%".html")) = some (webPage b ks p)) ∧
      ∀ f, (∀ ks p, Place b ks 1 ks p p → f ≠ joinPath J.out (p.name ++ q%".html")) →
        (J.saveIndex = true → f ≠ joinPath J.out q%"search_index.json") → B.disk f = d f := by
  refine ⟨depth b + 1, fun n hn => ?_⟩
  obtain ⟨m, rfl⟩ : ∃ m, n = m + 1 := ⟨n - 1, by omega⟩
  obtain ⟨s, t, hl, L⟩ := load_part (W := W) hnl hb hf hd (plugins := [0]) rfl (n := m) (by omega)
  obtain ⟨t', ps, e, bk, hps, hbuild⟩ := C68_build hJ hl hO (htmlEngine S) S.brokenOk short
  have bk' := L.made.book L.nodup
  obtain rfl := Tree.unique (h := s.heap) (e.trans L.top.symm) bk.children bk'.children
  have hw := written_places L (by rw [e]; exact hps)
  have ids := written_ids bk (by rw [e]; exact hps)
  have hname : ∀ {ks u p}, t'.At ks u → Place b ks 1 ks p p → s.heap.filePathOf J.out htmlExt u.root = joinPath J.out (p.name ++ q%".html") ∧
      (s.heap.get u.root).primaryTag.name = p.name := by
    intro ks u p ha hpl
    obtain ⟨u', so, par, par', a1, a2, _⟩ := place_at L.made hpl
    obtain rfl := ha.inj a1
    obtain ⟨l, et⟩ := a2.inv.2.1.tag
    simp [Heap.filePathOf, Heap.fileName, htmlExt, et]
  obtain ⟨K, hK⟩ := hbuild (fun p hp => by
      obtain ⟨ks, u, q, ha, rfl, hpl⟩ := (hw p).1 hp
      exact ⟨_, L.web hr hpl ha⟩)
    fun _ => ⟨by rw [← e]; exact L.index S.brokenOk htmlExt, fun p _ => html_not_index hJ.out p⟩
  obtain ⟨K', hK'⟩ : ∃ K', ∀ k, K' ≤ k → ∀ i ∈ ps, ∀ ks u p, t'.At ks u → u.root = i → Place b ks 1 ks p p → s.heap.page S k i = .ok (webPage b ks p) :=
    fuel_all ps fun i hi => by
      obtain ⟨ks, u, q, ha, rfl, hpl⟩ := (hw i).1 hi
      obtain ⟨N, hN⟩ := L.web hr hpl ha
      refine ⟨N, fun k hk ks' u' p' ha' hu hpl' => ?_⟩
      obtain ⟨rfl, rfl⟩ := ha.unique L.nodup ha' hu.symm
      obtain ⟨-, -, -, rfl⟩ := place_unique hpl hpl'
      exact hN k hk
  refine ⟨K + K', fun k hk d => ?_⟩
  obtain ⟨h1, h2, -, h4⟩ := hK k (by omega) d
  refine ⟨h1, fun ks p hpl => ?_, fun f hf => h4 f fun i hi => ?_⟩
  · obtain ⟨u, _, _, _, ha, _⟩ := place_at L.made hpl
    obtain ⟨q, hq, e1, txt, h5, h6⟩ := h2 u.root ((hw u.root).2 ⟨ks, u, p, ha, rfl, hpl⟩)
    obtain ⟨ks', u', p', ha', rfl, hpl'⟩ := (hw q).1 hq
    have e1 : s.heap.filePathOf J.out htmlExt u'.root = s.heap.filePathOf J.out htmlExt u.root := e1
    rw [(hname ha hpl).1, (hname ha' hpl').1] at e1
    have good : goodExt htmlExt := by unfold goodExt; decide
    have pf : ∀ {ks u p}, t'.At ks u → Place b ks 1 ks p p → p.name ++ q%".html" = s.heap.fileName htmlExt u.root ∧
        '/' ∉ (s.heap.get u.root).primaryTag.name := by
      intro ks u p ha hpl
      have := (hname ha hpl).2
      exact ⟨by simp [Heap.fileName, htmlExt, this], by rw [this]; exact (hp _ _ hpl).1⟩
    rw [(pf ha hpl).1, (pf ha' hpl').1] at e1
    have := joinPath_inj hJ.out (plain_fileName (pf ha' hpl').2 good) (plain_fileName (pf ha hpl).2 good) e1
    have := List.append_cancel_right (List.append_cancel_right this)
    rw [(hname ha hpl).2, (hname ha' hpl').2] at this
    obtain rfl := (hp _ _ hpl).2 _ _ hpl' this
    obtain rfl := ha.inj ha'
    have h7 : s.heap.page S k u.root = .ok txt := h5
    rw [hK' k (by omega) _ hq _ _ _ ha rfl hpl] at h7
    cases h7
    rw [← (hname ha hpl).1]
    exact h6
  · obtain ⟨ks, u, p, ha, rfl, hpl⟩ := (hw i).1 hi
    have := hf ks p hpl
    rw [← (hname ha hpl).1] at this
    exact this

/-- **C96**: if the text of one section is replaced by one with the same targets, and the book is built again, then only the file of the page
that the section is on changes (and the search index). -/
theorem C96_edit {nl : Str} (hnl : nl = ['\n'] ∨ nl = ['\r', '\n']) {b : Part} (hb : b.ok) (hp : PagesApart b)
    {ks os : List Nat} {l : Nat} {o p : Part} (hs : Place b ks l os o p) {body : List Blk} (hbody : okBlks body) (hm : marksBlks body = marksBlks p.body)
    {S : Site} (hr : S.brokenOk = true ∨ RefsOk b ∧ RefsOk (b.put body ks))
    {J : Job} (hJ : J.Whole) {W W' : World} {info info' : FileInfo} (hf : W.fs J.input = some info) (hd : info.data = some (b.src nl))
    (hf' : W'.fs J.input = some info') (hd' : info'.data = some ((b.put body ks).src nl))
    {O O' : Outside} (hO : O.Fine) (hO' : O'.Fine) (short short' : Bool) :
    ∃ N, ∀ n, N ≤ n → ∃ K, ∀ k, K ≤ k → ∀ d, let B := J.build W O (htmlEngine S) S.brokenOk short n k d
      let B' := J.build W' O' (htmlEngine S) S.brokenOk short' n k B.disk
      B.res = .ok () ∧ B'.res = .ok () ∧
      ∀ f, f ≠ joinPath J.out (o.name ++ q%".html") → (J.saveIndex = true → f ≠ joinPath J.out q%"search_index.json") → B'.disk f = B.disk f := by
  have off : Off os [] [] b (b.put body ks) := put_off hs hm ks .top rfl
  have hp' : PagesApart (b.put body ks) := by
    intro ks1 p1 h1
    obtain ⟨_, p2, h2, h3, -⟩ := off.symm.place h1
    obtain ⟨-, -, -, rfl⟩ := place_unique h2 (place_part h2)
    have e := h3.same.2.1
    refine ⟨by rw [← e]; exact (hp _ _ h2).1, fun ks3 p3 h4 e3 => ?_⟩
    obtain ⟨_, p4, h5, h6, -⟩ := off.symm.place h4
    obtain ⟨-, -, -, rfl⟩ := place_unique h5 (place_part h5)
    exact (hp _ _ h2).2 _ _ h5 (by rw [h6.same.2.1, e, e3])
  obtain ⟨N, hN⟩ := C96_letters hnl hb (hr.imp_right (·.1)) hp hJ hf hd hO short
  obtain ⟨N', hN'⟩ := C96_letters hnl (put_ok hbody ks b hb) (hr.imp_right (·.2)) hp' hJ hf' hd' hO' short'
  refine ⟨N + N', fun n hn => ?_⟩
  obtain ⟨K, hK⟩ := hN n (by omega)
  obtain ⟨K', hK'⟩ := hN' n (by omega)
  refine ⟨K + K', fun k hk d => ?_⟩
  obtain ⟨h1, h2, h3⟩ := hK k (by omega) d
  obtain ⟨h4, h5, h6⟩ := hK' k (by omega) (J.build W O (htmlEngine S) S.brokenOk short n k d).disk
  refine ⟨h1, h4, fun f hfo hfi => ?_⟩
  by_cases hpage : ∃ ks1 p1, Place b ks1 1 ks1 p1 p1 ∧ f = joinPath J.out (p1.name ++ q%".html")
  · obtain ⟨ks1, p1, h7, rfl⟩ := hpage
    have hne : ks1 ≠ os := by
      rintro rfl
      obtain ⟨-, -, -, rfl⟩ := place_unique h7 (place_part hs)
      exact hfo rfl
    obtain ⟨_, p2, h8, h9, -⟩ := off.place h7
    obtain ⟨-, -, -, rfl⟩ := place_unique h8 (place_part h8)
    rw [h2 _ _ h7, ← h9.same.2.1, h5 _ _ h8, off.page h9 hne]
  · refine h6 f (fun ks1 p1 h7 e => hpage ?_) hfi
    obtain ⟨_, p2, h8, h9, -⟩ := off.symm.place h7
    obtain ⟨-, -, -, rfl⟩ := place_unique h8 (place_part h8)
    exact ⟨ks1, _, h8, by rw [h9.same.2.1]; exact e⟩

/-! ### A manuscript -/

/-- The file of its first page. -/
example (d : Disk) : ∃ n k, let B := someJob.build (plainFile (someManuscript.src ['\n'])) calm (htmlEngine ⟨false, fun _ => none⟩) false true n k d
    B.disk q%"o/one.html" = some q%"<!DOCTYPE html>\n<html>\n  <head>\n    <meta http-equiv=\"content-type\" content=\"text/html; charset=utf-8\" />\n    <title>One: 1st</title>\n  </head>\n  <body>\n    <h1 class=\"section-header\"><a id=\"one\"></a><span class=\"section-number\">1 </span><em>One</em>: <code>1st</code></h1>\n\n<p><a id=\"mark\"></a> a &lt; b<a id=\"spot\"></a></p>\n\n\n  \n    <h2 class=\"section-header\"><a id=\"one-half\"></a><span class=\"section-number\">1.1 </span>One Half</h2>\n\n\n\n\n  \n\n  \n\n  </body>\n</html>" := by
  obtain ⟨n, hn⟩ := C96_letters (.inl rfl) someManuscript_ok (S := ⟨false, fun _ => none⟩) (.inr (.of_check (by decide +kernel))) (.of_check (by decide +kernel))
    (J := someJob) ⟨by simp [someJob], rfl, rfl⟩ (W := plainFile (someManuscript.src ['\n'])) rfl rfl (O := calm) (fun _ => ⟨rfl, rfl, rfl⟩) true
  obtain ⟨k, hk⟩ := hn n (Nat.le_refl _)
  obtain ⟨h1, h2, h3⟩ := hk k (Nat.le_refl _) d
  exact ⟨n, k, (h2 [0] _ (.page (k := 0) .top rfl rfl)).trans (congrArg some (by decide +kernel))⟩

/-- A reference that is broken, on the page it is on. -/
example : (refTo someManuscript q%"two" q%"three") = (q%"two.html#broken", q%"{broken reference: three}") := by decide +kernel

/-- Other words in its first section, and a reference: the pages of the whole and of the second section stay as they are. -/
example (d : Disk) : let b' := someManuscript.put [.para [[.target q%"mark" none, .text q%"see "], [.ref q%"two"]], .para [[.target q%"spot" (some q%"A {Spot}")]]] [0]
    ∃ n k, let B := someJob.build (plainFile (someManuscript.src ['\n'])) calm (htmlEngine ⟨false, fun _ => none⟩) false true n k d
      let B' := someJob.build (plainFile (b'.src ['\n'])) calm (htmlEngine ⟨false, fun _ => none⟩) false true n k B.disk
      B'.res = .ok () ∧ B'.disk q%"o/top.html" = B.disk q%"o/top.html" ∧ B'.disk q%"o/two.html" = B.disk q%"o/two.html" := by
  intro b'
  obtain ⟨n, hn⟩ := C96_edit (.inl rfl) someManuscript_ok (.of_check (by decide +kernel)) (ks := [0]) (.page (k := 0) .top rfl rfl)
    (body := [.para [[.target q%"mark" none, .text q%"see "], [.ref q%"two"]], .para [[.target q%"spot" (some q%"A {Spot}")]]])
    (by simp [okBlks, Blk.ok, Ms.lineOk, runOk, apart, okSpans, Span.ok, oneLine, Span.isText]) rfl
    (S := ⟨false, fun _ => none⟩) (.inr ⟨.of_check (by decide +kernel), .of_check (by decide +kernel)⟩)
    (J := someJob) ⟨by simp [someJob], rfl, rfl⟩ (W := plainFile (someManuscript.src ['\n'])) (W' := plainFile (b'.src ['\n'])) rfl rfl rfl rfl
    (O := calm) (O' := calm) (fun _ => ⟨rfl, rfl, rfl⟩) (fun _ => ⟨rfl, rfl, rfl⟩) true true
  obtain ⟨k, hk⟩ := hn n (Nat.le_refl _)
  obtain ⟨h1, h2, h3⟩ := hk k (Nat.le_refl _) d
  exact ⟨n, k, h2, h3 q%"o/top.html" (by decide) (fun _ => by decide), h3 q%"o/two.html" (by decide) (fun _ => by decide)⟩

end Booklit.Props
