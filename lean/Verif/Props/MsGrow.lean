import Verif.Lemmas.MsGrowL
import Verif.Props.MsLetters

/-!
C99: writing further sections, and taking the last ones away.
-/

namespace Booklit.Props

open Booklit Booklit.Src Booklit.Ms

/-- **C99**: if further sections are written after the last one below some section of a manuscript, and the book is built again, then the only files
that change are those of pages that show what sections are below that one (it is on the page and not split, or it or a section it is in
has a table of contents there), those of the new sections, and the search index. Nothing must have referred to a name that is new. -/
theorem C99_grow {nl : Str} (hnl : nl = ['\n'] ∨ nl = ['\r', '\n']) {b : Part} (hb : b.ok) {qs : List Part} (hq : okParts qs)
    {ks os : List Nat} {l : Nat} {o p : Part} (hs : Place b ks l os o p) (hp : PagesApart (Part.add qs ks b))
    {S : Site} (hr : S.brokenOk = true ∧ Unasked b qs ∨ RefsOk b ∧ RefsOk (Part.add qs ks b))
    {J : Job} (hJ : J.Whole) {W W' : World} {info info' : FileInfo} (hf : W.fs J.input = some info) (hd : info.data = some (b.src nl))
    (hf' : W'.fs J.input = some info') (hd' : info'.data = some ((Part.add qs ks b).src nl))
    {O O' : Outside} (hO : O.Fine) (hO' : O'.Fine) (short short' : Bool) :
    ∃ N, ∀ n, N ≤ n → ∃ K, ∀ k, K ≤ k → ∀ d, let B := J.build W O (htmlEngine S) S.brokenOk short n k d
      let B' := J.build W' O' (htmlEngine S) S.brokenOk short' n k B.disk
      B.res = .ok () ∧ B'.res = .ok () ∧
      ∀ f, (∀ js q, Place b js 1 js q q → Tells b ks js → f ≠ joinPath J.out (q.name ++ q%".html")) →
        (∀ i r q, p.subs.length ≤ i → Place (Part.add qs ks b) (ks ++ i :: r) 1 (ks ++ i :: r) q q → f ≠ joinPath J.out (q.name ++ q%".html")) →
        (J.saveIndex = true → f ≠ joinPath J.out q%"search_index.json") → B'.disk f = B.disk f := by
  have hu : Unasked b qs := hr.elim (·.2) fun h => unasked_of_refs h.1 h.2 hs
  obtain ⟨N, hN⟩ := C96_letters hnl hb (S := S) (hr.imp (·.1) (·.1)) (apart_add hp) hJ hf hd hO short
  obtain ⟨N', hN'⟩ := C96_letters hnl (add_ok hq ks b hb) (S := S) (hr.imp (·.1) (·.2)) hp hJ hf' hd' hO' short'
  refine ⟨N + N', fun n hn => ?_⟩
  obtain ⟨K, hK⟩ := hN n (by omega)
  obtain ⟨K', hK'⟩ := hN' n (by omega)
  refine ⟨K + K', fun k hk d => ?_⟩
  obtain ⟨h1, h2, h3⟩ := hK k (by omega) d
  obtain ⟨h4, h5, h6⟩ := hK' k (by omega) (J.build W O (htmlEngine S) S.brokenOk short n k d).disk
  refine ⟨h1, h4, fun f hft hfn hfi => ?_⟩
  by_cases hpage : ∃ js q, Place b js 1 js q q ∧ f = joinPath J.out (q.name ++ q%".html")
  · obtain ⟨js, q, h7, rfl⟩ := hpage
    obtain ⟨_, q', h8, g, -⟩ := add_place (qs := qs) (ks := ks) h7
    obtain ⟨-, -, -, rfl⟩ := place_unique h8 (place_part h8)
    rw [h2 _ _ h7, ← g.same.2.1, h5 _ _ h8, page_add hu hs h7 g fun ht => hft js q h7 ht rfl]
  · refine h6 f (fun js q h7 e => ?_) hfi
    rcases place_add hs h7 with ⟨_, q', h8⟩ | ⟨i, hi, r, rfl⟩
    · obtain ⟨-, -, -, rfl⟩ := place_unique h8 (place_part h8)
      obtain ⟨_, q2, h9, g, -⟩ := add_place (qs := qs) (ks := ks) h8
      obtain ⟨-, -, -, rfl⟩ := place_unique h9 h7
      exact hpage ⟨js, _, h8, by rw [e, g.same.2.1]⟩
    · rw [List.append_assoc] at h7
      exact hfn i r q hi h7 e

/-- **C99**: if the last sections below some section of a manuscript are taken away, and the book is built again, then the only files that change are
those of pages that showed what sections are below that one, and the search index. In particular, the files of the sections
that are no more stay as they were. Nothing must have referred to a name in them. -/
theorem C99_shrink {nl : Str} (hnl : nl = ['\n'] ∨ nl = ['\r', '\n']) {b : Part} (hb : b.ok) {qs : List Part} (hq : okParts qs)
    {ks os : List Nat} {l : Nat} {o p : Part} (hs : Place b ks l os o p) (hp : PagesApart (Part.add qs ks b))
    {S : Site} (hr : S.brokenOk = true ∧ Unasked b qs ∨ RefsOk b ∧ RefsOk (Part.add qs ks b))
    {J : Job} (hJ : J.Whole) {W W' : World} {info info' : FileInfo} (hf : W.fs J.input = some info) (hd : info.data = some ((Part.add qs ks b).src nl))
    (hf' : W'.fs J.input = some info') (hd' : info'.data = some (b.src nl))
    {O O' : Outside} (hO : O.Fine) (hO' : O'.Fine) (short short' : Bool) :
    ∃ N, ∀ n, N ≤ n → ∃ K, ∀ k, K ≤ k → ∀ d, let B := J.build W O (htmlEngine S) S.brokenOk short n k d
      let B' := J.build W' O' (htmlEngine S) S.brokenOk short' n k B.disk
      B.res = .ok () ∧ B'.res = .ok () ∧
      ∀ f, (∀ js q, Place b js 1 js q q → Tells b ks js → f ≠ joinPath J.out (q.name ++ q%".html")) →
        (J.saveIndex = true → f ≠ joinPath J.out q%"search_index.json") → B'.disk f = B.disk f := by
  have hu : Unasked b qs := hr.elim (·.2) fun h => unasked_of_refs h.1 h.2 hs
  obtain ⟨N, hN⟩ := C96_letters hnl (add_ok hq ks b hb) (S := S) (hr.imp (·.1) (·.2)) hp hJ hf hd hO short
  obtain ⟨N', hN'⟩ := C96_letters hnl hb (S := S) (hr.imp (·.1) (·.1)) (apart_add hp) hJ hf' hd' hO' short'
  refine ⟨N + N', fun n hn => ?_⟩
  obtain ⟨K, hK⟩ := hN n (by omega)
  obtain ⟨K', hK'⟩ := hN' n (by omega)
  refine ⟨K + K', fun k hk d => ?_⟩
  obtain ⟨h1, h2, h3⟩ := hK k (by omega) d
  obtain ⟨h4, h5, h6⟩ := hK' k (by omega) (J.build W O (htmlEngine S) S.brokenOk short n k d).disk
  refine ⟨h1, h4, fun f hft hfi => ?_⟩
  by_cases hpage : ∃ js q, Place b js 1 js q q ∧ f = joinPath J.out (q.name ++ q%".html")
  · obtain ⟨js, q, h7, rfl⟩ := hpage
    obtain ⟨_, q', h8, g, -⟩ := add_place (qs := qs) (ks := ks) h7
    obtain ⟨-, -, -, rfl⟩ := place_unique h8 (place_part h8)
    rw [h5 _ _ h7, ← page_add hu hs h7 g fun ht => hft js q h7 ht rfl, ← h2 _ _ h8, g.same.2.1]
  · exact h6 f (fun js q h7 e => hpage ⟨js, q, h7, e⟩) hfi

/-! ### A manuscript -/

/-- A chapter, with a section that has a page of its own. -/
def newChapter : Part :=
  .mk [.text q%"Three"] [] true false [.para [[.text q%"After ", .ref q%"two"]], .toc] [.mk [.text q%"More"] [q%"more"] false false [] []]

theorem newChapter_ok : okParts [newChapter] := by
  simp [newChapter, Part.ok, okParts, okBlks, Blk.ok, okSpans, Span.ok, Ms.lineOk, runOk, apart, Span.isText, oneLine, titleOk, notOnlyAux, bareSpans, Span.bare,
    isBlank]

/-- A third chapter of the book: the pages of the others stay as they are. The page of the whole does not, because of its table of contents. -/
example (d : Disk) : let b' := Part.add [newChapter] [] someManuscript
    ∃ n k, let B := someJob.build (plainFile (someManuscript.src ['\n'])) calm (htmlEngine ⟨false, fun _ => none⟩) false true n k d
      let B' := someJob.build (plainFile (b'.src ['\n'])) calm (htmlEngine ⟨false, fun _ => none⟩) false true n k B.disk
      B'.res = .ok () ∧ B'.disk q%"o/one.html" = B.disk q%"o/one.html" ∧ B'.disk q%"o/two.html" = B.disk q%"o/two.html" := by
  intro b'
  obtain ⟨n, hn⟩ := C99_grow (.inl rfl) someManuscript_ok newChapter_ok (ks := []) .top (.of_check (by decide +kernel))
    (S := ⟨false, fun _ => none⟩) (.inr ⟨.of_check (by decide +kernel), .of_check (by decide +kernel)⟩)
    (J := someJob) ⟨by simp [someJob], rfl, rfl⟩ (W := plainFile (someManuscript.src ['\n'])) (W' := plainFile (b'.src ['\n'])) rfl rfl rfl rfl
    (O := calm) (O' := calm) (fun _ => ⟨rfl, rfl, rfl⟩) (fun _ => ⟨rfl, rfl, rfl⟩) true true
  obtain ⟨k, hk⟩ := hn n (Nat.le_refl _)
  obtain ⟨h1, h2, h3⟩ := hk k (Nat.le_refl _) d
  have told : tellers someManuscript [] = [q%"top"] := by decide +kernel
  have key : ∀ f, f ≠ q%"o/top.html" → f ≠ q%"o/three.html" → f ≠ q%"o/more.html" → f ≠ q%"o/search_index.json" →
      (someJob.build (plainFile (b'.src ['\n'])) calm (htmlEngine ⟨false, fun _ => none⟩) false true n k
        (someJob.build (plainFile (someManuscript.src ['\n'])) calm (htmlEngine ⟨false, fun _ => none⟩) false true n k d).disk).disk f =
      (someJob.build (plainFile (someManuscript.src ['\n'])) calm (htmlEngine ⟨false, fun _ => none⟩) false true n k d).disk f := by
    intro f f1 f2 f3 f4
    refine h3 f (fun js q hq ht e => ?_) (fun i r q hi hq e => ?_) fun _ => f4
    · have := ((mem_tellers hq).1 ht).1
      rw [told, List.mem_singleton] at this
      rw [this] at e
      exact f1 e
    · have h0 : ∀ e ∈ spots [] 1 [] none b', 2 ≤ e.ks.headD 0 → e.p.name = q%"three" ∨ e.p.name = q%"more" := by decide +kernel
      rcases h0 ⟨_, _, _, _, _⟩ ((mem_spots _).2 hq) hi with h | h
      · have h : q.name = _ := h
        rw [h] at e
        exact f2 e
      · have h : q.name = _ := h
        rw [h] at e
        exact f3 e
  exact ⟨n, k, h2, key _ (by decide) (by decide) (by decide) (by decide), key _ (by decide) (by decide) (by decide) (by decide)⟩

/-- And without it again: its page is still there, as it was. -/
example (d : Disk) : let b' := Part.add [newChapter] [] someManuscript
    ∃ n k, let B := someJob.build (plainFile (b'.src ['\n'])) calm (htmlEngine ⟨false, fun _ => none⟩) false true n k d
      let B' := someJob.build (plainFile (someManuscript.src ['\n'])) calm (htmlEngine ⟨false, fun _ => none⟩) false true n k B.disk
      B'.res = .ok () ∧ B'.disk q%"o/three.html" = B.disk q%"o/three.html" ∧ B'.disk q%"o/two.html" = B.disk q%"o/two.html" := by
  intro b'
  obtain ⟨n, hn⟩ := C99_shrink (.inl rfl) someManuscript_ok newChapter_ok (ks := []) .top (.of_check (by decide +kernel))
    (S := ⟨false, fun _ => none⟩) (.inr ⟨.of_check (by decide +kernel), .of_check (by decide +kernel)⟩)
    (J := someJob) ⟨by simp [someJob], rfl, rfl⟩ (W := plainFile (b'.src ['\n'])) (W' := plainFile (someManuscript.src ['\n'])) rfl rfl rfl rfl
    (O := calm) (O' := calm) (fun _ => ⟨rfl, rfl, rfl⟩) (fun _ => ⟨rfl, rfl, rfl⟩) true true
  obtain ⟨k, hk⟩ := hn n (Nat.le_refl _)
  obtain ⟨h1, h2, h3⟩ := hk k (Nat.le_refl _) d
  have told : tellers someManuscript [] = [q%"top"] := by decide +kernel
  refine ⟨n, k, h2, h3 _ (fun js q hq ht e => ?_) (fun _ => by decide), h3 _ (fun js q hq ht e => ?_) fun _ => by decide⟩ <;>
  · have := ((mem_tellers hq).1 ht).1
    rw [told, List.mem_singleton] at this
    rw [this] at e
    exact absurd e (by decide)

/-- Below a section that is left out of the table of contents: only the page that it is on tells. -/
example : tellers someManuscript [0, 0] = [q%"one"] ∧ tellers someManuscript [1] = [q%"top", q%"two"] := by decide +kernel

end Booklit.Props
