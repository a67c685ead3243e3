import Verif.Props.MsIndex
import Verif.Props.MsLetters
import Verif.Props.MsGrow
import Verif.Lemmas.MsIndexL

/-!
C96, C99: the search index after the text of a section was edited, and with further sections.
-/

namespace Booklit.Props

open Booklit Booklit.Ms

/-- **C96**: if the text of one section is replaced by one with the same targets, and the book is built again, then in the search index only
entries for names of that section and of the targets in it change. Names must not be given twice. -/
theorem C96_index {nl : Str} (hnl : nl = ['\n'] ∨ nl = ['\r', '\n']) {b : Part} (hb : b.ok)
    {ks os : List Nat} {l : Nat} {o p : Part} (hs : Place b ks l os o p) {body : List Blk} (hbody : okBlks body) (hm : marksBlks body = marksBlks p.body)
    (hr : RefsOk b) (hr' : RefsOk (b.put body ks)) {S : Site}
    {J : Job} (hJ : J.Whole) (hJi : J.saveIndex = true) {W W' : World} {info info' : FileInfo} (hf : W.fs J.input = some info)
    (hd : info.data = some (b.src nl)) (hf' : W'.fs J.input = some info') (hd' : info'.data = some ((b.put body ks).src nl))
    {O O' : Outside} (hO : O.Fine) (hO' : O'.Fine) (short short' : Bool) :
    ∃ N, ∀ n, N ≤ n → ∃ K, ∀ k, K ≤ k → ∀ d, let B := J.build W O (htmlEngine S) S.brokenOk short n k d
      let B' := J.build W' O' (htmlEngine S) S.brokenOk short' n k B.disk
      ∃ txt txt' j j', B.disk (joinPath J.out q%"search_index.json") = some txt ∧ Json.read txt = some j ∧
        B'.disk (joinPath J.out q%"search_index.json") = some txt' ∧ Json.read txt' = some j' ∧
        ∀ name, b.names.count name ≤ 1 → (∀ p' u title, ¬ Aim b name ks p' u title) → j'.get name = j.get name := by
  have off : Off os [] [] b (b.put body ks) := put_off hs hm ks .top rfl
  obtain ⟨N, hN⟩ := C86_index hnl hb hr hJ hJi hf hd hO (S := S) short
  obtain ⟨N', hN'⟩ := C86_index hnl (put_ok hbody ks b hb) hr' hJ hJi hf' hd' hO' (S := S) short'
  refine ⟨N + N', fun n hn => ?_⟩
  obtain ⟨K, hK⟩ := hN n (by omega)
  obtain ⟨K', hK'⟩ := hN' n (by omega)
  refine ⟨K + K', fun k hk d => ?_⟩
  obtain ⟨txt, j, h1, h2, h3⟩ := hK k (by omega) d
  obtain ⟨txt', j', h4, h5, h6⟩ := hK' k (by omega) (J.build W O (htmlEngine S) S.brokenOk short n k d).disk
  refine ⟨txt, txt', j, j', h1, h2, h4, h5, fun name hc hno => ?_⟩
  by_cases hn : name ∈ b.names
  · have hc1 : b.names.count name = 1 := by
      have := List.count_pos_iff.2 hn
      omega
    obtain ⟨js, q, u, title, text, a1, a2, a3⟩ := (h3 name).2 hn
    obtain ⟨js', q', u', title', text', a4, a5, a6⟩ := (h6 name).2 (by rw [off.names]; exact hn)
    obtain ⟨q0, a7⟩ := off.symm.aim a4
    obtain ⟨rfl, rfl, rfl⟩ := aim_unique hc1 a1 a7
    have hne : js ≠ ks := by
      rintro rfl
      exact hno _ _ _ a1
    have place : ∀ {b0 : Part} {q : Part} {u : Str} {t : List Span}, Aim b0 name js q u t → ∃ n os o, Place b0 js n os o q := by
      intro b0 q u t h
      cases h with
      | sect h _ => exact ⟨_, _, _, h⟩
      | target h _ => exact ⟨_, _, _, h⟩
    obtain ⟨n1, os1, o1, p1⟩ := place a1
    obtain ⟨n2, os2, o2, p2⟩ := place a4
    have hbody' : q'.body = q.body := put_body ks js p1.part p2.part hne
    have hname : q'.name = q.name := by
      obtain ⟨o3, q3, h7, h8, -⟩ := off.place p1
      obtain ⟨-, -, -, rfl⟩ := place_unique h7 p2
      exact h8.same.2.1
    have htext : text' = text := by
      rw [hbody'] at a5
      refine a2.same a5 fun x hx ks1 r1 u1 t1 ks2 r2 u2 t2 b1 b2 => ?_
      obtain ⟨r3, b3⟩ := off.symm.aim b2
      exact (aim_unique (hr _ _ _ _ _ p1 x (cites_refsBlks _ hx)) b1 b3).2.2.symm
    rw [a3, a6, htext, hname]
  · rw [(h3 name).1 hn, (h6 name).1 (by rw [off.names]; exact hn)]

/-- Other words in the first section of the example: the entry of the second is the same. -/
example (d : Disk) : let b' := someManuscript.put [.para [[.target q%"mark" none, .text q%"see "], [.ref q%"two"]], .para [[.target q%"spot" (some q%"A {Spot}")]]] [0]
    ∃ n k, let B := someJob.build (plainFile (someManuscript.src ['\n'])) calm (htmlEngine ⟨false, fun _ => none⟩) false true n k d
      let B' := someJob.build (plainFile (b'.src ['\n'])) calm (htmlEngine ⟨false, fun _ => none⟩) false true n k B.disk
      ∃ txt txt' j j', B.disk q%"o/search_index.json" = some txt ∧ Json.read txt = some j ∧ B'.disk q%"o/search_index.json" = some txt' ∧ Json.read txt' = some j' ∧
        j'.get q%"two" = j.get q%"two" := by
  intro b'
  obtain ⟨n, hn⟩ := C96_index (.inl rfl) someManuscript_ok (ks := [0]) (.page (k := 0) .top rfl rfl)
    (body := [.para [[.target q%"mark" none, .text q%"see "], [.ref q%"two"]], .para [[.target q%"spot" (some q%"A {Spot}")]]])
    (by simp [okBlks, Blk.ok, Ms.lineOk, runOk, apart, okSpans, Span.ok, oneLine, Span.isText]) rfl (.of_check (by decide +kernel)) (.of_check (by decide +kernel)) (S := ⟨false, fun _ => none⟩)
    (J := someJob) ⟨by simp [someJob], rfl, rfl⟩ rfl (W := plainFile (someManuscript.src ['\n'])) (W' := plainFile (b'.src ['\n'])) rfl rfl rfl rfl
    (O := calm) (O' := calm) (fun _ => ⟨rfl, rfl, rfl⟩) (fun _ => ⟨rfl, rfl, rfl⟩) true true
  obtain ⟨k, hk⟩ := hn n (Nat.le_refl _)
  obtain ⟨txt, txt', j, j', h1, h2, h3, h4, h5⟩ := hk k (Nat.le_refl _) d
  refine ⟨n, k, txt, txt', j, j', h1, h2, h3, h4, h5 _ (by decide +kernel) ?_⟩
  intro p' u t ha
  obtain ⟨-, e, -, -⟩ := someManuscript_aim (name := q%"two") [1] q%"two.html" q%"Two" (by decide +kernel) ha
  cases e

theorem add_aim {b : Part} {qs : List Part} {ks : List Nat} {name : Str} {js : List Nat} {p : Part} {u : Str} {title : List Span}
    (ha : Aim b name js p u title) : ∃ p', Aim (b.add qs ks) name js p' u title ∧ p'.body = p.body ∧ p'.name = p.name := by
  cases ha with
  | @sect _ os n o _ _ hp hn =>
    obtain ⟨o', p', h1, h2, h3⟩ := add_place (qs := qs) (ks := ks) hp
    have e1 : url js os o' p' = url js os o p := by rw [url, url, h3.same.2.1, h2.same.2.1]
    have := Aim.sect h1 (by rw [h2.same.2.2.2.2]; exact hn)
    rw [e1, h2.same.1] at this
    exact ⟨p', this, h2.same.2.2.2.1, h2.same.2.1⟩
  | @target _ os n o _ _ title hp hn =>
    obtain ⟨o', p', h1, h2, h3⟩ := add_place (qs := qs) (ks := ks) hp
    have := Aim.target h1 (by rw [h2.same.2.2.2.1]; exact hn)
    rw [h3.same.2.1] at this
    exact ⟨p', this, h2.same.2.2.2.1, h2.same.2.1⟩

theorem aim_place {b : Part} {name : Str} {js : List Nat} {q : Part} {u : Str} {t : List Span} (h : Aim b name js q u t) : ∃ n os o, Place b js n os o q := by
  cases h with
  | sect h _ => exact ⟨_, _, _, h⟩
  | target h _ => exact ⟨_, _, _, h⟩

/-- **C99**: if further sections are written after the last one below some section of a manuscript, and the book is built again, then
the search index has entries for the names in them, and those for other names stay as they were. Names must not be given twice. -/
theorem C99_index {nl : Str} (hnl : nl = ['\n'] ∨ nl = ['\r', '\n']) {b : Part} (hb : b.ok) {qs : List Part} (hq : okParts qs)
    {ks os : List Nat} {l : Nat} {o p : Part} (hs : Place b ks l os o p) (hr : RefsOk b) (hr' : RefsOk (Part.add qs ks b)) {S : Site}
    {J : Job} (hJ : J.Whole) (hJi : J.saveIndex = true) {W W' : World} {info info' : FileInfo} (hf : W.fs J.input = some info)
    (hd : info.data = some (b.src nl)) (hf' : W'.fs J.input = some info') (hd' : info'.data = some ((Part.add qs ks b).src nl))
    {O O' : Outside} (hO : O.Fine) (hO' : O'.Fine) (short short' : Bool) :
    ∃ N, ∀ n, N ≤ n → ∃ K, ∀ k, K ≤ k → ∀ d, let B := J.build W O (htmlEngine S) S.brokenOk short n k d
      let B' := J.build W' O' (htmlEngine S) S.brokenOk short' n k B.disk
      ∃ txt txt' j j', B.disk (joinPath J.out q%"search_index.json") = some txt ∧ Json.read txt = some j ∧
        B'.disk (joinPath J.out q%"search_index.json") = some txt' ∧ Json.read txt' = some j' ∧
        (∀ name ∈ namesParts qs, j'.get name ≠ none) ∧
        ∀ name, b.names.count name ≤ 1 → name ∉ namesParts qs → j'.get name = j.get name := by
  have names : ∀ name, (b.add qs ks).names.count name = b.names.count name + (namesParts qs).count name := fun name =>
    names_add name ks .top ⟨_, _, _, _, hs⟩
  obtain ⟨N, hN⟩ := C86_index hnl hb hr hJ hJi hf hd hO (S := S) short
  obtain ⟨N', hN'⟩ := C86_index hnl (add_ok hq ks b hb) hr' hJ hJi hf' hd' hO' (S := S) short'
  refine ⟨N + N', fun n hn => ?_⟩
  obtain ⟨K, hK⟩ := hN n (by omega)
  obtain ⟨K', hK'⟩ := hN' n (by omega)
  refine ⟨K + K', fun k hk d => ?_⟩
  obtain ⟨txt, j, h1, h2, h3⟩ := hK k (by omega) d
  obtain ⟨txt', j', h4, h5, h6⟩ := hK' k (by omega) (J.build W O (htmlEngine S) S.brokenOk short n k d).disk
  refine ⟨txt, txt', j, j', h1, h2, h4, h5, fun name hn => ?_, fun name hc hno => ?_⟩
  · have : name ∈ (b.add qs ks).names := List.count_pos_iff.1 (by
      have := List.count_pos_iff.2 hn
      have := names name
      omega)
    obtain ⟨_, _, _, _, _, -, -, e⟩ := (h6 name).2 this
    rw [e]
    exact fun h => by cases h
  have hq0 : (namesParts qs).count name = 0 := List.count_eq_zero.2 hno
  by_cases hn : name ∈ b.names
  · have hc1 : (b.add qs ks).names.count name = 1 := by
      have := List.count_pos_iff.2 hn
      have := names name
      omega
    obtain ⟨js, q, u, title, text, a1, a2, a3⟩ := (h3 name).2 hn
    obtain ⟨js', q', u', title', text', a4, a5, a6⟩ := (h6 name).2 (List.count_pos_iff.1 (by omega))
    obtain ⟨q0, a7, a8, a9⟩ := add_aim (qs := qs) (ks := ks) a1
    obtain ⟨rfl, rfl, rfl⟩ := aim_unique hc1 a4 a7
    obtain ⟨n1, os1, o1, p1⟩ := aim_place a4
    obtain ⟨n2, os2, o2, p2⟩ := aim_place a7
    obtain ⟨-, -, -, rfl⟩ := place_unique p1 p2
    have htext : text' = text := by
      have hb' := a8
      rw [a8] at a5
      refine a2.same a5 fun x hx ks1 r1 u1 t1 ks2 r2 u2 t2 b1 b2 => ?_
      obtain ⟨r3, b3, -⟩ := add_aim (qs := qs) (ks := ks) b1
      exact (aim_unique (hr' _ _ _ _ _ p1 x (by rw [hb']; exact cites_refsBlks _ hx)) b2 b3).2.2
    rw [a3, a6, htext, a9]
  · rw [(h3 name).1 hn, (h6 name).1 fun h => hn (List.count_pos_iff.1 (by
      have := List.count_pos_iff.2 h
      have := names name
      omega))]

/-- A third chapter of the example. -/
example (d : Disk) : let b' := Part.add [newChapter] [] someManuscript
    ∃ n k, let B := someJob.build (plainFile (someManuscript.src ['\n'])) calm (htmlEngine ⟨false, fun _ => none⟩) false true n k d
      let B' := someJob.build (plainFile (b'.src ['\n'])) calm (htmlEngine ⟨false, fun _ => none⟩) false true n k B.disk
      ∃ txt txt' j j', B.disk q%"o/search_index.json" = some txt ∧ Json.read txt = some j ∧ B'.disk q%"o/search_index.json" = some txt' ∧ Json.read txt' = some j' ∧
        j'.get q%"more" ≠ none ∧ j'.get q%"two" = j.get q%"two" := by
  intro b'
  obtain ⟨n, hn⟩ := C99_index (.inl rfl) someManuscript_ok (qs := [newChapter]) newChapter_ok (ks := []) .top
    (.of_check (by decide +kernel)) (.of_check (by decide +kernel)) (S := ⟨false, fun _ => none⟩)
    (J := someJob) ⟨by simp [someJob], rfl, rfl⟩ rfl (W := plainFile (someManuscript.src ['\n'])) (W' := plainFile (b'.src ['\n'])) rfl rfl rfl rfl
    (O := calm) (O' := calm) (fun _ => ⟨rfl, rfl, rfl⟩) (fun _ => ⟨rfl, rfl, rfl⟩) true true
  obtain ⟨k, hk⟩ := hn n (Nat.le_refl _)
  obtain ⟨txt, txt', j, j', h1, h2, h3, h4, h5, h6⟩ := hk k (Nat.le_refl _) d
  exact ⟨n, k, txt, txt', j, j', h1, h2, h3, h4, h5 _ (by decide +kernel), h6 _ (by decide +kernel) (by decide +kernel)⟩

end Booklit.Props
