import Verif.Lemmas.MsTypedL
import Verif.Props.Manuscript

/-!
C94: the plain text of a manuscript.
-/

namespace Booklit.Props

open Booklit Booklit.Src Booklit.Ms

/-- Pages that can be rendered or not: if one of them cannot, writing fails. -/
theorem writeAll_err {h : Heap} {O : Outside} (hO : O.Fine) {E : Engine} {dest : Str} {k : Nat} {f : Nat → Option Str} : ∀ (ps : List Nat) (d : Disk),
    (∀ p ∈ ps, E.render h k p = outcomeOf (f p)) → (∃ p ∈ ps, f p = none) → ∃ e, (h.writeAll O E dest k ps d).1 = .err e
  | [], _, _, ⟨p, hp, _⟩ => by cases hp
  | p :: ps, d, h1, h2 => by
    rw [Heap.writeAll, Heap.writeSingle, h1 p List.mem_cons_self]
    cases e : f p with
    | none =>
      simp only [outcomeOf, tmplErr, Outside.save, (hO _).2.1, Bool.true_eq_false, if_false]
      exact ⟨_, rfl⟩
    | some x =>
      simp only [outcomeOf, Outside.save, (hO _).2.1, Bool.true_eq_false, if_false, (hO _).2.2, if_true, andNext]
      refine writeAll_err hO ps _ (fun q hq => h1 q (List.mem_cons_of_mem _ hq)) ?_
      obtain ⟨q, hq, e'⟩ := h2
      rcases List.mem_cons.1 hq with rfl | hq
      · rw [e] at e'; cases e'
      · exact ⟨q, hq, e'⟩

/-- Enough fuel for one is enough for all. -/
theorem fuel_all {P : Nat → Nat → Prop} : ∀ (ps : List Nat), (∀ p ∈ ps, ∃ N, ∀ m, N ≤ m → P p m) → ∃ N, ∀ m, N ≤ m → ∀ p ∈ ps, P p m
  | [], _ => ⟨0, fun _ _ p hp => by cases hp⟩
  | p :: ps, h => by
    obtain ⟨N1, h1⟩ := h p List.mem_cons_self
    obtain ⟨N2, h2⟩ := fuel_all ps fun q hq => h q (List.mem_cons_of_mem _ hq)
    refine ⟨N1 + N2, fun m hm q hq => ?_⟩
    rcases List.mem_cons.1 hq with rfl | hq
    · exact h1 m (by omega)
    · exact h2 m (by omega) q hq

section
variable {nl : Str} (hnl : nl = ['\n'] ∨ nl = ['\r', '\n']) {b : Part} (hb : b.ok)
  {J : Job} (hJ : J.Whole) {W : World} {info : FileInfo} (hf : W.fs J.input = some info) (hd : info.data = some (b.src nl))
  {O : Outside} (hO : O.Fine) {ext : Str} {S : Site} (short : Bool)
include hnl hb hJ hf hd hO

/-- **C94**: a manuscript that consists of what plain text can be made of is built as plain text: for each section that starts
a page there is a file with its name, and in it is, to the letter, what `typedPage` says. No other file is touched, except that of
the search index if it is asked for. -/
theorem C94_typed (hp : PagesApart b) (he : goodExt ext)
    (hi : J.saveIndex = true → ∀ ks p, Place b ks 1 ks p p → p.name ++ q%"." ++ ext ≠ q%"search_index.json")
    (ht : ∀ ks p, Place b ks 1 ks p p → typedPage ks p ≠ none) :
    ∃ N, ∀ n, N ≤ n → ∃ K, ∀ k, K ≤ k → ∀ d, let B := J.build W O (textEngine ext S) S.brokenOk short n k d
      B.res = .ok () ∧
      (∀ ks p, Place b ks 1 ks p p → B.disk (joinPath J.out (p.name ++ q%"." ++ ext)) = typedPage ks p) ∧
      ∀ f, (∀ ks p, Place b ks 1 ks p p → f ≠ joinPath J.out (p.name ++ q%"." ++ ext)) →
        (J.saveIndex = true → f ≠ joinPath J.out q%"search_index.json") → B.disk f = d f := by
  refine ⟨depth b + 1, fun n hn => ?_⟩
  obtain ⟨m, rfl⟩ : ∃ m, n = m + 1 := ⟨n - 1, by omega⟩
  obtain ⟨s, t, hl, L⟩ := load_part (W := W) hnl hb hf hd (plugins := [0]) rfl (n := m) (by omega)
  obtain ⟨t', ps, e, bk, hps, hbuild⟩ := C68_build hJ hl hO (textEngine ext S) S.brokenOk short
  have bk' := L.made.book L.nodup
  obtain rfl := Tree.unique (h := s.heap) (e.trans L.top.symm) bk.children bk'.children
  have hw := written_places L (by rw [e]; exact hps)
  have hname : ∀ {ks u p}, t'.At ks u → Place b ks 1 ks p p → s.heap.filePathOf J.out ext u.root = joinPath J.out (p.name ++ q%"." ++ ext) ∧
      (s.heap.get u.root).primaryTag.name = p.name := by
    intro ks u p ha hpl
    obtain ⟨u', so, par, par', a1, a2, _⟩ := place_at L.made hpl
    obtain rfl := ha.inj a1
    obtain ⟨l, et⟩ := a2.inv.2.1.tag
    simp [Heap.filePathOf, Heap.fileName, et]
  have plain : ∀ {ks p}, Place b ks 1 ks p p → Plain (p.name ++ q%"." ++ ext) := fun hpl => plain_fileName (hp _ _ hpl).1 he
  obtain ⟨N, hN⟩ := fuel_all ps (P := fun q m => ∀ ks u p, t'.At ks u → u.root = q → Place b ks 1 ks p p →
      s.heap.txtPage S m q = outcomeOf (typedPage ks p)) (fun q hq => by
    obtain ⟨ks, u, p, ha, rfl, hpl⟩ := (hw q).1 hq
    obtain ⟨N, h⟩ := L.typedPage (S := S) hpl ha
    refine ⟨N, fun m hm ks' u' p' ha' e' hpl' => ?_⟩
    obtain ⟨rfl, rfl⟩ := ha.unique L.nodup ha' e'.symm
    obtain ⟨-, -, -, rfl⟩ := place_unique hpl hpl'
    exact h m hm)
  obtain ⟨K, hK⟩ := hbuild (fun q hq => by
      obtain ⟨ks, u, p, ha, rfl, hpl⟩ := (hw q).1 hq
      obtain ⟨x, ex⟩ := Option.ne_none_iff_exists'.1 (ht ks p hpl)
      exact ⟨x, N, fun m hm => by rw [← show outcomeOf (some x) = Res.ok x from rfl, ← ex]; exact hN m hm _ hq _ _ _ ha rfl hpl⟩)
    fun hs => ⟨by rw [← e]; exact L.index S.brokenOk ext, fun q hq => by
      obtain ⟨ks, u, p, ha, rfl, hpl⟩ := (hw q).1 hq
      intro e2
      have e2 : s.heap.filePathOf J.out ext u.root = _ := e2
      rw [(hname ha hpl).1] at e2
      exact hi hs ks p hpl (joinPath_inj hJ.out (plain hpl) (by unfold Plain; decide) e2)⟩
  refine ⟨K + N, fun k hk d => ?_⟩
  obtain ⟨h1, h2, -, h4⟩ := hK k (by omega) d
  refine ⟨h1, fun ks p hpl => ?_, fun f hf => h4 f fun i hi => ?_⟩
  · obtain ⟨u, _, _, _, ha, _⟩ := place_at L.made hpl
    obtain ⟨q, hq, e1, txt, h5, h6⟩ := h2 u.root ((hw u.root).2 ⟨ks, u, p, ha, rfl, hpl⟩)
    obtain ⟨ks', u', p', ha', rfl, hpl'⟩ := (hw q).1 hq
    have e1 : s.heap.filePathOf J.out ext u'.root = s.heap.filePathOf J.out ext u.root := e1
    have h6 : (J.build W O (textEngine ext S) S.brokenOk short (m + 1) k d).disk (s.heap.filePathOf J.out ext u.root) = some txt := h6
    rw [(hname ha hpl).1, (hname ha' hpl').1] at e1
    have e1 := List.append_cancel_right (List.append_cancel_right (joinPath_inj hJ.out (plain hpl') (plain hpl) e1))
    obtain rfl := (hp _ _ hpl).2 _ _ hpl' e1
    obtain rfl := ha.inj ha'
    have h5 : s.heap.txtPage S k u.root = .ok txt := h5
    rw [hN k (by omega) _ hq _ _ _ ha rfl hpl] at h5
    rw [← (hname ha hpl).1, h6]
    cases ex : typedPage ks' p with
    | none => rw [ex] at h5; cases h5
    | some x => rw [ex] at h5; cases h5; rfl
  · obtain ⟨ks, u, p, ha, rfl, hpl⟩ := (hw i).1 hi
    have := hf ks p hpl
    rw [← (hname ha hpl).1] at this
    exact this

/-- **C94**: and if some page has something on it that plain text cannot be made of, then the build fails. -/
theorem C94_fails (ht : ∃ ks p, Place b ks 1 ks p p ∧ typedPage ks p = none) :
    ∃ N, ∀ n, N ≤ n → ∃ K, ∀ k, K ≤ k → ∀ d, ∃ e, (J.build W O (textEngine ext S) S.brokenOk short n k d).res = .err e := by
  refine ⟨depth b + 1, fun n hn => ?_⟩
  obtain ⟨m, rfl⟩ : ∃ m, n = m + 1 := ⟨n - 1, by omega⟩
  obtain ⟨s, t, hl, L⟩ := load_part (W := W) hnl hb hf hd (plugins := [0]) rfl (n := m) (by omega)
  obtain ⟨t', ps, e, bk, hps, -⟩ := C68_build hJ hl hO (textEngine ext S) S.brokenOk short
  have bk' := L.made.book L.nodup
  obtain rfl := Tree.unique (h := s.heap) (e.trans L.top.symm) bk.children bk'.children
  have hw := written_places L (by rw [e]; exact hps)
  obtain ⟨N, hN⟩ := fuel_all ps (P := fun q m => ∀ ks u p, t'.At ks u → u.root = q → Place b ks 1 ks p p →
      s.heap.txtPage S m q = outcomeOf (typedPage ks p)) (fun q hq => by
    obtain ⟨ks, u, p, ha, rfl, hpl⟩ := (hw q).1 hq
    obtain ⟨N, h⟩ := L.typedPage (S := S) hpl ha
    refine ⟨N, fun m hm ks' u' p' ha' e' hpl' => ?_⟩
    obtain ⟨rfl, rfl⟩ := ha.unique L.nodup ha' e'.symm
    obtain ⟨-, -, -, rfl⟩ := place_unique hpl hpl'
    exact h m hm)
  obtain ⟨K, hK⟩ := hps
  refine ⟨K + N, fun k hk d => ?_⟩
  rw [build_whole hJ hl, if_neg (by rw [(hO _).1]; simp), (write_all k).1 _ _ (hK k (by omega))]
  obtain ⟨e', h1⟩ := writeAll_err hO (h := s.heap) (E := textEngine ext S) (dest := J.out) (k := k)
    (f := fun q => match s.heap.txtPage S k q with | .ok x => some x | _ => none) ps d (fun q hq => by
      obtain ⟨ks, u, p, ha, rfl, hpl⟩ := (hw q).1 hq
      have := hN k (by omega) _ hq _ _ _ ha rfl hpl
      show s.heap.txtPage S k u.root = _
      rw [this]
      cases typedPage ks p <;> rfl) (by
      obtain ⟨ks, p, hpl, e0⟩ := ht
      obtain ⟨u, _, _, _, ha, _⟩ := place_at L.made hpl
      have hq := (hw u.root).2 ⟨ks, u, p, ha, rfl, hpl⟩
      refine ⟨_, hq, ?_⟩
      rw [hN k (by omega) _ hq _ _ _ ha rfl hpl, e0]
      rfl)
  refine ⟨e', ?_⟩
  simp only
  cases hx : s.heap.writeAll O (textEngine ext S) J.out k ps d with
  | mk r d1 =>
    rw [hx] at h1
    simp only at h1
    subst h1
    rfl

end

/-! ### Examples -/

/-- A manuscript with what plain text can be made of, with two pages. -/
def typedManuscript : Part :=
  .mk [.text q%"Notes"] [] true false
    [.para [[.text q%"First"], [.text q%"lines."]], .box false [.para [[.text q%"In"]], .para [[.text q%"Set"]]], .toc]
    [.mk [.text q%"One", .aux [.text q%": or so"]] [] false false [.para [[.aux [.text q%"x"]]]] [.mk [.text q%"Low"] [] false false [] []]]

theorem typedManuscript_ok : typedManuscript.ok := by
  simp [typedManuscript, Part.ok, okParts, okBlks, Blk.ok, okSpans, Span.ok, Ms.lineOk, runOk, apart, Span.isText, oneLine, isBlank, titleOk,
    notOnlyAux, bareSpans, Span.bare]

theorem typedManuscript_typed {ks : List Nat} {p : Part} (h : Place typedManuscript ks 1 ks p p) : typedPage ks p ≠ none := by
  have := List.all_eq_true.1 (show (spots [] 1 [] none typedManuscript).all (fun e => (typedPage e.ks e.p).isSome) = true by decide +kernel)
    ⟨ks, 1, ks, p, p⟩ ((mem_spots _).2 h)
  intro e
  simp only [e] at this
  cases this

/-- A job without search index. -/
def typedJob : Job := { input := q%"x.lit", out := q%"o" }

/-- It is built; on its second page is the text of a section and of one below it. On the first is a table of contents, without what is
auxiliary in a title. -/
example (d : Disk) : ∃ n k, let B := typedJob.build (plainFile (typedManuscript.src ['\n'])) calm (textEngine q%"txt" ⟨false, fun _ => none⟩) false true n k d
    B.res = .ok () ∧ B.disk q%"o/one.txt" = some q%"One: or so\n\n1 One: or sox\n\n\n\n\n\n1.1 Low\n\n\n\n\n\n" ∧
    B.disk q%"o/notes.txt" =
      some q%"Notes\n\nNotesFirst lines.\n\n    In\n    \n    Set\n    \n    \n\n1 One\n\n\n\n1.1 Low\n\n\n\n\n\n\n\n" := by
  obtain ⟨n, hn⟩ := C94_typed (.inl rfl) typedManuscript_ok
    (J := typedJob) ⟨by simp [typedJob], rfl, rfl⟩ (W := plainFile (typedManuscript.src ['\n'])) rfl rfl
    (O := calm) (fun _ => ⟨rfl, rfl, rfl⟩) (ext := q%"txt") (S := ⟨false, fun _ => none⟩) true (.of_check (by decide +kernel))
    (by unfold goodExt; decide) (fun h => by cases h) (fun _ _ => typedManuscript_typed)
  obtain ⟨k, hk⟩ := hn n (Nat.le_refl _)
  obtain ⟨h1, h2, h3⟩ := hk k (Nat.le_refl _) d
  refine ⟨n, k, h1, (h2 [0] _ (.page (k := 0) .top rfl rfl)).trans ?_, (h2 [] _ .top).trans ?_⟩ <;> decide +kernel

/-- The manuscript of C85 cannot be shown as plain text. -/
example (d : Disk) : ∃ n k e, (someJob.build (plainFile (someManuscript.src ['\n'])) calm (textEngine q%"txt" ⟨false, fun _ => none⟩) false true n k d).res =
    .err e := by
  obtain ⟨n, hn⟩ := C94_fails (.inl rfl) someManuscript_ok
    (J := someJob) ⟨by simp [someJob], rfl, rfl⟩ (W := plainFile (someManuscript.src ['\n'])) rfl rfl
    (O := calm) (fun _ => ⟨rfl, rfl, rfl⟩) (ext := q%"txt") (S := ⟨false, fun _ => none⟩) true ⟨[], _, .top, by decide +kernel⟩
  obtain ⟨k, hk⟩ := hn n (Nat.le_refl _)
  obtain ⟨e, h⟩ := hk k (Nat.le_refl _) d
  exact ⟨n, k, e, h⟩

end Booklit.Props
