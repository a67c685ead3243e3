import Verif.Lemmas.MsRefsL
import Verif.Props.MsTyped
import Verif.Lemmas.CommandL

/-!
C95: a manuscript is built exactly when its references are in order, and otherwise the first that is not is reported.
-/

namespace Booklit.Props

open Booklit Booklit.Src Booklit.Ms

/-- Pages are written one after the other until one of them cannot be rendered. -/
theorem writeAll_first {h : Heap} {O : Outside} (hO : O.Fine) {S : Site} {b : Part} {dest name : Str} {ps : List Nat} {rs : List (List Str)}
    (hp : All2 (fun q r => Fares S b (fun m => h.page S m q) r) ps rs) (hf : rs.flatten.find? (bad S b) = some name) :
    ∃ e N, Blames b name e ∧ ∀ k, N ≤ k → ∀ d, (h.writeAll O (htmlEngine S) dest k ps d).1 = .err e := by
  induction hp with
  | nil => cases hf
  | @cons p r ps rs h1 h2 ih =>
    obtain ⟨N, res, h3, h4⟩ := h1
    rw [List.flatten_cons, List.find?_append] at hf
    cases e : r.find? (bad S b) with
    | some y =>
      rw [e] at hf h4
      cases hf
      obtain ⟨x, rfl, hx⟩ := h4
      refine ⟨x, N, hx, fun k hk d => ?_⟩
      have hr : (htmlEngine S).render h k p = .err x := h3 k hk
      rw [Heap.writeAll, Heap.writeSingle, hr]
      simp only [Outside.save, (hO _).2.1, Bool.true_eq_false, if_false]
      rfl
    | none =>
      rw [e] at hf h4
      obtain ⟨x, rfl⟩ := h4
      obtain ⟨er, M, h5, h6⟩ := ih hf
      refine ⟨er, N + M, h5, fun k hk d => ?_⟩
      have hr : (htmlEngine S).render h k p = .ok x := h3 k (by omega)
      rw [Heap.writeAll, Heap.writeSingle, hr]
      simp only [Outside.save, (hO _).2.1, Bool.true_eq_false, if_false, (hO _).2.2, if_true, andNext]
      exact h6 k (by omega) _

theorem fares_ok {h : Heap} {S : Site} {b : Part} {ps : List Nat} {rs : List (List Str)}
    (hp : All2 (fun q r => Fares S b (fun m => h.page S m q) r) ps rs) (hf : rs.flatten.find? (bad S b) = none) :
    ∀ p ∈ ps, ∃ txt N, ∀ m, N ≤ m → h.page S m p = .ok txt := by
  induction hp with
  | nil => intro p hp; cases hp
  | @cons p r ps rs h1 h2 ih =>
    rw [List.flatten_cons, List.find?_append, Option.or_eq_none_iff] at hf
    intro q hq
    rcases List.mem_cons.1 hq with rfl | hq
    · obtain ⟨N, res, h3, h4⟩ := h1
      rw [hf.1] at h4
      obtain ⟨x, rfl⟩ := h4
      exact ⟨x, N, h3⟩
    · exact ih hf.2 q hq

section
variable {nl : Str} (hnl : nl = ['\n'] ∨ nl = ['\r', '\n']) {b : Part} (hb : b.ok)
  {J : Job} (hJ : J.Whole) {W : World} {info : FileInfo} (hf : W.fs J.input = some info) (hd : info.data = some (b.src nl))
  {O : Outside} (hO : O.Fine) {S : Site} (short : Bool)
include hnl hb hJ hf hd hO

/-- **C95**: a manuscript is built if every name it refers to is the name of exactly one thing in it, and in any case if broken
references are allowed. -/
theorem C95_built (hr : S.brokenOk = true ∨ RefsOk b) :
    ∃ N, ∀ n, N ≤ n → ∃ K, ∀ k, K ≤ k → ∀ d, (J.build W O (htmlEngine S) S.brokenOk short n k d).res = .ok () := by
  refine ⟨depth b + 1, fun n hn => ?_⟩
  obtain ⟨m, rfl⟩ : ∃ m, n = m + 1 := ⟨n - 1, by omega⟩
  obtain ⟨s, t, hl, L⟩ := load_part (W := W) hnl hb hf hd (plugins := [0]) rfl (n := m) (by omega)
  have reach : Reach W s := by
    have := Reach.load (m + 1) none J.input [0] (Reach.start (W := W)) (by simp) rfl
    rwa [hl] at this
  obtain ⟨t', ps, e, bk, hps, hbuild⟩ := C68_build hJ hl hO (htmlEngine S) S.brokenOk short
  obtain rfl := Tree.unique (h := s.heap) (e.trans L.top.symm) bk.children (L.made.book L.nodup).children
  obtain ⟨rs, h1, h2⟩ := L.sitePages (S := S) reach.sound (by rw [e]; exact hps)
  have none : rs.flatten.find? (bad S b) = none := by
    rw [h2, List.find?_eq_none]
    intro x hx
    rcases hr with hr | hr
    · simp [bad, hr]
    · have := List.find?_eq_none.1 ((broken_iff b).2 hr) x hx
      simp only [ne_eq, decide_not, Bool.not_eq_true', decide_eq_false_iff_not, Decidable.not_not] at this
      simp [bad, this]
  obtain ⟨K, hK⟩ := hbuild (fares_ok h1 none)
    fun _ => ⟨by rw [← e]; exact L.index S.brokenOk htmlExt, fun p _ => html_not_index hJ.out p⟩
  exact ⟨K, fun k hk d => (hK k hk d).1⟩

/-- **C95**: otherwise the build fails, and the error is about the first of the names, in the order of the pages and on each page in
reading order, that is not the name of exactly one thing. -/
theorem C95_blamed (hS : S.brokenOk = false) {name : Str} (hr : b.broken = some name) :
    ∃ N, ∀ n, N ≤ n → ∃ K e, Blames b name e ∧ ∀ k, K ≤ k → ∀ d, (J.build W O (htmlEngine S) S.brokenOk short n k d).res = .err e := by
  refine ⟨depth b + 1, fun n hn => ?_⟩
  obtain ⟨m, rfl⟩ : ∃ m, n = m + 1 := ⟨n - 1, by omega⟩
  obtain ⟨s, t, hl, L⟩ := load_part (W := W) hnl hb hf hd (plugins := [0]) rfl (n := m) (by omega)
  have reach : Reach W s := by
    have := Reach.load (m + 1) none J.input [0] (Reach.start (W := W)) (by simp) rfl
    rwa [hl] at this
  obtain ⟨t', ps, e, bk, hps, -⟩ := C68_build hJ hl hO (htmlEngine S) S.brokenOk short
  obtain rfl := Tree.unique (h := s.heap) (e.trans L.top.symm) bk.children (L.made.book L.nodup).children
  obtain ⟨rs, h1, h2⟩ := L.sitePages (S := S) reach.sound (by rw [e]; exact hps)
  have hb' : bad S b = fun name => decide (b.names.count name ≠ 1) := by
    funext x
    simp [bad, hS]
  obtain ⟨er, N, h3, h4⟩ := writeAll_first hO (dest := J.out) h1 (by rw [h2, hb']; exact hr)
  obtain ⟨K, hK⟩ := hps
  refine ⟨K + N, er, h3, fun k hk d => ?_⟩
  have h5 := h4 k (by omega) d
  rw [build_whole hJ hl, if_neg (by rw [(hO _).1]; simp), (write_all k).1 _ _ (hK k (by omega))]
  simp only
  cases hx : s.heap.writeAll O (htmlEngine S) J.out k ps d with
  | mk r d1 =>
    rw [hx] at h5
    simp only at h5
    subst h5
    rfl

/-- **C95**: so a manuscript can be built exactly if its references are in order. -/
theorem C95_exactly (hS : S.brokenOk = false) :
    (∃ N, ∀ n, N ≤ n → ∃ K, ∀ k, K ≤ k → ∀ d, (J.build W O (htmlEngine S) S.brokenOk short n k d).res = .ok ()) ↔ RefsOk b := by
  refine ⟨fun ⟨N, hN⟩ => ?_, fun hr => C95_built hnl hb hJ hf hd hO short (.inr hr)⟩
  rw [← broken_iff]
  cases e : b.broken with
  | none => rfl
  | some name =>
    obtain ⟨M, hM⟩ := C95_blamed hnl hb hJ hf hd hO short hS e
    obtain ⟨K1, h1⟩ := hN (N + M) (by omega)
    obtain ⟨K2, er, -, h2⟩ := hM (N + M) (by omega)
    have h1 := h1 (K1 + K2) (by omega) fun _ => none
    rw [h2 (K1 + K2) (by omega) fun _ => none] at h1
    cases h1

end

/-! ### Examples -/

/-- Two pages. On the second one a name is misspelt, and after it there is one that two things have; on the first one nothing is wrong. -/
def brokenManuscript : Part :=
  .mk [.text q%"Notes"] [] true false
    [.para [[.text q%"See ", .ref q%"one"]]]
    [.mk [.text q%"One"] [] false false [.para [[.see q%"tow" [.text q%"there"]], [.ref q%"low"]]]
      [.mk [.text q%"Low"] [] false false [.para [[.target q%"low" none]]] []]]

theorem brokenManuscript_ok : brokenManuscript.ok := by
  simp [brokenManuscript, Part.ok, okParts, okBlks, Blk.ok, okSpans, Span.ok, Ms.lineOk, runOk, apart, Span.isText, oneLine, isBlank, titleOk,
    notOnlyAux, bareSpans, Span.bare, fullSpans, Span.full]

/-- The error is about the misspelt name, and says that there is no such name. -/
example (d : Disk) : ∃ n k known f l, (someJob.build (plainFile (brokenManuscript.src ['\n'])) calm (htmlEngine ⟨false, fun _ => none⟩) false true n k d).res =
    .err (.unknownTag q%"tow" known f l) ∧ known.Perm [q%"notes", q%"one", q%"low", q%"low"] := by
  obtain ⟨n, hn⟩ := C95_blamed (.inl rfl) brokenManuscript_ok
    (J := someJob) ⟨by simp [someJob], rfl, rfl⟩ (W := plainFile (brokenManuscript.src ['\n'])) rfl rfl
    (O := calm) (fun _ => ⟨rfl, rfl, rfl⟩) (S := ⟨false, fun _ => none⟩) true rfl (name := q%"tow") (by decide +kernel)
  obtain ⟨k, e, he, hk⟩ := hn n (Nat.le_refl _)
  cases e with
  | unknownTag x known f l =>
    obtain ⟨rfl, -, h3⟩ := he
    exact ⟨n, k, known, f, l, hk k (Nat.le_refl _) d, h3⟩
  | ambiguous x ds f l =>
    obtain ⟨rfl, h2, -⟩ := he
    exact absurd h2 (by decide +kernel)
  | _ => exact he.elim

/-- With broken references allowed it is built. -/
example (d : Disk) : ∃ n k, (someJob.build (plainFile (brokenManuscript.src ['\n'])) calm (htmlEngine ⟨true, fun _ => none⟩) true true n k d).res = .ok () := by
  obtain ⟨n, hn⟩ := C95_built (.inl rfl) brokenManuscript_ok
    (J := someJob) ⟨by simp [someJob], rfl, rfl⟩ (W := plainFile (brokenManuscript.src ['\n'])) rfl rfl
    (O := calm) (fun _ => ⟨rfl, rfl, rfl⟩) (S := ⟨true, fun _ => none⟩) true (.inl rfl)
  obtain ⟨k, hk⟩ := hn n (Nat.le_refl _)
  exact ⟨n, k, hk k (Nat.le_refl _) d⟩

end Booklit.Props
