import Verif.Props.MsLetters
import Verif.Props.MsServer
import Verif.Lemmas.MsEditTyped

/-!
C97: manuscripts in several files, and on the development server, to the letter.
-/

namespace Booklit.Props

open Booklit Booklit.Src Booklit.Ms Booklit.Cache

section
variable {p : Script} (hb : p.whole.ok) {J : Job} (hJ : J.Whole) (hi : J.input ≠ [])
  {W : World} (hW : ∀ q n, W.foreign q n = none) (hf : InFile W.fs J.input p) (hs : p.Stored W.fs (dirPath J.input))
  {O : Outside} (hO : O.Fine) {S : Site} (hS : ∀ i, S.force i = none) (short : Bool)
include hb hJ hi hW hf hs hO hS

/-- **C97**: a manuscript is distributed over several files (see C90). In the file of each page is, to the letter, what `webPage` says of
the whole manuscript: nothing on it shows what was in which file. No other file is touched, except that of the search index if it is asked for. -/
theorem C97_files (hr : S.brokenOk = true ∨ RefsOk p.whole) (hp : PagesApart p.whole) :
    ∃ N, ∀ n, N ≤ n → ∃ K, ∀ k, K ≤ k → ∀ d, let B := J.build W O (htmlEngine S) S.brokenOk short n k d
      B.res = .ok () ∧
      (∀ ks q, Place p.whole ks 1 ks q q → B.disk (joinPath J.out (q.name ++ q%".html")) = some (webPage p.whole ks q)) ∧
      ∀ f, (∀ ks q, Place p.whole ks 1 ks q q → f ≠ joinPath J.out (q.name ++ q%".html")) →
        (J.saveIndex = true → f ≠ joinPath J.out q%"search_index.json") → B.disk f = d f := by
  obtain ⟨W0, ⟨i, h1, h2⟩, he⟩ := script_build hb hJ hi hW hf hs hS
  obtain ⟨n0, hn⟩ := C96_letters (.inl rfl) hb hr hp hJ h1 h2 hO short
  obtain ⟨K, hK⟩ := hn n0 (Nat.le_refl _)
  refine ⟨(p.nest + 1) * n0, fun n hn => ⟨K, fun k hk d => ?_⟩⟩
  have := hK k hk d
  dsimp only at this ⊢
  rw [he this.1 hn]
  exact this

/-- **C97**: the files are changed, so that in one section of the book there is another text with the same targets; which sections are in files
of their own may be changed, too. If the book is built again, only the file of the page that the section is on changes (and the
search index). -/
theorem C97_edit {p' : Script} {ks os : List Nat} {l : Nat} {o q : Part} (hpl : Place p.whole ks l os o q) {body : List Blk} (hbody : okBlks body)
    (hm : marksBlks body = marksBlks q.body) (he : p'.whole = p.whole.put body ks)
    (hr : S.brokenOk = true ∨ RefsOk p.whole ∧ RefsOk p'.whole) (hp : PagesApart p.whole)
    {W' : World} (hW' : ∀ q n, W'.foreign q n = none) (hf' : InFile W'.fs J.input p') (hs' : p'.Stored W'.fs (dirPath J.input))
    {O' : Outside} (hO' : O'.Fine) (short' : Bool) :
    ∃ N, ∀ n, N ≤ n → ∃ K, ∀ k, K ≤ k → ∀ d, let B := J.build W O (htmlEngine S) S.brokenOk short n k d
      let B' := J.build W' O' (htmlEngine S) S.brokenOk short' n k B.disk
      B.res = .ok () ∧ B'.res = .ok () ∧
      ∀ f, f ≠ joinPath J.out (o.name ++ q%".html") → (J.saveIndex = true → f ≠ joinPath J.out q%"search_index.json") → B'.disk f = B.disk f := by
  have hb' : p'.whole.ok := by rw [he]; exact put_ok hbody ks _ hb
  obtain ⟨W0, ⟨i, h1, h2⟩, he0⟩ := script_build hb hJ hi hW hf hs hS
  obtain ⟨W1, ⟨i', h1', h2'⟩, he1⟩ := script_build hb' hJ hi hW' hf' hs' hS
  rw [he] at hr h2'
  obtain ⟨n0, hn⟩ := C96_edit (.inl rfl) hb hp hpl hbody hm hr hJ h1 h2 h1' h2' hO hO' short short'
  obtain ⟨K, hK⟩ := hn n0 (Nat.le_refl _)
  refine ⟨(p.nest + 1) * n0 + (p'.nest + 1) * n0, fun n hn => ⟨K, fun k hk d => ?_⟩⟩
  obtain ⟨g1, g2, g3⟩ := hK k hk d
  have e0 := he0 (O := O) (short := short) (N := n) g1 (by omega)
  have e1 := he1 (O := O') (short := short') (N := n) g2 (by omega)
  dsimp only
  rw [e0, e1]
  exact ⟨g1, g2, g3⟩

end

section
variable {nl : Str} (hnl : nl = ['\n'] ∨ nl = ['\r', '\n']) {b : Part} (hb : b.ok) {W : World} (hW : W.Local) {S : Site}
  (hS : ∀ i, S.force i = none) (hr : S.brokenOk = true ∨ RefsOk b) {input : Str} {fs : Files} {info : FileInfo} (hf : fs input = some info)
  (hd : info.data = some (b.src nl)) {past : List Files} {s : St} (hs : Served W (htmlEngine S) input (fs :: past) s)
include hnl hb hr hW hS hf hd hs

/-- **C97**: whatever the development server has been asked before, and whatever was in the files then, to the request for a section by
one of its names, or by the name of a target in it, it answers, to the letter, with what the manuscript says now. If the section starts
a page, this is the page that a build writes (see `C96_letters`). -/
theorem C97_shown {ks os : List Nat} {n : Nat} {o p : Part} (hp : Place b ks n os o p) {name : Str}
    (hn : name ∈ p.tags ++ (marksBlks p.body).map (·.1)) (hc : b.names.count name = 1) :
    ∃ M, ∀ m, M ≤ m → ∃ K, ∀ k, K ≤ k →
      (answer (W.on fs) (htmlEngine S) m k input ('/' :: (name ++ q%".html")) s).1 = .ok (.page (webShown b o.name ks n p)) := by
  refine ⟨depth b + 1, fun m hm => ?_⟩
  obtain ⟨s', t, hl, L⟩ := load_part (W := W.on fs) hnl hb hf hd (plugins := [0]) rfl (n := depth b) (Nat.le_refl _)
  obtain ⟨z, hz, N, hN⟩ := asks_section L hp hn hc
  obtain ⟨K, hK⟩ := L.shown (S := S) hr hp hz
  refine ⟨K + N, fun k hk => ?_⟩
  have hpage : s'.heap.page S k z.root = .ok (webShown b o.name ks n p) := hK k (by omega)
  have fresh : (answer (W.on fs) (htmlEngine S) (depth b + 1) k input ('/' :: (name ++ q%".html")) ⟨[], []⟩).1 = .ok (.page (webShown b o.name ks n p)) := by
    have h4 : s'.heap.requested htmlExt k 0 ('/' :: (name ++ ['.'] ++ htmlExt)) = some (some z.root) := by
      rw [← L.top]
      exact hN k (by omega)
    have hname : name ++ q%".html" = name ++ ['.'] ++ htmlExt := by simp [htmlExt]
    rw [hname]
    unfold answer
    change (match requestTag htmlExt _ with | none => _ | some _ => _ : Res Answer × St).1 = _
    rw [requestTag_page]
    dsimp only
    rw [hl]
    dsimp only
    change (match s'.heap.requested htmlExt k 0 _ with | none => _ | some none => _ | some (some j) => _ : Res Answer × St).1 = _
    rw [h4]
    change (s'.heap.page S k z.root).map _ = _
    rw [hpage]
    rfl
  rw [C74_history hW (fun i c e => by rw [hS] at e; cases e) hs _ hm (Nat.le_refl k) (by rw [fresh]; simp), fresh]

end

section
variable {p : Script} (hb : p.whole.ok) {W : World} (hW : ∀ q n, W.foreign q n = none) {S : Site} (hS : ∀ i, S.force i = none)
  (hr : S.brokenOk = true ∨ RefsOk p.whole) {input : Str} (hi : input ≠ [])
include hb hW hS hr hi

/-- **C97**: the same if the manuscript is distributed over several files, any of which may have been changed. -/
theorem C97_shown_files {fs : Files} (hf : InFile fs input p) (hst : p.Stored fs (dirPath input)) {past : List Files} {s : St}
    (hs : Served W (htmlEngine S) input (fs :: past) s) {ks os : List Nat} {n : Nat} {o q : Part} (hp : Place p.whole ks n os o q) {name : Str}
    (hn : name ∈ q.tags ++ (marksBlks q.body).map (·.1)) (hc : p.whole.names.count name = 1) :
    ∃ M, ∀ m, M ≤ m → ∃ K, ∀ k, K ≤ k →
      (answer (W.on fs) (htmlEngine S) m k input ('/' :: (name ++ q%".html")) s).1 = .ok (.page (webShown p.whole o.name ks n q)) := by
  obtain ⟨fs0, ⟨i, h1, h2⟩, ht⟩ := script_answer hb hW hS hi hf hst hs
  obtain ⟨M, hM⟩ := C97_shown (.inl rfl) hb (W := W) (fun _ _ _ f e => by rw [hW] at e; cases e) hS hr h1 h2 (.start fs0) hp hn hc
  obtain ⟨K, hK⟩ := hM M (Nat.le_refl _)
  exact ⟨(p.nest + 1) * M, fun m hm => ⟨K, fun k hk => ht (hK k hk) hm⟩⟩

/-- **C97**: and so if several requests are served at the same time (see `C93_same_time`). -/
theorem C97_same_time {as bs : List Cache.Action} {s t : Cache.Sys} (before : Cache.run Sys.init as = some s)
    (during : Cache.run s bs = some t) (quiet : ∀ a ∈ bs, a.changes = false) (times : ∀ q, Increasing (t.disk q))
    {env : Nat → Moment} (finds : ∀ k, Meets s bs (env k)) (hf : InFile s.files input p) (hst : p.Stored s.files (dirPath input))
    {ks os : List Nat} {n : Nat} {o q : Part} (hp : Place p.whole ks n os o q) {name : Str}
    (hn : name ∈ q.tags ++ (marksBlks q.body).map (·.1)) (hc : p.whole.names.count name = 1) :
    ∃ M, ∀ m, M ≤ m → ∃ K, ∀ k, K ≤ k →
      answerAmid W env (htmlEngine S) m k input ('/' :: (name ++ q%".html")) = .ok (.page (webShown p.whole o.name ks n q)) := by
  obtain ⟨M, hM⟩ := C97_shown_files hb hW hS hr hi hf hst (.start s.files) hp hn hc
  refine ⟨M, fun m hm => ?_⟩
  obtain ⟨K, hK⟩ := hM m hm
  refine ⟨K, fun k hk => ?_⟩
  have e1 := hK k hk
  rw [C78_same_time before during quiet times finds _ _ _ _ _ (by rw [e1]; simp), e1]

/-- **C97**: the text of a section is replaced by one with the same targets while the server is running. What the server shows for sections that
are on other pages is the same as before, to the letter. -/
theorem C97_shown_edit {p' : Script} {ks os : List Nat} {l : Nat} {o q : Part} (hpl : Place p.whole ks l os o q) {body : List Blk} (hbody : okBlks body)
    (hm : marksBlks body = marksBlks q.body) (he : p'.whole = p.whole.put body ks) (hr' : S.brokenOk = true ∨ RefsOk p'.whole)
    {fs fs' : Files} (hf : InFile fs input p) (hst : p.Stored fs (dirPath input)) (hf' : InFile fs' input p') (hst' : p'.Stored fs' (dirPath input))
    {past past' : List Files} {s s' : St} (hs : Served W (htmlEngine S) input (fs :: past) s) (hs' : Served W (htmlEngine S) input (fs' :: past') s')
    {ks1 os1 : List Nat} {n1 : Nat} {o1 q1 : Part} (hp : Place p.whole ks1 n1 os1 o1 q1) (hne : os1 ≠ os) {name : Str}
    (hn : name ∈ q1.tags ++ (marksBlks q1.body).map (·.1)) (hc : p.whole.names.count name = 1) :
    ∃ M, ∀ m, M ≤ m → ∃ K, ∀ k, K ≤ k → ∃ txt,
      (answer (W.on fs) (htmlEngine S) m k input ('/' :: (name ++ q%".html")) s).1 = .ok (.page txt) ∧
      (answer (W.on fs') (htmlEngine S) m k input ('/' :: (name ++ q%".html")) s').1 = .ok (.page txt) := by
  have off : Off os [] [] p.whole p'.whole := by rw [he]; exact put_off hpl hm ks .top rfl
  have hb' : p'.whole.ok := by rw [he]; exact put_ok hbody ks _ hb
  obtain ⟨o2, q2, hp2, h2, h3⟩ := off.place hp
  have hn2 : name ∈ q2.tags ++ (marksBlks q2.body).map (·.1) := by
    cases h2 with
    | mk g1 _ _ =>
      simp only [Part.tags, Part.body] at hn ⊢
      rw [g1]
      exact hn
  obtain ⟨M, hM⟩ := C97_shown_files hb hW hS hr hi hf hst hs hp hn hc
  obtain ⟨M', hM'⟩ := C97_shown_files hb' hW hS hr' hi hf' hst' hs' hp2 hn2 (by rw [off.names]; exact hc)
  refine ⟨M + M', fun m hm => ?_⟩
  obtain ⟨K, hK⟩ := hM m (by omega)
  obtain ⟨K', hK'⟩ := hM' m (by omega)
  refine ⟨K + K', fun k hk => ⟨_, hK k (by omega), ?_⟩⟩
  rw [hK' k (by omega), h3.same.2.1, off.shown h2 hne]

end

/-- **C97**: and so with plain text (see `C94_typed`): if the text of one section is replaced by another with the same targets, and the book is
built again, then only the file of the page that the section is on changes (and the search index). -/
theorem C97_typed_edit {nl : Str} (hnl : nl = ['\n'] ∨ nl = ['\r', '\n']) {b : Part} (hb : b.ok) (hp : PagesApart b)
    {ks os : List Nat} {l : Nat} {o p : Part} (hs : Place b ks l os o p) {body : List Blk} (hbody : okBlks body) (hm : marksBlks body = marksBlks p.body)
    {J : Job} (hJ : J.Whole) {W W' : World} {info info' : FileInfo} (hf : W.fs J.input = some info) (hd : info.data = some (b.src nl))
    (hf' : W'.fs J.input = some info') (hd' : info'.data = some ((b.put body ks).src nl))
    {O O' : Outside} (hO : O.Fine) (hO' : O'.Fine) {ext : Str} (he : goodExt ext) {S : Site} (short short' : Bool)
    (hi : J.saveIndex = true → ∀ ks p, Place b ks 1 ks p p → p.name ++ q%"." ++ ext ≠ q%"search_index.json")
    (ht : ∀ ks p, Place b ks 1 ks p p → typedPage ks p ≠ none)
    (ht' : ∀ ks' p, Place (b.put body ks) ks' 1 ks' p p → typedPage ks' p ≠ none) :
    ∃ N, ∀ n, N ≤ n → ∃ K, ∀ k, K ≤ k → ∀ d, let B := J.build W O (textEngine ext S) S.brokenOk short n k d
      let B' := J.build W' O' (textEngine ext S) S.brokenOk short' n k B.disk
      B.res = .ok () ∧ B'.res = .ok () ∧
      ∀ f, f ≠ joinPath J.out (o.name ++ q%"." ++ ext) → (J.saveIndex = true → f ≠ joinPath J.out q%"search_index.json") → B'.disk f = B.disk f := by
  have off : Off os [] [] b (b.put body ks) := put_off hs hm ks .top rfl
  have back : ∀ {ks1 p1}, Place (b.put body ks) ks1 1 ks1 p1 p1 → ∃ p2, Place b ks1 1 ks1 p2 p2 ∧ p2.name = p1.name := by
    intro ks1 p1 h1
    obtain ⟨_, p2, h2, h3, -⟩ := off.symm.place h1
    obtain ⟨-, -, -, rfl⟩ := place_unique h2 (place_part h2)
    exact ⟨_, h2, h3.same.2.1⟩
  obtain ⟨N, hN⟩ := C94_typed hnl hb hJ hf hd hO (S := S) short hp he hi ht
  obtain ⟨N', hN'⟩ := C94_typed hnl (put_ok hbody ks b hb) hJ hf' hd' hO' (S := S) short' (off.apart hp) he
    (fun h ks1 p1 h1 => by obtain ⟨p2, h2, e⟩ := back h1; rw [← e]; exact hi h _ _ h2) ht'
  refine ⟨N + N', fun n hn => ?_⟩
  obtain ⟨K, hK⟩ := hN n (by omega)
  obtain ⟨K', hK'⟩ := hN' n (by omega)
  refine ⟨K + K', fun k hk d => ?_⟩
  obtain ⟨h1, h2, h3⟩ := hK k (by omega) d
  obtain ⟨h4, h5, h6⟩ := hK' k (by omega) (J.build W O (textEngine ext S) S.brokenOk short n k d).disk
  refine ⟨h1, h4, fun f hfo hfi => ?_⟩
  by_cases hpage : ∃ ks1 p1, Place b ks1 1 ks1 p1 p1 ∧ f = joinPath J.out (p1.name ++ q%"." ++ ext)
  · obtain ⟨ks1, p1, h7, rfl⟩ := hpage
    have hne : ks1 ≠ os := by
      rintro rfl
      obtain ⟨-, -, -, rfl⟩ := place_unique h7 (place_part hs)
      exact hfo rfl
    obtain ⟨_, p2, h8, h9, -⟩ := off.place h7
    obtain ⟨-, -, -, rfl⟩ := place_unique h8 (place_part h8)
    rw [h2 _ _ h7, ← h9.same.2.1, h5 _ _ h8, h9.typedPage hne]
  · refine h6 f (fun ks1 p1 h7 e => hpage ?_) hfi
    obtain ⟨p2, h8, e2⟩ := back h7
    exact ⟨ks1, p2, h8, by rw [e2]; exact e⟩

/-! ### Examples -/

/-- The server of C93 shows the section that is in the file of a file. -/
example : ∃ n k, (answer (baseOnly.on fun q => (someFiles q).map fun i => { i with mtime := 2 }) (htmlEngine plainSite) n k q%"d/x.lit" q%"/deep.html"
      (answer (baseOnly.on fun q => if q = q%"d/x.lit" then some ⟨1, some before⟩ else none) (htmlEngine plainSite) 5 9 q%"d/x.lit" q%"/b.html" ⟨[], []⟩).2).1 =
      .ok (.page q%"<!DOCTYPE html>\n<html>\n  <head>\n    <meta http-equiv=\"content-type\" content=\"text/html; charset=utf-8\" />\n    <title>Deep</title>\n  </head>\n  <body>\n    <h2 class=\"section-header\"><a id=\"deep\"></a><span class=\"section-number\">1.1 </span>Deep</h2>\n\n\n\n\n  \n\n  </body>\n</html>") := by
  have late : ∀ {path : Str} {p : Script}, InFile someFiles path p → InFile (fun q => (someFiles q).map fun i => { i with mtime := 2 }) path p := by
    rintro path p ⟨nl, i, h1, h2, h3⟩
    exact ⟨nl, { i with mtime := 2 }, h1, by dsimp only; rw [h2]; rfl, h3⟩
  obtain ⟨h1, h2⟩ := someScript_stored
  have p1 : Place someScript.whole [0, 0] 2 [0] _ _ := .same (k := 0) (.page (k := 0) .top rfl rfl) rfl rfl
  obtain ⟨a1, a2, ⟨a3, a4, a5, a6⟩, ⟨a7, a8⟩, a9⟩ := h2
  obtain ⟨M, hM⟩ := C97_shown_files someScript_ok (fun _ _ => rfl) (fun _ => rfl) (.inr (.of_check (by decide +kernel))) (by decide) (late h1)
    ⟨a1, late a2, ⟨a3, late a4, a5, a6⟩, ⟨a7, late a8.1, a8.2⟩, a9⟩ scriptServer p1 (name := q%"deep") (by decide +kernel) (by decide +kernel)
  obtain ⟨K, hK⟩ := hM M (Nat.le_refl _)
  exact ⟨M, K, (hK K (Nat.le_refl _)).trans (congrArg (fun x => Res.ok (Answer.page x)) (by decide +kernel))⟩

/-- The manuscript of C90 with another text in its second section; what was in the file `low.lit` is now in the file of the book. -/
def editedScript : Script :=
  .mk [.text q%"Book"] [] true false [.para [[.text q%"See ", .ref q%"deep"]]]
    [(some q%"one.lit", .mk [.text q%"One"] [] false true [.para [[.ref q%"two"]]] [(some q%"deep.lit", .mk [.text q%"Deep"] [] false false [] [])]),
     (none, .mk [.text q%"Two"] [] false false [.para [[.text q%"Also ", .ref q%"one"]]] [(none, .mk [.text q%"Low"] [] false false [.para [[.text q%"Low."]]] [])])]

/-- Its files. -/
def editedFiles : Str → Option FileInfo :=
  filesIn [(q%"d/x.lit", q%"\\title{Book}\n\n\\split-sections\n\nSee \\reference{deep}\n\n\\include-section{one.lit}\n\n\\section{\n\\title{Two}\n\nAlso \\reference{one}\n\n\\section{\n\\title{Low}\n\nLow.\n\n}\n\n}\n\n"),
    (q%"d/one.lit", q%"\\title{One}\r\n\r\n\\omit-children-from-table-of-contents\r\n\r\n\\reference{two}\r\n\r\n\\include-section{deep.lit}\r\n\r\n"),
    (q%"d/deep.lit", q%"\\title{Deep}\n\n")]

theorem editedScript_stored : InFile editedFiles q%"d/x.lit" editedScript ∧ editedScript.Stored editedFiles (dirPath q%"d/x.lit") := by
  refine ⟨⟨['\n'], _, .inl rfl, rfl, by decide +kernel⟩, ?_⟩
  refine ⟨⟨by decide, by decide⟩, ⟨['\r', '\n'], _, .inr rfl, rfl, by decide +kernel⟩, ?_, ?_⟩
  · exact ⟨⟨by decide, by decide⟩, ⟨['\n'], _, .inl rfl, rfl, by decide +kernel⟩, trivial, trivial⟩
  · exact ⟨⟨trivial, trivial⟩, trivial⟩

/-- The pages of the book and of its first section stay as they are. -/
example (d : Disk) : ∃ n k, let B := scriptJob.build ⟨someFiles, fun _ => none, fun _ _ => none, false⟩ calm (htmlEngine ⟨false, fun _ => none⟩) false true n k d
    let B' := scriptJob.build ⟨editedFiles, fun _ => none, fun _ _ => none, false⟩ calm (htmlEngine ⟨false, fun _ => none⟩) false true n k B.disk
    B'.res = .ok () ∧ B'.disk q%"o/book.html" = B.disk q%"o/book.html" ∧ B'.disk q%"o/one.html" = B.disk q%"o/one.html" := by
  have hpl : Place someScript.whole [1] 1 [1] _ _ := .page (k := 1) .top rfl rfl
  have ok : okBlks [.para [[.text q%"Also ", .ref q%"one"]]] := by
    simp [okBlks, Blk.ok, okSpans, Span.ok, Ms.lineOk, runOk, apart, Span.isText, oneLine, isBlank]
  obtain ⟨n, hn⟩ := C97_edit someScript_ok (J := scriptJob) ⟨by simp [scriptJob], rfl, rfl⟩ (by simp [scriptJob])
    (W := ⟨someFiles, fun _ => none, fun _ _ => none, false⟩) (fun _ _ => rfl) someScript_stored.1 someScript_stored.2 (O := calm) (fun _ => ⟨rfl, rfl, rfl⟩)
    (S := ⟨false, fun _ => none⟩) (fun _ => rfl) true (p' := editedScript) hpl ok rfl rfl (.inr ⟨.of_check (by decide +kernel), .of_check (by decide +kernel)⟩)
    (.of_check (by decide +kernel)) (W' := ⟨editedFiles, fun _ => none, fun _ _ => none, false⟩) (fun _ _ => rfl) editedScript_stored.1 editedScript_stored.2
    (O' := calm) (fun _ => ⟨rfl, rfl, rfl⟩) true
  obtain ⟨k, hk⟩ := hn n (Nat.le_refl _)
  obtain ⟨h1, h2, h3⟩ := hk k (Nat.le_refl _) d
  exact ⟨n, k, h2, h3 _ (by decide +kernel) (fun _ => by decide +kernel), h3 _ (by decide +kernel) (fun _ => by decide +kernel)⟩

/-- The manuscript of C94, with another text on its second page. -/
example (d : Disk) : ∃ n k, let b' := typedManuscript.put [.para [[.text q%"Deep."]]] [0, 0]
    let B := typedJob.build (plainFile (typedManuscript.src ['\n'])) calm (textEngine q%"txt" plainSite) false true n k d
    let B' := typedJob.build (plainFile (b'.src ['\n'])) calm (textEngine q%"txt" plainSite) false true n k B.disk
    B'.res = .ok () ∧ B'.disk q%"o/notes.txt" = B.disk q%"o/notes.txt" := by
  have typed' : ∀ ks p, Place (typedManuscript.put [.para [[.text q%"Deep."]]] [0, 0]) ks 1 ks p p → typedPage ks p ≠ none := by
    intro ks p h e
    have := List.all_eq_true.1 (show (spots [] 1 [] none (typedManuscript.put [.para [[.text q%"Deep."]]] [0, 0])).all
      (fun e => (typedPage e.ks e.p).isSome) = true by decide +kernel) ⟨ks, 1, ks, p, p⟩ ((mem_spots _).2 h)
    simp only [e] at this
    cases this
  have hpl : Place typedManuscript [0, 0] 2 [0] _ _ := .same (k := 0) (.page (k := 0) .top rfl rfl) rfl rfl
  obtain ⟨n, hn⟩ := C97_typed_edit (.inl rfl) typedManuscript_ok (.of_check (by decide +kernel)) hpl (body := [.para [[.text q%"Deep."]]])
    (by simp [okBlks, Blk.ok, okSpans, Span.ok, Ms.lineOk, runOk, apart, Span.isText, oneLine, isBlank]) rfl
    (J := typedJob) ⟨by simp [typedJob], rfl, rfl⟩ (W := plainFile (typedManuscript.src ['\n'])) rfl rfl
    (W' := plainFile ((typedManuscript.put [.para [[.text q%"Deep."]]] [0, 0]).src ['\n'])) rfl rfl (O := calm) (fun _ => ⟨rfl, rfl, rfl⟩)
    (O' := calm) (fun _ => ⟨rfl, rfl, rfl⟩) (ext := q%"txt") (by unfold goodExt; decide) (S := plainSite) true true (by simp [typedJob]) (fun _ _ => typedManuscript_typed) typed'
  obtain ⟨k, hk⟩ := hn n (Nat.le_refl _)
  obtain ⟨h1, h2, h3⟩ := hk k (Nat.le_refl _) d
  exact ⟨n, k, h2, h3 _ (by decide +kernel) (fun h => by cases h)⟩

end Booklit.Props
