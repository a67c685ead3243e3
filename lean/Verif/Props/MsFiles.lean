import Verif.Lemmas.MsFilesL
import Verif.Props.Manuscript
import Verif.Props.MsIndex
import Verif.Props.Includes

/-!
C90: the whole way from the texts of the files of a manuscript to the files of its pages.
-/

namespace Booklit.Props

open Booklit Booklit.Src Booklit.Ms

/-- The program builds the same from the manuscript in one file and in several. -/
theorem script_build {p : Script} (hb : p.whole.ok) {J : Job} (hJ : J.Whole) (hi : J.input ≠ []) {W : World} (hW : ∀ q n, W.foreign q n = none)
    (hf : InFile W.fs J.input p) (hs : p.Stored W.fs (dirPath J.input)) {S : Site} (hS : ∀ i, S.force i = none) :
    ∃ W0 : World, (∃ i, W0.fs J.input = some i ∧ i.data = some (p.whole.src ['\n'])) ∧ ∀ {O : Outside} {short : Bool} {n N k : Nat} {d : Disk},
      (J.build W0 O (htmlEngine S) S.brokenOk short n k d).res = .ok () → (p.nest + 1) * n ≤ N →
      J.build W O (htmlEngine S) S.brokenOk short N k d = J.build W0 O (htmlEngine S) S.brokenOk short n k d := by
  refine ⟨{ W with fs := fun q => if q = J.input then some ⟨0, some (p.whole.src ['\n'])⟩ else none }, ⟨_, if_pos rfl, rfl⟩, ?_⟩
  intro O short n N k d hok hN
  exact (job_apart (W := { W with fs := fun q => if q = J.input then some ⟨0, some (p.whole.src ['\n'])⟩ else none }) (W' := W) rfl rfl hW hW
    (script_files hb (.inl rfl) (if_pos rfl) rfl (fun q hq => if_neg hq) hs hf) hi trivial (fun _ => trivial) hN
    (fun s h' _ H k i => H.page (fun i c e => by rw [hS] at e; cases e) k i) hok).1

section
variable {p : Script} (hb : p.whole.ok) (hr : RefsOk p.whole) (hp : PagesApart p.whole) {J : Job} (hJ : J.Whole) (hi : J.input ≠ [])
  {W : World} (hW : ∀ q n, W.foreign q n = none) (hf : InFile W.fs J.input p) (hs : p.Stored W.fs (dirPath J.input))
  {O : Outside} (hO : O.Fine) {S : Site} (hS : ∀ i, S.force i = none) (short : Bool)
include hb hr hp hJ hi hW hf hs hO hS

/-- **C90**: a book is written down as a manuscript (see C85), distributed over several files: any of its sections, at any depth, may be in
a file of its own, in any directory, in which any of the sections below it may again be in a file of its own. The files may have
different line ends. Then the site is what C85 says of the whole manuscript: each page is there, on the page is what the manuscript says,
with headers, numbers and links that do not depend on what is in which file, and no other file is touched. -/
theorem C90_site : ∃ N, ∀ n, N ≤ n → ∃ K, ∀ k, K ≤ k → ∀ d, let B := J.build W O (htmlEngine S) S.brokenOk short n k d
      B.res = .ok () ∧
      (∀ ks q, Place p.whole ks 1 ks q q → ∃ txt ds, B.disk (joinPath J.out (q.name ++ q%".html")) = some txt ∧
        readHtml txt = some ds ∧ PageDom p.whole ks 1 q ds) ∧
      ∀ f, (∀ ks q, Place p.whole ks 1 ks q q → f ≠ joinPath J.out (q.name ++ q%".html")) →
        (J.saveIndex = true → f ≠ joinPath J.out q%"search_index.json") → B.disk f = d f := by
  obtain ⟨W0, ⟨i, h1, h2⟩, he⟩ := script_build hb hJ hi hW hf hs hS
  obtain ⟨n0, hn⟩ := C85_site (.inl rfl) hb hr hp hJ h1 h2 hO hS short
  obtain ⟨K, hK⟩ := hn n0 (Nat.le_refl _)
  refine ⟨(p.nest + 1) * n0, fun n hn => ⟨K, fun k hk d => ?_⟩⟩
  have := hK k hk d
  dsimp only at this ⊢
  rw [he this.1 hn]
  exact this

/-- **C90**: and the search index is what C86 says of the whole manuscript. -/
theorem C90_index (hJi : J.saveIndex = true) :
    ∃ N, ∀ n, N ≤ n → ∃ K, ∀ k, K ≤ k → ∀ d, let B := J.build W O (htmlEngine S) S.brokenOk short n k d
      ∃ txt j, B.disk (joinPath J.out q%"search_index.json") = some txt ∧ Json.read txt = some j ∧
        ∀ name, (name ∉ p.whole.names → j.get name = none) ∧
          (name ∈ p.whole.names → ∃ ks q u title text, Aim p.whole name ks q u title ∧ BlksText p.whole q.body text ∧
            j.get name = some (SearchDoc.json ⟨u, plainSpans title, text, ks.length, q.name⟩)) := by
  obtain ⟨W0, ⟨i, h1, h2⟩, he⟩ := script_build hb hJ hi hW hf hs hS
  obtain ⟨n0, hn⟩ := C85_site (.inl rfl) hb hr hp hJ h1 h2 hO hS short
  obtain ⟨n1, hn1⟩ := C86_index (.inl rfl) hb hr hJ hJi h1 h2 hO (S := S) short
  obtain ⟨K, hK⟩ := hn (n0 + n1) (by omega)
  obtain ⟨K1, hK1⟩ := hn1 (n0 + n1) (by omega)
  refine ⟨(p.nest + 1) * (n0 + n1), fun n hn => ⟨K + K1, fun k hk d => ?_⟩⟩
  have h3 := hK k (by omega) d
  have h4 := hK1 k (by omega) d
  dsimp only at h3 h4 ⊢
  rw [he h3.1 hn]
  exact h4

end

/-! ### Example -/

/-- A manuscript in four files: a section has a file in a directory, in which a section has a file, further down; another section is inline,
and one below it has a file, next to the directory of the book. -/
def someScript : Script :=
  .mk [.text q%"Book"] [] true false [.para [[.text q%"See ", .ref q%"deep"]]]
    [(some q%"parts/one.lit", .mk [.text q%"One"] [] false true [.para [[.ref q%"two"]]] [(some q%"../parts/more/deep.lit", .mk [.text q%"Deep"] [] false false [] [])]),
     (none, .mk [.text q%"Two"] [] false false [.toc] [(some q%"../low.lit", .mk [.text q%"Low"] [] false false [.para [[.text q%"Low."]]] [])])]

/-- Its files; one of them has other line ends. -/
def someFiles : Str → Option FileInfo :=
  filesIn [(q%"d/x.lit", q%"\\title{Book}\n\n\\split-sections\n\nSee \\reference{deep}\n\n\\include-section{parts/one.lit}\n\n\\section{\n\\title{Two}\n\n\\table-of-contents\n\n\\include-section{../low.lit}\n\n}\n\n"),
    (q%"d/parts/one.lit", q%"\\title{One}\r\n\r\n\\omit-children-from-table-of-contents\r\n\r\n\\reference{two}\r\n\r\n\\include-section{../parts/more/deep.lit}\r\n\r\n"),
    (q%"d/parts/more/deep.lit", q%"\\title{Deep}\n\n"), (q%"low.lit", q%"\\title{Low}\n\nLow.\n\n")]

theorem someScript_ok : someScript.whole.ok := by
  simp [someScript, Script.whole, wholes, Part.ok, okParts, okBlks, Blk.ok, okSpans, Span.ok, Ms.lineOk, runOk, apart, Span.isText, oneLine, isBlank, titleOk, notOnlyAux, bareSpans, Span.bare]

theorem someScript_stored : InFile someFiles q%"d/x.lit" someScript ∧ someScript.Stored someFiles (dirPath q%"d/x.lit") := by
  refine ⟨⟨['\n'], _, .inl rfl, rfl, by decide +kernel⟩, ?_⟩
  refine ⟨⟨by decide, by decide⟩, ⟨['\r', '\n'], _, .inr rfl, rfl, by decide +kernel⟩, ?_, ?_⟩
  · exact ⟨⟨by decide, by decide⟩, ⟨['\n'], _, .inl rfl, rfl, by decide +kernel⟩, trivial, trivial⟩
  · exact ⟨⟨⟨by decide, by decide⟩, ⟨['\n'], _, .inl rfl, rfl, by decide +kernel⟩, trivial, trivial⟩, trivial⟩

/-- A job for it. -/
def scriptJob : Job := { input := q%"d/x.lit", out := q%"o", saveIndex := true }

/-- It is built, and has three pages. -/
example (d : Disk) : ∃ n k, let B := scriptJob.build ⟨someFiles, fun _ => none, fun _ _ => none, false⟩ calm (htmlEngine ⟨false, fun _ => none⟩) false true n k d
    B.res = .ok () ∧ (B.disk q%"o/book.html").isSome = true ∧ (B.disk q%"o/one.html").isSome = true ∧ (B.disk q%"o/two.html").isSome = true := by
  obtain ⟨n, hn⟩ := C90_site someScript_ok (.of_check (by decide +kernel)) (.of_check (by decide +kernel))
    (J := scriptJob) ⟨by simp [scriptJob], rfl, rfl⟩ (by simp [scriptJob]) (W := ⟨someFiles, fun _ => none, fun _ _ => none, false⟩) (fun _ _ => rfl)
    someScript_stored.1 someScript_stored.2 (O := calm) (fun _ => ⟨rfl, rfl, rfl⟩) (S := ⟨false, fun _ => none⟩) (fun _ => rfl) true
  obtain ⟨k, hk⟩ := hn n (Nat.le_refl _)
  obtain ⟨h1, h2, h3⟩ := hk k (Nat.le_refl _) d
  refine ⟨n, k, h1, ?_, ?_, ?_⟩
  · obtain ⟨txt, _, e, _⟩ := h2 [] _ .top
    exact Option.isSome_of_eq_some e
  · obtain ⟨txt, _, e, _⟩ := h2 [0] _ (.page (k := 0) .top rfl rfl)
    exact Option.isSome_of_eq_some e
  · obtain ⟨txt, _, e, _⟩ := h2 [1] _ (.page (k := 1) .top rfl rfl)
    exact Option.isSome_of_eq_some e

end Booklit.Props
