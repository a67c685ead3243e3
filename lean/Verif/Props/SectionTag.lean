import Verif.Lemmas.SectionTagL

/-!
C72 in all cases: what `--section-tag` writes.
-/

namespace Booklit.Props

open Booklit Tree

theorem build_first {J : Job} (ht : J.sectionTag ≠ []) {W : World} {n i j k : Nat} {s : St} {g : Tag} {gs : List Tag}
    (hl : loadFile W n none J.input [0] ⟨[], []⟩ = (.ok i, s)) (hf : s.heap.findTag k i J.sectionTag = some (g :: gs))
    (hg : g.sec = some j) (O : Outside) (E : Engine) (bo short : Bool) (d : Disk) :
    J.build W O E bo short n k d =
      if J.out = [] then
        match E.render s.heap k j with
        | .ok t => ⟨.ok (), d, t⟩
        | .err e => ⟨.err e, d, O.torn []⟩
        | .panic => ⟨.panic, d, O.torn []⟩
        | .more => ⟨.more, d, O.torn []⟩
      else if O.mkdir J.out = false then ⟨.err (.plain q%"mkdir"), d, []⟩
      else
        let r := andNext (s.heap.writeSection O E J.out k k j d) fun d =>
          if J.saveIndex then s.heap.writeIndex O E bo short J.out k i d else (.ok (), d)
        ⟨r.1, r.2, []⟩ := by
  rw [Job.build, hl]
  simp only [Job.choose, ht, ne_eq, not_false_iff, if_true, hf, hg]
  rfl

/-- **C72, exactly**: if no section has the tag, the build reports an error and writes nothing. Otherwise the section is
the first one in the document that has the tag. It is rendered to the standard output. With an output directory, the files
that are written are those of the sections among it and all below it that are pages, and the search index of the whole
book; all others stay as they are. So nothing is written for the section itself if it is shown on the page of another. -/
theorem C72_exact {J : Job} (ht : J.sectionTag ≠ []) {W : World} {n i : Nat} {s : St}
    (hl : loadFile W n none J.input [0] ⟨[], []⟩ = (.ok i, s)) {O : Outside} (hO : O.Fine) (E : Engine) (bo short : Bool) :
    ∃ t, t.root = i ∧ Book s.heap t ∧
      (t.tagsNamed s.heap J.sectionTag = [] →
        ∃ K, ∀ k, K ≤ k → ∀ d, J.build W O E bo short n k d = ⟨.err (.plain q%"unknown tag"), d, []⟩) ∧
      ∀ g gs, t.tagsNamed s.heap J.sectionTag = g :: gs →
        ∃ u, t.Sub u ∧ g ∈ (s.heap.get u.root).tags ∧
          (J.out = [] → ∀ txt N, (∀ m, N ≤ m → E.render s.heap m u.root = .ok txt) →
            ∃ K, ∀ k, K ≤ k → ∀ d, J.build W O E bo short n k d = ⟨.ok (), d, txt⟩) ∧
          (J.out ≠ [] → ∃ ps : List Nat, (∀ p, p ∈ ps ↔ p ∈ u.ids ∧ s.heap.isPage p = true) ∧
            ((∀ p ∈ ps, ∃ txt N, ∀ m, N ≤ m → E.render s.heap m p = .ok txt) →
              (J.saveIndex = true → (∃ ix N, ∀ m, N ≤ m → s.heap.searchIndex bo E.ext m i = .ok ix) ∧
                ∀ p ∈ ps, s.heap.filePathOf J.out E.ext p ≠ joinPath J.out q%"search_index.json") →
              ∃ K, ∀ k, K ≤ k → ∀ d, let B := J.build W O E bo short n k d
                let file := s.heap.filePathOf J.out E.ext
                B.res = .ok () ∧
                (∀ p ∈ ps, ∃ q ∈ ps, file q = file p ∧ ∃ txt, E.render s.heap k q = .ok txt ∧ B.disk (file p) = some txt) ∧
                (J.saveIndex = true → ∃ ix, s.heap.searchIndex bo E.ext k i = .ok ix ∧
                  B.disk (joinPath J.out q%"search_index.json") = some (jsonIndex short ix)) ∧
                ∀ f, (∀ p ∈ ps, f ≠ file p) → (J.saveIndex = true → f ≠ joinPath J.out q%"search_index.json") →
                  B.disk f = d f)) := by
  have hr : Reach W s := by
    have := Reach.load n none J.input [0] (Reach.start (W := W)) (by simp) rfl
    rw [hl] at this
    exact this
  obtain ⟨t, rfl, b⟩ := C28_loaded_tree hl
  obtain ⟨N1, hN1⟩ := findTag_top b J.sectionTag
  refine ⟨t, rfl, b, fun hnone => ⟨N1, fun k hk d => ?_⟩, fun g gs hg => ?_⟩
  · have hf := hN1 k hk
    rw [hnone] at hf
    rw [Job.build, hl]
    simp only [Job.choose, ht, ne_eq, not_false_iff, if_true, hf]
  rw [hg] at hN1
  obtain ⟨j, hj, hgj⟩ := named_mem (show g ∈ t.tagsNamed s.heap J.sectionTag by rw [hg]; simp)
  have hsec := C49_own_tags hr j g hgj
  obtain ⟨u, hu, rfl⟩ := mem_ids.1 hj
  refine ⟨u, hu, hgj, fun ho txt N hN => ⟨max N N1, fun k hk d => ?_⟩, fun ho => ⟨_, written_iff b hu, ?_⟩⟩
  · rw [build_first ht hl (hN1 k (by omega)) hsec, if_pos ho, hN k (by omega)]
  · have hw := written_ends b u hu
    generalize (if s.heap.isPage u.root = true then [u.root] else []) ++ List.map root (pages s.heap u) = ps at hw
    intro hren hidx
    obtain ⟨K, hK⟩ := site_written hO E bo short J.saveIndex J.out hw hren hidx
    refine ⟨max N1 K, fun k hk d => ?_⟩
    dsimp only
    rw [build_first ht hl (hN1 k (by omega)) hsec, if_neg ho, if_neg (by simp [(hO _).1])]
    exact hK k (by omega) d

/-- A section that is not a page, with a page below it, and a tag that two sections have. -/
def pageBelow : Str :=
  q%"\\title{A}{a}\n\n\\section{\\title{B}{b}{x}\n\n\\split-sections\n\n\\section{\\title{C}{c}\n\nq\n}\n}\n\n\\section{\\title{D}{d}{x}\n\nr\n}\n"

/-- Asking for `x` means `B`, of which only the page `C` is written; nobody has the tag `y`. -/
example : let B := buildOf { input := [], out := q%"o", sectionTag := q%"x" } pageBelow
    (B.disk q%"o/c.html").map (fun x => decide (x.length > 100)) = some true ∧ B.disk q%"o/a.html" = some q%"old" ∧
    B.disk q%"o/b.html" = some q%"old" ∧ B.disk q%"o/d.html" = some q%"old" ∧
    (buildOf { input := [], out := q%"o", sectionTag := q%"y" } pageBelow).disk q%"o/c.html" = some q%"old" := by
  decide +kernel

end Booklit.Props
