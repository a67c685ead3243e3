import Verif.Lemmas.MsTextL
import Verif.Props.Manuscript
import Verif.Props.Json

/-!
C86: the search index of a manuscript, and the layout of plain text.
-/

namespace Booklit.Props

open Booklit Booklit.Src Booklit.Ms

/-- **C86**: the search index of a manuscript. It has an entry for a name if and only if the name is given to a section or a
target, and the entry tells of one with the name: where it is, its title, the text without styles of the section (that the
target is in), how deep the section is, and its name. -/
theorem C86_index {nl : Str} (hnl : nl = ['\n'] ∨ nl = ['\r', '\n']) {b : Part} (hb : b.ok) (hr : RefsOk b)
    {J : Job} (hJ : J.Whole) (hJi : J.saveIndex = true) {W : World} {info : FileInfo} (hf : W.fs J.input = some info)
    (hd : info.data = some (b.src nl)) {O : Outside} (hO : O.Fine) {S : Site} (short : Bool) :
    ∃ N, ∀ n, N ≤ n → ∃ K, ∀ k, K ≤ k → ∀ d, let B := J.build W O (htmlEngine S) S.brokenOk short n k d
      ∃ txt j, B.disk (joinPath J.out q%"search_index.json") = some txt ∧ Json.read txt = some j ∧
        ∀ name, (name ∉ b.names → j.get name = none) ∧
          (name ∈ b.names → ∃ ks p u title text, Aim b name ks p u title ∧ BlksText b p.body text ∧
            j.get name = some (SearchDoc.json ⟨u, plainSpans title, text, ks.length, p.name⟩)) := by
  refine ⟨depth b + 1, fun n hn => ?_⟩
  obtain ⟨m, rfl⟩ : ∃ m, n = m + 1 := ⟨n - 1, by omega⟩
  obtain ⟨s, t, hl, L⟩ := load_part (W := W) hnl hb hf hd (plugins := [0]) rfl (n := m) (by omega)
  obtain ⟨t', ps, e, bk, hps, hbuild⟩ := C68_build hJ hl hO (htmlEngine S) S.brokenOk short
  have bk' := L.made.book L.nodup
  obtain rfl := Tree.unique (h := s.heap) (e.trans L.top.symm) bk.children bk'.children
  have ids := written_ids bk (by rw [e]; exact hps)
  obtain ⟨K, hK⟩ := hbuild (fun p hp => page_done bk (L.sane hr) (ids p hp))
    fun _ => ⟨by rw [← e]; exact L.index S.brokenOk htmlExt, fun p _ => html_not_index hJ.out p⟩
  refine ⟨K, fun k hk d => ?_⟩
  obtain ⟨ix, h1, h2⟩ := (hK k hk d).2.2.1 hJi
  obtain ⟨j, h3, h4⟩ := C69_reads short h1
  refine ⟨_, j, h2, h3, fun name => ?_⟩
  rw [← e] at h1
  have own : ∀ j ∈ t'.ids, ∀ g ∈ (s.heap.get j).tags, g.sec = some j := by
    intro i hi g hg
    obtain ⟨z, ks, n, os, o, p, par, hz, rfl, hp, hm⟩ := L.at hi
    exact (hm.inv.2.1.tag_title hg).2.1
  obtain ⟨ps', -, h5, h6⟩ := C49_search_index bk own h1
  have has : (ix.lookup name).isSome = true ↔ name ∈ b.names := by
    rw [h5 name, ← L.made.names]
    simp only [List.mem_map, List.mem_flatMap]
    exact ⟨fun ⟨i, hi, g, hg, e⟩ => ⟨g, ⟨i, hi, hg⟩, e⟩, fun ⟨g, ⟨i, hi, hg⟩, e⟩ => ⟨i, hi, g, hg, e⟩⟩
  rw [h4]
  cases hx : ix.lookup name with
  | none =>
    rw [hx] at has
    exact ⟨fun _ => rfl, fun hn => by cases has.2 hn⟩
  | some doc =>
    rw [hx] at has
    refine ⟨fun no => (no (has.1 rfl)).elim, fun _ => ?_⟩
    obtain ⟨g, i, h7, hi, hg, hloc, hdep, htag, htit, htxt, -⟩ := h6 name doc hx
    obtain ⟨rfl, -⟩ := mem_tagsNamed (List.mem_of_getLast? h7)
    obtain ⟨z, ks, n, os, o, p, par, hz, rfl, hp, hm⟩ := L.at hi
    obtain ⟨title, hs, -, ha⟩ := tag_aim L hp hz hm hg
    obtain ⟨-, hsec, hcon⟩ := hm.inv.2.1.tag_title hg
    have e1 : Address s.heap g doc.location := by
      obtain ⟨N, hN⟩ := hloc
      have hN := hN N (Nat.le_refl _)
      simp only [Heap.url, hsec] at hN
      exact sectionURL_address (n := N) hsec hN
    have e2 : doc.title = plainSpans title := by
      rw [hs.text] at htit
      exact (Res.ok.inj htit).symm
    have e3 : doc.depth = ks.length := hdep.unique (depth_ends bk hz)
    have e4 : doc.sectionTag = p.name := by
      obtain ⟨l, e⟩ := hm.inv.2.1.tag
      rw [htag, e]
    rw [hcon] at htxt
    refine ⟨ks, p, doc.location, title, doc.text, ha _ e1, L.told hb hr hp hz htxt, ?_⟩
    rw [Option.map_some, ← e2, ← e3, ← e4]

/-- What names stand for in the example. -/
theorem someManuscript_aim {name : Str} (ks' : List Nat) (u' title' : Str)
    (hc : ((spots [] 1 [] none someManuscript).all fun e =>
      (!e.p.tags.contains name || (e.ks == ks' && url e.ks e.os e.o e.p == u' && plainSpans e.p.title == title')) &&
      (marksBlks e.p.body).all fun m => m.1 != name || (e.ks == ks' && e.o.name ++ q%".html#" ++ name == u' && m.2 == title')) = true)
    {ks : List Nat} {p : Part} {u : Str} {title : List Span} (ha : Aim someManuscript name ks p u title) :
    (∃ n os o, Place someManuscript ks' n os o p) ∧ ks = ks' ∧ u = u' ∧ plainSpans title = title' := by
  cases ha with
  | @sect _ os n o _ _ hp hn =>
    have := (Bool.and_eq_true _ _ ▸ List.all_eq_true.1 hc _ ((mem_spots ⟨ks, n, os, o, p⟩).2 hp) : _ ∧ _).1
    simp only [List.contains_iff_mem.2 hn, Bool.not_true, Bool.false_or, Bool.and_eq_true, beq_iff_eq] at this
    obtain ⟨⟨rfl, h2⟩, h3⟩ := this
    exact ⟨⟨_, _, _, hp⟩, rfl, h2, h3⟩
  | @target _ os n o _ _ _ hp hm =>
    have := List.all_eq_true.1 (Bool.and_eq_true _ _ ▸ List.all_eq_true.1 hc _ ((mem_spots ⟨ks, n, os, o, p⟩).2 hp) : _ ∧ _).2 _ hm
    simp only [bne_self_eq_false, Bool.false_or, Bool.and_eq_true, beq_iff_eq] at this
    obtain ⟨⟨rfl, h2⟩, h3⟩ := this
    exact ⟨⟨_, _, _, hp⟩, rfl, h2, by simpa [plainSpans, Span.plain] using h3⟩

theorem text_one {b : Part} {s x : Str} (h : SpansText b [.text s] x) : s ++ [] = x := by
  cases h with | cons a c =>
  cases c
  cases a
  rfl

/-- Entries of the example: there is none for a name that is not used; the section named "one-half" has no text and is not the
first on its page; in the text of "two" are its list, its table and its definition; "second" is another name of the same section; the target named "spot" is in the section
named "one". -/
example (d : Disk) : ∃ n k, let B := someJob.build (plainFile (someManuscript.src ['\n'])) calm (htmlEngine ⟨false, fun _ => none⟩) false true n k d
    ∃ txt j, B.disk q%"o/search_index.json" = some txt ∧ Json.read txt = some j ∧ j.get q%"nine" = none ∧
      j.get q%"one-half" = some (SearchDoc.json ⟨q%"one.html#one-half", q%"One Half", [], 2, q%"one-half"⟩) ∧
      j.get q%"two" = some (SearchDoc.json ⟨q%"two.html", q%"Two", q%"* - \n\n| a | b c |\n| d |\n\ne: {image: f g.png}\n\n", 1, q%"two"⟩) ∧
      (∃ text, j.get q%"second" = some (SearchDoc.json ⟨q%"two.html", q%"Two", text, 1, q%"two"⟩)) ∧
      j.get q%"spot" = some (SearchDoc.json ⟨q%"one.html#spot", q%"A {Spot}", q%"a < b\n\n", 1, q%"one"⟩) := by
  obtain ⟨n, hn⟩ := C86_index (.inl rfl) someManuscript_ok (.of_check (by decide +kernel))
    (J := someJob) ⟨by simp [someJob], rfl, rfl⟩ rfl (W := plainFile (someManuscript.src ['\n'])) rfl rfl
    (O := calm) (fun _ => ⟨rfl, rfl, rfl⟩) (S := ⟨false, fun _ => none⟩) true
  obtain ⟨k, hk⟩ := hn n (Nat.le_refl _)
  obtain ⟨txt, j, h1, h2, h3⟩ := hk k (Nat.le_refl _) d
  refine ⟨n, k, txt, j, h1, h2, (h3 _).1 (by decide +kernel), ?_, ?_, ?_, ?_⟩
  · have pl : Place someManuscript [0, 0] 2 [0] _ _ := .same (k := 0) (.page (k := 0) .top rfl rfl) rfl rfl
    obtain ⟨ks, p, u, title, text, ha, ht, e⟩ := (h3 q%"one-half").2 (by decide +kernel)
    obtain ⟨⟨n, os, o, hp⟩, rfl, rfl, e'⟩ := someManuscript_aim [0, 0] q%"one.html#one-half" q%"One Half" (by decide +kernel) ha
    rw [e'] at e
    obtain ⟨rfl, rfl, rfl, rfl⟩ := place_unique hp pl
    cases ht
    exact e
  · have pl : Place someManuscript [1] 1 [1] _ _ := .page (k := 1) .top rfl rfl
    obtain ⟨ks, p, u, title, text, ha, ht, e⟩ := (h3 q%"two").2 (by decide +kernel)
    obtain ⟨⟨n, os, o, hp⟩, rfl, rfl, e'⟩ := someManuscript_aim [1] q%"two.html" q%"Two" (by decide +kernel) ha
    rw [e'] at e
    obtain ⟨rfl, rfl, rfl, rfl⟩ := place_unique hp pl
    have : text = q%"* - \n\n| a | b c |\n| d |\n\ne: {image: f g.png}\n\n" := by
      cases ht with | cons a ht =>
      cases a
      cases ht with | cons l ht =>
      cases ht with | cons t ht =>
      cases ht with | cons f ht =>
      cases ht
      cases l with | list a =>
      cases a with | cons a b =>
      cases b
      obtain rfl := text_one a
      cases t with | table a =>
      cases a with | cons a b =>
      cases b with | cons b c =>
      cases c
      cases b with | cons b c =>
      cases c
      obtain rfl := text_one b
      cases a with | cons a b =>
      obtain rfl := text_one a
      cases b with | cons b c =>
      cases c
      cases b with | cons b c =>
      cases c
      cases b with | see b =>
      cases b with | cons b c =>
      cases b
      cases c with | cons b c =>
      cases c
      cases b with | see b =>
      cases b with | cons b c =>
      cases c
      cases b
      cases f with | defs a =>
      cases a with | @cons _ x _ _ a b =>
      cases b
      obtain ⟨x, y⟩ := x
      obtain ⟨a, b⟩ := a
      dsimp only at a b
      cases a with | cons a c =>
      cases c
      cases a with | styled a =>
      obtain rfl := text_one a
      cases b with | cons a c =>
      cases c
      cases a
      rfl
    rw [this] at e
    exact e
  · have pl : Place someManuscript [1] 1 [1] _ _ := .page (k := 1) .top rfl rfl
    obtain ⟨ks, p, u, title, text, ha, -, e⟩ := (h3 q%"second").2 (by decide +kernel)
    obtain ⟨⟨n, os, o, hp⟩, rfl, rfl, e'⟩ := someManuscript_aim [1] q%"two.html" q%"Two" (by decide +kernel) ha
    rw [e'] at e
    obtain ⟨rfl, rfl, rfl, rfl⟩ := place_unique hp pl
    exact ⟨text, e⟩
  · have pl : Place someManuscript [0] 1 [0] _ _ := .page (k := 0) .top rfl rfl
    obtain ⟨ks, p, u, title, text, ha, ht, e⟩ := (h3 q%"spot").2 (by decide +kernel)
    obtain ⟨⟨n, os, o, hp⟩, rfl, rfl, e'⟩ := someManuscript_aim [0] q%"one.html#spot" q%"A {Spot}" (by decide +kernel) ha
    rw [e'] at e
    obtain ⟨rfl, rfl, rfl, rfl⟩ := place_unique hp pl
    have : text = q%"a < b\n\n" := by
      cases ht with | cons a ht =>
      cases ht
      cases a with | para a =>
      cases a with | cons a b =>
      cases b with | cons b c =>
      cases c
      cases a with | cons a c =>
      cases c
      cases a
      cases b with | cons b c =>
      cases b
      cases c with | cons b c =>
      cases c
      cases b
      rfl
    rw [this] at e
    exact e

/-- **C86**: the plain text of lists. The items follow each other, each after a bullet, or its number counting from 1; the
further lines of an item are indented by two blanks, unless they are empty; after an item there is an empty line, no matter
with how many line ends it ends itself. -/
theorem C86_lists (h : Heap) (bo : Bool) (n : Nat) (o : Bool) {cs : List Content} {ts : List (Str × Nat)}
    (hc : All2 (fun c x => h.text bo n c = .ok (x.1 ++ List.replicate x.2 '\n')) cs ts)
    (ht : ∀ t ∈ ts, t.1.head? ≠ some '\n' ∧ t.1.getLast? ≠ some '\n') :
    h.text bo n (.list cs o) = .ok (((ts.map (·.1)).zipIdx 1).flatMap fun x => bullet o x.2 ++ hanging x.1 ++ q%"\n\n") := by
  obtain ⟨R, T, hI⟩ := text_inner ⟨bo, fun _ => none⟩ h n
  have hI : ∀ c, h.text bo n c = c.text R T := hI
  rw [hI, Content.text, textL_all2 (ts := ts.map fun x => x.1 ++ List.replicate x.2 '\n')]
  · show Res.ok _ = _
    rw [list_text o ts 0 ht]
  · induction hc with
    | nil => exact .nil
    | cons h1 _ ih => exact .cons (by rw [← hI]; exact h1) (ih fun t h => ht t (List.mem_cons_of_mem _ h))

example (h : Heap) : h.text false 0 (.list [.para [.str q%"a"], .seq [.str q%"b\n\nc", .str q%"\nd"]] true) =
    .ok q%"1. a\n\n2. b\n\n  c\n  d\n\n" :=
  C86_lists h false 0 true (ts := [(q%"a", 2), (q%"b\n\nc\nd", 0)]) (.cons rfl (.cons rfl .nil)) (by simp)

/-- **C86**: the plain text of tables. Each row is a line, with bars around and between the cells. -/
theorem C86_tables (h : Heap) (bo : Bool) (n : Nat) {rs : List (List Content)} {rows : List (List Str)}
    (hc : All2 (All2 fun c x => h.text bo n c = .ok x) rs rows) (hr : ∀ r ∈ rows, r ≠ []) :
    h.text bo n (.table rs) = .ok ((rows.flatMap fun r => q%"| " ++ q%" | ".intercalate r ++ q%" |\n") ++ ['\n']) := by
  obtain ⟨R, T, hI⟩ := text_inner ⟨bo, fun _ => none⟩ h n
  have hI : ∀ c, h.text bo n c = c.text R T := hI
  simp only [hI] at hc ⊢
  rw [Content.text, textR_all2 hc]
  show Res.ok _ = _
  congr 1
  show (rows.flatMap fun r => rowText r ++ ['\n']) ++ ['\n'] = _
  congr 1
  clear hc
  induction rows with
  | nil => rfl
  | cons r rows ih => rw [List.flatMap_cons, List.flatMap_cons, row_text (hr r List.mem_cons_self), ih fun r h => hr r (List.mem_cons_of_mem _ h)]; simp

example (h : Heap) : h.text false 0 (.table [[.str q%"a", .str q%"b"], [.seq [], .str q%"c"]]) = .ok q%"| a | b |\n|  | c |\n\n" :=
  C86_tables h false 0 (rows := [[q%"a", q%"b"], [[], q%"c"]]) (.cons (.cons rfl (.cons rfl .nil)) (.cons (.cons rfl (.cons rfl .nil)) .nil)) (by simp)

/-- **C86**: the plain text of definitions. Each is a line with the subject, a colon, and what is said about it. -/
theorem C86_definitions (h : Heap) (bo : Bool) (n : Nat) {ds : List (Content × Content)} {rows : List (Str × Str)}
    (hc : All2 (fun d x => h.text bo n d.1 = .ok x.1 ∧ h.text bo n d.2 = .ok x.2) ds rows) :
    h.text bo n (.defs ds) = .ok ((rows.flatMap fun x => x.1 ++ q%": " ++ x.2 ++ ['\n']) ++ ['\n']) := by
  obtain ⟨R, T, hI⟩ := text_inner ⟨bo, fun _ => none⟩ h n
  have hI : ∀ c, h.text bo n c = c.text R T := hI
  simp only [hI] at hc ⊢
  rw [Content.text, textD_all2 hc]
  show Res.ok _ = _
  simp [List.flatMap_def]

example (h : Heap) : h.text false 0 (.defs [(.str q%"a", .str q%"b")]) = .ok q%"a: b\n\n" :=
  C86_definitions h false 0 (rows := [(q%"a", q%"b")]) (.cons ⟨rfl, rfl⟩ .nil)

end Booklit.Props
