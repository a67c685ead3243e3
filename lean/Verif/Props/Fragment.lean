import Verif.Props.Build
import Verif.Lemmas.FragmentL
import Verif.Lemmas.CommandL

/-!
C82: rendering a file as a section of the book (`--section-path`).
-/

namespace Booklit.Props

open Booklit Tree

/-- **C82**: loading a file as a section of a book leaves the book as it is: none of its sections has changed, and none has the
new ones among its children. The new sections form a tree of their own, of which the top has the top of the book as parent. -/
theorem C82_loaded {W : World} {n n' i j : Nat} {path path' : Str} {plugins plugins' : List Nat} {s0 s s' : St}
    (hl : loadFile W n none path plugins s0 = (.ok i, s)) (hl' : loadFile W n' (some i) path' plugins' s = (.ok j, s')) :
    ∃ t u, t.root = i ∧ u.root = j ∧ Book s.heap t ∧ Apart s'.heap t u ∧ (∀ k ∈ u.ids, s.heap.length ≤ k ∧ k < s'.heap.length) ∧
      ∀ k, k < s.heap.length → s'.heap.get k = s.heap.get k := by
  have hi : i < s.heap.length := loadFile_lt hl
  obtain ⟨t, rfl, b⟩ := C28_loaded_tree hl
  have ht : ∀ k ∈ t.ids, k < s.heap.length := by
    intro k hk
    obtain ⟨w, ⟨ks, hw⟩, rfl⟩ := mem_ids.1 hk
    cases hw with
    | here => exact hi
    | @step ks p k _ hp hk =>
      have h1 := b.parent p ⟨ks, hp⟩ _ (List.mem_of_getElem? hk)
      refine Classical.byContradiction fun hn => ?_
      rw [Heap.get_out hn] at h1
      cases h1
  rw [loadFile_run] at hl'
  cases he : evalFile W n' (some t.root) path' plugins' s with
  | mk r s1 =>
    have iso := C29_files_isolated W n' (some t.root) path' plugins' s
    rw [he] at hl' iso
    cases r with
    | err _ => cases hl'
    | panic => cases hl'
    | more => cases hl'
    | ok k =>
      dsimp only at hl' iso
      obtain ⟨rfl, g⟩ := keeps_file_ok (Grow.inv W) he
      cases hc : s1.heap.collect n' s.heap.length with
      | err _ => rw [hc] at hl'; cases hl'
      | panic => rw [hc] at hl'; cases hl'
      | more => rw [hc] at hl'; cases hl'
      | ok h2 =>
        rw [hc] at hl'
        cases hl'
        obtain ⟨p1, _, ts, c1, f1⟩ := g.2 (by simp [St.file])
        have e0 : Heap.get (s.file (some t.root) path' plugins').heap s.heap.length =
            { Sec.fresh (some t.root) path' with plugins := plugins' } := Heap.get_append_eq _ _
        rw [e0] at p1 c1
        have m := collect_more n' _ _ _ hc
        have hlt : s.heap.length < s1.heap.length := g.1.new.1
        have f0 : Forest s1.heap (s.heap.length + 1) s.heap.length ts := by simpa [St.file] using f1
        have f1' : Forest h2 (s.heap.length + 1) s.heap.length ts :=
          f0.keep (by rw [m.1]; exact Nat.le_refl _) fun j _ => ⟨(m.same j).1, (m.same j).2.1⟩
        have hroot : (h2.get s.heap.length).children = ts.map Tree.root := by rw [(m.same _).1, c1]; simp [Sec.fresh]
        have hsub : ∀ u, (Tree.node s.heap.length ts).Sub u → u = .node s.heap.length ts ∨ ∃ t ∈ ts, t.Sub u := by
          rintro u ⟨ks, hks⟩
          rcases hks.uncons with ⟨_, rfl⟩ | ⟨k, ls, c, _, hc1, hc2⟩
          · exact .inl rfl
          · exact .inr ⟨c, List.mem_of_getElem? hc1, ls, hc2⟩
        have range : ∀ k ∈ (Tree.node s.heap.length ts).ids, s.heap.length ≤ k ∧ k < h2.length := by
          intro k hk
          rw [Tree.ids, List.mem_cons] at hk
          rcases hk with rfl | hk
          · exact ⟨Nat.le_refl _, by rw [m.1]; exact hlt⟩
          · have := f1'.range _ hk
            exact ⟨by omega, this.2⟩
        have frag : Fragment h2 t.root (.node s.heap.length ts) := by
          refine ⟨?_, ?_, ?_, ?_⟩
          · simp only [Tree.ids, List.nodup_cons]
            exact ⟨fun hm => by have := (f1'.range _ hm).1; omega, f1'.nodup⟩
          · intro u hu
            rcases hsub u hu with rfl | ⟨t, ht, hs⟩
            · exact hroot
            · exact f1'.children t ht u hs
          · intro u hu k hk
            rcases hsub u hu with rfl | ⟨t, ht, hs⟩
            · exact f1'.top k hk
            · exact f1'.parent t ht u hs k hk
          · show (h2.get s.heap.length).parent = _
            rw [(m.same _).2.1, p1]; rfl
        have same : ∀ k, k < s.heap.length → h2.get k = s.heap.get k := by
          intro k hk
          rw [← iso k hk]
          refine collect_out (Q := fun k => k ∈ (Tree.node s.heap.length ts).ids) n' s.heap.length s1.heap h2 (fun j hj c hc => ?_)
            (by simp [Tree.ids]) hc k fun hm => by have := (range k hm).1; omega
          obtain ⟨w, hw, rfl⟩ := mem_ids.1 hj
          rw [← (m.same _).1, frag.children w hw] at hc
          obtain ⟨x, hx, rfl⟩ := List.mem_map.1 hc
          exact mem_ids.2 ⟨x, hw.kid hx, rfl⟩
        have sub : ∀ w, t.Sub w → h2.get w.root = s.heap.get w.root := fun w hw => same _ (ht _ (mem_ids.2 ⟨w, hw, rfl⟩))
        refine ⟨t, .node s.heap.length ts, rfl, rfl, b, ⟨⟨b.nodup, fun w hw => ?_, fun w hw k hk => ?_, ?_⟩, frag, fun k hk hk' => ?_, ?_⟩,
          range, same⟩
        · rw [sub w hw]; exact b.children w hw
        · rw [sub k (hw.kid hk)]; exact b.parent w hw k hk
        · rw [sub t (Sub.refl t)]; exact b.top
        · have := (range k hk).1
          have := ht k hk'
          omega
        · have := ht t.root (root_ids t)
          rw [m.1]
          omega

/-- **C82**: the numbers of such sections are those they have if the file is the last section of the book. -/
theorem C82_numbers {h : Heap} {t u : Tree} (A : Apart h t u) {ks : List Nat} {s : Tree} (hs : At u ks s) :
    Ends (fun n => h.number n s.root) (dotted ((t.kids.length + 1) :: ks.map (· + 1))) := by
  have hj : At (t.joined u) (t.kids.length :: ks) s := At.cons (c := u) (by simp [Tree.joined, Tree.kids]) hs
  refine (number_ends A.joined hj).congr fun n e => ?_
  rw [← A.number n _ (mem_ids.2 ⟨s, ⟨ks, hs⟩, rfl⟩)]
  simpa using e

theorem joined_named {h : Heap} {t u : Tree} (A : Apart h t u) (name : Str) :
    (t.joined u).tagsNamed (h.joined t.root u.root) name = t.tagsNamed h name ++ u.tagsNamed h name := by
  have : ∀ j, ((h.joined t.root u.root).get j).tags = (h.get j).tags := fun j => by obtain ⟨cs, e⟩ := A.get j; rw [e]
  simp only [Tree.tagsNamed, this]
  rw [← List.flatMap_append]
  congr 1
  cases t
  simp [Tree.joined, Tree.ids, Tree.root, Tree.kids, Tree.idsL_append, Tree.idsL]

/-- **C82**: references from such sections find the tags of the book and those of the file itself, all of them and no others: they
resolve if there is exactly one with the name, and are reported otherwise. -/
theorem C82_references {h : Heap} {t u : Tree} (A : Apart h t u) (s : Tree) (hs : u.Sub s) (name : Str) (optional : Bool) :
    ∃ r, Ends (fun n => h.resolve n s.root name optional) r ∧
      match t.tagsNamed h name ++ u.tagsNamed h name with
      | [] => r = if optional then .nothing else .unknown
      | [g] => r = .tag g
      | gs => ∃ ls, r = .ambiguous ls ∧ ls.Perm (gs.map fun g => (g.sec, g.loc)) := by
  have hj : (t.joined u).Sub s :=
    ((Sub.refl (t.joined u)).kid (k := u) (by simp [Tree.joined, Tree.kids])).trans hs
  obtain ⟨r, h1, h2⟩ := C22_references A.joined s hj name optional
  rw [joined_named A] at h2
  exact ⟨r, h1.congr fun n e => A.resolve (mem_ids.2 ⟨s, hs, rfl⟩) e, h2⟩

/-- **C82**: the pages of such a section are the ones it has as the last section of the book, errors included, if everything in it
stands for something in it and the titles of the tags of the book can be shown without looking at other sections. -/
theorem C82_page {h : Heap} {t u : Tree} (A : Apart h t u) (hu : ∀ i ∈ u.ids, ∀ c ∈ (h.get i).shown, ∀ d ∈ c.parts true, d.belongs u = true)
    (ht : ∀ i ∈ t.ids, ∀ g ∈ (h.get i).tags, ∀ d ∈ g.title.parts true, d.alone = true) (S : Site) (n : Nat) {i : Nat} (hi : i ∈ u.ids)
    {r : Res Str} (hr : r ≠ .more) (e : (h.joined t.root u.root).page S n i = r) : h.page S n i = r := by
  have B : Belongs h t u := by
    refine ⟨fun i hi => (all_iff _).2 fun d hd => hu i hi _ (by simp [Sec.shown]) d hd,
      fun i hi => (all_iff _).2 fun d hd => hu i hi _ (by simp [Sec.shown]) d hd, ?_⟩
    rintro i (hi | hi) g hg
    · exact (all_iff _).2 fun d hd => hu i hi _ (by simp only [Sec.shown, List.mem_cons, List.mem_map]; exact .inr (.inr ⟨g, hg, rfl⟩)) d hd
    · refine (all_iff _).2 fun d hd => ?_
      have := ht i hi g hg d hd
      cases d <;> first | rfl | cases this
  rcases A.page B S n hi with h1 | h1
  · rw [h1] at e; exact absurd e.symm hr
  · rw [← h1]; exact e

/-- The flags ask for a file as a section of the book. -/
structure ForPath (J : Job) : Prop where
  tag : J.sectionTag = []
  path : J.sectionPath ≠ []

/-- **C82**: with `--section-path`, what is printed is the page the file has as the last section of the book, and if that is an error,
the command fails with it. Plugins make contents that do not stand for something in sections. -/
theorem C82_printed {W : World} {F : Content → Prop} (hF : W.Makes F) (hm : ∀ c, F c → c.alone = true) (hfs : W.fs [] = none)
    {J : Job} (hJ : ForPath J) (ho : J.out = []) {n i j : Nat} {s s' : St} (hl : loadFile W n none J.input [0] ⟨[], []⟩ = (.ok i, s))
    (hl' : loadFile W n (some i) J.sectionPath [0] s = (.ok j, s')) :
    ∃ t u, t.root = i ∧ u.root = j ∧ Apart s'.heap t u ∧
      ((∀ k ∈ t.ids, ∀ g ∈ (s'.heap.get k).tags, ∀ d ∈ g.title.parts true, d.alone = true) →
        ∀ (O : Outside) (S : Site) (short : Bool) (k : Nat) (d : Disk),
          (∀ txt, (s'.heap.joined i j).page S k j = .ok txt →
            J.build W O (htmlEngine S) S.brokenOk short n k d = ⟨.ok (), d, txt⟩) ∧
          (∀ e, (s'.heap.joined i j).page S k j = .err e →
            (J.build W O (htmlEngine S) S.brokenOk short n k d).res = .err e ∧
            (J.build W O (htmlEngine S) S.brokenOk short n k d).disk = d)) := by
  obtain ⟨t, u, rfl, rfl, b, A, range, -⟩ := C82_loaded hl hl'
  have hr : Reach W s := by
    have := Reach.load n none J.input [0] (Reach.start (W := W)) (by simp) rfl
    rw [hl] at this
    exact this
  have hr' : Reach W s' := by
    have := Reach.load n (some t.root) J.sectionPath [0] hr (fun p hp => by cases hp; exact loadFile_lt hl) rfl
    rw [hl'] at this
    exact this
  refine ⟨t, u, rfl, rfl, A, fun ht O S short k d => ?_⟩
  have shown := parts_shown (P := fun i c => c.alone = true ∨ (∃ t x b l, c = .ref i t x b l) ∨ c = .toc i) hF hfs hr' fun p i c o => by
    cases o
    case plugin h => exact .inl (hm c h)
    case ref => exact .inr (.inl ⟨_, _, _, _, rfl⟩)
    case toc => exact .inr (.inr rfl)
    all_goals exact .inl rfl
  have hu : ∀ i ∈ u.ids, ∀ c ∈ (s'.heap.get i).shown, ∀ d ∈ c.parts true, d.belongs u = true := by
    intro i hi c hc d hd
    rcases shown i c hc d hd with h | ⟨_, _, _, _, rfl⟩ | rfl
    · cases d <;> first | rfl | cases h
    · simpa [Content.belongs] using hi
    · simpa [Content.belongs] using hi
  have page := fun {r : Res Str} => C82_page A hu ht S k (root_ids u) (r := r)
  have hb : J.build W O (htmlEngine S) S.brokenOk short n k d = match s'.heap.page S k u.root with
      | .ok t => ⟨.ok (), d, t⟩
      | .err e => ⟨.err e, d, O.torn []⟩
      | .panic => ⟨.panic, d, O.torn []⟩
      | .more => ⟨.more, d, O.torn []⟩ := by
    rw [Job.build, hl]
    simp only [Job.choose, hJ.tag, hJ.path, ne_eq, not_true, not_false_eq_true, if_false, if_true, hl', ho]
    rfl
  refine ⟨fun txt e => ?_, fun e he => ?_⟩
  · rw [hb, page (by simp) e]
  · rw [hb, page (by simp) he]
    exact ⟨rfl, rfl⟩

/-- **C82**: with `--section-path` and `--out`, the file of each page of the section is written, and that of the search index of the
book if one is asked for, and no others. The pages are the ones the section has as the last one of the book. -/
theorem C82_files {W : World} {J : Job} (hJ : ForPath J) (ho : J.out ≠ []) {n i j : Nat} {s s' : St}
    (hl : loadFile W n none J.input [0] ⟨[], []⟩ = (.ok i, s)) (hl' : loadFile W n (some i) J.sectionPath [0] s = (.ok j, s'))
    {O : Outside} (E : Engine) (bo short : Bool) :
    ∃ t u ps, t.root = i ∧ u.root = j ∧ Apart s'.heap t u ∧ Ends (fun n => s'.heap.written n j) ps ∧
      Ends (fun n => (s'.heap.joined i j).written n j) ps ∧ (∀ p ∈ ps, p ∈ u.ids) ∧
      (∀ k d f, (∀ p ∈ ps, f ≠ s'.heap.filePathOf J.out E.ext p) →
        (J.saveIndex = true → f ≠ joinPath J.out q%"search_index.json") → (J.build W O E bo short n k d).disk f = d f) ∧
      (O.Fine → (∀ p ∈ ps, ∃ txt N, ∀ m, N ≤ m → E.render s'.heap m p = .ok txt) →
       (J.saveIndex = true → (∃ ix N, ∀ m, N ≤ m → s'.heap.searchIndex bo E.ext m i = .ok ix) ∧
          ∀ p ∈ ps, s'.heap.filePathOf J.out E.ext p ≠ joinPath J.out q%"search_index.json") →
       ∃ K, ∀ k, K ≤ k → ∀ d, let B := J.build W O E bo short n k d
        B.res = .ok () ∧
        (∀ p ∈ ps, ∃ q ∈ ps, s'.heap.filePathOf J.out E.ext q = s'.heap.filePathOf J.out E.ext p ∧
          ∃ txt, E.render s'.heap k q = .ok txt ∧ B.disk (s'.heap.filePathOf J.out E.ext p) = some txt) ∧
        (J.saveIndex = true → ∃ ix, s'.heap.searchIndex bo E.ext k i = .ok ix ∧
          B.disk (joinPath J.out q%"search_index.json") = some (jsonIndex short ix))) := by
  obtain ⟨t, u, rfl, rfl, b, A, range, -⟩ := C82_loaded hl hl'
  have hs : (t.joined u).Sub u := (Sub.refl (t.joined u)).kid (by simp [Tree.joined, Tree.kids])
  have hw := written_ends A.joined u hs
  have hin : ∀ p ∈ (if (s'.heap.joined t.root u.root).isPage u.root = true then [u.root] else []) ++
      List.map root (pages (s'.heap.joined t.root u.root) u), p ∈ u.ids := by
    intro p hp
    rcases List.mem_append.1 hp with hp | hp
    · split at hp
      · rw [List.mem_singleton.1 hp]; exact root_ids u
      · cases hp
    · obtain ⟨w, hw, rfl⟩ := List.mem_map.1 hp
      exact mem_ids.2 ⟨w, pages_sub _ hw, rfl⟩
  generalize (if (s'.heap.joined t.root u.root).isPage u.root = true then [u.root] else []) ++
      List.map root (pages (s'.heap.joined t.root u.root) u) = ps at hw hin
  have hw' : Ends (fun n => s'.heap.written n u.root) ps := hw.congr fun n e => by
    rw [← (A.written n).1 _ (root_ids u)]; exact e
  have hb : ∀ k d, J.build W O E bo short n k d = if O.mkdir J.out = false then ⟨.err (.plain q%"mkdir"), d, []⟩
      else
        let r := andNext (s'.heap.writeSection O E J.out k k u.root d) fun d =>
          if J.saveIndex then s'.heap.writeIndex O E bo short J.out k t.root d else (.ok (), d)
        ⟨r.1, r.2, []⟩ := by
    intro k d
    rw [Job.build, hl]
    simp only [Job.choose, hJ.tag, hJ.path, ne_eq, not_true, not_false_eq_true, if_false, if_true, hl', ho]
  refine ⟨t, u, ps, rfl, rfl, A, hw', hw, hin, fun k d f hf hf' => ?_, fun hO hren hidx => ?_⟩
  · rw [hb]
    split
    · rfl
    · obtain ⟨N, hN⟩ := hw'
      refine andNext_disk ((write_other k).1 N _ _ (hN N (Nat.le_refl _)) hf d) fun d' hd => ?_
      split
      · rename_i hi
        rw [← hd, Heap.writeIndex]
        split
        · exact save_other (hf' hi)
        all_goals rfl
      · exact hd
  · obtain ⟨K, hK⟩ := site_written hO E bo short J.saveIndex J.out hw' hren hidx
    refine ⟨K, fun k hk d => ?_⟩
    dsimp only
    rw [hb, if_neg (by simp [(hO _).1])]
    obtain ⟨h1, h2, h3, -⟩ := hK k hk d
    exact ⟨h1, h2, h3⟩

/-! ### Cases -/

/-- A build with the file `y.lit` as a section of the book `x.lit`. -/
def buildPath (J : Job) (book frag : Str) : Built :=
  { J with input := q%"x.lit", sectionPath := q%"y.lit" : Job }.build (plainFiles [(q%"x.lit", book), (q%"y.lit", frag)]) calm
    (htmlEngine ⟨false, fun _ => none⟩) false true 5 9 fun _ => some q%"old"

def splitBook : Str := q%"\\title{A}\n\n\\split-sections\n\n\\section{\\title{B}}\n"

def extraFile : Str := q%"\\title{C}\n\nSee \\reference{b} and \\reference{d}.\n\n\\section{\\title{D}}\n"

/-- The references are to the book and to the file itself, the numbers go on after those of the book. -/
example : (buildPath { input := [] } splitBook extraFile).stdout = q%"<!DOCTYPE html>\n<html>\n  <head>\n    <meta http-equiv=\"content-type\" content=\"text/html; charset=utf-8\" />\n    <title>C</title>\n  </head>\n  <body>\n    <h1 class=\"section-header\"><a id=\"c\"></a><span class=\"section-number\">2 </span>C</h1>\n\n<p>See <a href=\"b.html\">B</a> and <a href=\"c.html#d\">D</a>.</p>\n\n\n  \n    <h2 class=\"section-header\"><a id=\"d\"></a><span class=\"section-number\">2.1 </span>D</h2>\n\n\n\n\n  \n\n  \n\n  </body>\n</html>" := by
  decide +kernel

/-- The file is loaded and rendered in the state the theorems speak of. -/
example : (match loadFile (plainFiles [(q%"x.lit", splitBook), (q%"y.lit", extraFile)]) 5 none q%"x.lit" [0] ⟨[], []⟩ with
    | (.ok i, s) => match loadFile (plainFiles [(q%"x.lit", splitBook), (q%"y.lit", extraFile)]) 5 (some i) q%"y.lit" [0] s with
      | (.ok j, s') => i == 0 && j == 2 && (s'.heap.get 0).children == [1] && (s'.heap.get 2).children == [3] &&
        (s'.heap.get 2).parent == some 0 && s'.heap.written 9 j == some [2] &&
        (match (s'.heap.joined i j).page ⟨false, fun _ => none⟩ 9 j with
          | .ok _ => true
          | _ => false) &&
        ((s'.heap.get 0).tags ++ (s'.heap.get 1).tags).all fun g => (g.title.parts true).all Content.alone
      | _ => false
    | _ => false) = true := by
  decide +kernel

example : ForPath { input := q%"x.lit", sectionPath := q%"y.lit" } := ⟨rfl, by simp⟩

/-- Its page is written; the page of the book is left as it is. The search index is that of the book without it. -/
theorem C82_index : let B := buildPath { input := [], out := q%"o", saveIndex := true } splitBook extraFile
    (match B.res with | .ok _ => true | _ => false) = true ∧
    (B.disk q%"o/c.html").map (fun x => decide (x.length > 100)) = some true ∧ B.disk q%"o/a.html" = some q%"old" ∧
    B.disk q%"o/search_index.json" =
      some q%"{\"a\":{\"location\":\"a.html\",\"title\":\"A\",\"text\":\"\",\"depth\":0,\"section_tag\":\"a\"},\"b\":{\"location\":\"b.html\",\"title\":\"B\",\"text\":\"\",\"depth\":1,\"section_tag\":\"b\"}}\n" := by
  decide +kernel

/-- If the book is one page, the file would be shown on that page, and nothing is written at all; the command succeeds. -/
theorem C82_nothing : let B := buildPath { input := [], out := q%"o" } q%"\\title{A}\n\nx\n" extraFile
    (match B.res with | .ok _ => true | _ => false) = true ∧ B.disk q%"o/c.html" = some q%"old" ∧ B.disk q%"o/a.html" = some q%"old" ∧
    B.stdout = [] := by
  decide +kernel

end Booklit.Props
