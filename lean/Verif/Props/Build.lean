import Verif.Props.Json
import Verif.Spec.Build
import Verif.Lemmas.BuildL

/-!
C68, C70, C71 and C72: building a book.
-/

namespace Booklit.Props

open Booklit Tree

theorem build_whole {J : Job} (hJ : J.Whole) {W : World} {n i : Nat} {s : St} (hl : loadFile W n none J.input [0] ⟨[], []⟩ = (.ok i, s))
    (O : Outside) (E : Engine) (bo short : Bool) (k : Nat) (d : Disk) :
    J.build W O E bo short n k d = if O.mkdir J.out = false then ⟨.err (.plain q%"mkdir"), d, []⟩
      else
        let r := andNext (s.heap.writeSection O E J.out k k i d) fun d =>
          if J.saveIndex then s.heap.writeIndex O E bo short J.out k i d else (.ok (), d)
        ⟨r.1, r.2, []⟩ := by
  rw [Job.build, hl]
  simp only [Job.choose, hJ.tag, hJ.path, hJ.out, ne_eq, not_true, if_false]

/-- What is on the disk after the pages of section `j` and the search index of section `i` have been written. -/
theorem site_written {h : Heap} {O : Outside} (hO : O.Fine) (E : Engine) (bo short save : Bool) (dest : Str) {i j : Nat} {ps : List Nat}
    (hw : Ends (fun n => h.written n j) ps) :
    (∀ p ∈ ps, ∃ txt N, ∀ m, N ≤ m → E.render h m p = .ok txt) →
    (save = true → (∃ ix N, ∀ m, N ≤ m → h.searchIndex bo E.ext m i = .ok ix) ∧
      ∀ p ∈ ps, h.filePathOf dest E.ext p ≠ joinPath dest q%"search_index.json") →
    ∃ K, ∀ k, K ≤ k → ∀ d,
      let B := andNext (h.writeSection O E dest k k j d) fun d =>
          if save then h.writeIndex O E bo short dest k i d else (.ok (), d)
      B.1 = .ok () ∧
      (∀ p ∈ ps, ∃ q ∈ ps, h.filePathOf dest E.ext q = h.filePathOf dest E.ext p ∧
        ∃ txt, E.render h k q = .ok txt ∧ B.2 (h.filePathOf dest E.ext p) = some txt) ∧
      (save = true → ∃ ix, h.searchIndex bo E.ext k i = .ok ix ∧
        B.2 (joinPath dest q%"search_index.json") = some (jsonIndex short ix)) ∧
      ∀ f, (∀ p ∈ ps, f ≠ h.filePathOf dest E.ext p) →
        (save = true → f ≠ joinPath dest q%"search_index.json") → B.2 f = d f := by
  intro hren hidx
  obtain ⟨N1, hN1⟩ := hw
  have : ∃ (txt : Nat → Str) (N : Nat), ∀ p ∈ ps, ∀ m, N ≤ m → E.render h m p = .ok (txt p) := by
    clear hN1 hidx
    classical
    refine ⟨fun p => if hp : p ∈ ps then (hren p hp).choose else [], ?_⟩
    have : ∀ qs : List Nat, (∀ q ∈ qs, q ∈ ps) → ∃ N, ∀ p ∈ qs, ∀ m, N ≤ m →
        E.render h m p = .ok (if hp : p ∈ ps then (hren p hp).choose else []) := by
      intro qs
      induction qs with
      | nil => exact fun _ => ⟨0, by simp⟩
      | cons q qs ih =>
        intro hq
        obtain ⟨N, hN⟩ := ih fun q' h' => hq q' (by simp [h'])
        have hm := hq q (by simp)
        obtain ⟨M, hM⟩ := (hren q hm).choose_spec
        refine ⟨max N M, fun p hp m hle => ?_⟩
        rcases List.mem_cons.1 hp with rfl | hp
        · rw [dif_pos hm]
          exact hM m (by omega)
        · exact hN p hp m (by omega)
    exact this ps fun _ h => h
  obtain ⟨txt, N2, hN2⟩ := this
  have : ∃ N, ∀ m, N ≤ m → save = true → ∃ ix, h.searchIndex bo E.ext m i = .ok ix := by
    by_cases hi : save = true
    · obtain ⟨⟨ix, N, h⟩, -⟩ := hidx hi
      exact ⟨N, fun m hm _ => ⟨ix, h m hm⟩⟩
    · exact ⟨0, fun _ _ h => absurd h hi⟩
  obtain ⟨N3, hN3⟩ := this
  refine ⟨max N1 (max N2 N3), fun k hk d => ?_⟩
  dsimp only
  rw [(write_all k).1 _ _ (hN1 k (by omega))]
  obtain ⟨h1, h2⟩ := writeAll_ok (O := O) (E := E) (h := h) (dest := dest) (k := k) (txt := txt) ps d
    (fun p _ => (hO _).2) (fun p hp => hN2 p hp k (by omega))
  cases hx : h.writeAll O E dest k ps d with
  | mk r d1 =>
    rw [hx] at h1 h2
    simp only at h1 h2
    subst h1
    simp only [andNext]
    have pages : ∀ p ∈ ps, ∃ q ∈ ps, h.filePathOf dest E.ext q = h.filePathOf dest E.ext p ∧
          ∃ txt, E.render h k q = .ok txt ∧ d1 (h.filePathOf dest E.ext p) = some txt := by
      intro p hp
      obtain ⟨q, hq⟩ := lastWritten_some (ws := ps.map fun p => (h.filePathOf dest E.ext p, p))
        (path := h.filePathOf dest E.ext p) (i := p) (List.mem_map.2 ⟨p, hp, rfl⟩)
      have hm := lastWritten_mem hq
      obtain ⟨q', hq', e⟩ := List.mem_map.1 hm
      simp only [Prod.mk.injEq] at e
      obtain ⟨e1, rfl⟩ := e
      exact ⟨q', hq', e1, txt q', hN2 q' hq' k (by omega), by rw [h2, hq]⟩
    have others : ∀ f, (∀ p ∈ ps, f ≠ h.filePathOf dest E.ext p) → d1 f = d f := by
      intro f hf
      rw [h2]
      cases hq : lastWritten f (ps.map fun p => (h.filePathOf dest E.ext p, p)) with
      | none => rfl
      | some q =>
        have hm := lastWritten_mem hq
        obtain ⟨q', hq', e⟩ := List.mem_map.1 hm
        simp only [Prod.mk.injEq] at e
        exact absurd e.1.symm (hf q' hq')
    by_cases hi : save = true
    · obtain ⟨ix, hix⟩ := hN3 k (by omega) hi
      have hs : h.writeIndex O E bo short dest k i d1 =
          (.ok (), d1.put (joinPath dest q%"search_index.json") (jsonIndex short ix)) := by
        simp [Heap.writeIndex, hix, Outside.save, (hO _).2.1, (hO _).2.2]
      simp only [hi, if_true, hs]
      refine ⟨trivial, fun p hp => ?_, fun _ => ⟨ix, hix, by simp [Disk.put]⟩, fun f hf hf' => ?_⟩
      · obtain ⟨q, h3, h4, x, h5, h6⟩ := pages p hp
        exact ⟨q, h3, h4, x, h5, by rw [Disk.put, if_neg ((hidx hi).2 p hp), h6]⟩
      · rw [Disk.put, if_neg (hf' trivial), others f hf]
    · simp only [hi, Bool.false_eq_true, if_false]
      exact ⟨trivial, pages, fun h => absurd h (by simp), fun f hf _ => others f hf⟩

/-- **C68**: a build that comes to an end writes the file of each page, with the page in it, and the file of the search index
if one is asked for, and no others: all other files are as they were before. If several pages have the same file, it has
one of these pages in it. This holds for every engine, whatever was in the files before. -/
theorem C68_build {J : Job} (hJ : J.Whole) {W : World} {n i : Nat} {s : St} (hl : loadFile W n none J.input [0] ⟨[], []⟩ = (.ok i, s))
    {O : Outside} (hO : O.Fine) (E : Engine) (bo short : Bool) :
    ∃ t ps, t.root = i ∧ Book s.heap t ∧ Ends (fun n => s.heap.written n i) ps ∧
      ((∀ p ∈ ps, ∃ txt N, ∀ m, N ≤ m → E.render s.heap m p = .ok txt) →
       (J.saveIndex = true → (∃ ix N, ∀ m, N ≤ m → s.heap.searchIndex bo E.ext m i = .ok ix) ∧
          ∀ p ∈ ps, s.heap.filePathOf J.out E.ext p ≠ joinPath J.out q%"search_index.json") →
       ∃ K, ∀ k, K ≤ k → ∀ d, let B := J.build W O E bo short n k d
        B.res = .ok () ∧
        (∀ p ∈ ps, ∃ q ∈ ps, s.heap.filePathOf J.out E.ext q = s.heap.filePathOf J.out E.ext p ∧
          ∃ txt, E.render s.heap k q = .ok txt ∧ B.disk (s.heap.filePathOf J.out E.ext p) = some txt) ∧
        (J.saveIndex = true → ∃ ix, s.heap.searchIndex bo E.ext k i = .ok ix ∧
          B.disk (joinPath J.out q%"search_index.json") = some (jsonIndex short ix)) ∧
        ∀ f, (∀ p ∈ ps, f ≠ s.heap.filePathOf J.out E.ext p) →
          (J.saveIndex = true → f ≠ joinPath J.out q%"search_index.json") → B.disk f = d f) := by
  obtain ⟨t, rfl, b⟩ := C28_loaded_tree hl
  have hw := written_ends b t (Sub.refl t)
  refine ⟨t, _, rfl, b, hw, ?_⟩
  generalize (if s.heap.isPage t.root = true then [t.root] else []) ++ List.map root (pages s.heap t) = ps at hw
  intro hren hidx
  obtain ⟨K, hK⟩ := site_written hO E bo short J.saveIndex J.out hw hren hidx
  refine ⟨K, fun k hk d => ?_⟩
  dsimp only
  rw [build_whole hJ hl, if_neg (by simp [(hO _).1])]
  exact hK k hk d

/-- The section with the tag that is asked for is one of the book. -/
theorem choose_sub {J : Job} (ht : J.sectionTag ≠ [] ∨ J.sectionPath = []) {W : World} {n k j : Nat} {s s' : St} {t : Tree}
    (hr : Reach W s) (b : Book s.heap t) (hc : J.choose W n k t.root s = (.ok j, s')) : s' = s ∧ j ∈ t.ids := by
  rw [Job.choose] at hc
  by_cases hne : J.sectionTag = []
  · have hp := ht.resolve_left (fun h => h hne)
    simp only [hne, hp, ne_eq, not_true, if_false] at hc
    cases hc
    exact ⟨rfl, mem_ids.2 ⟨t, Sub.refl t, rfl⟩⟩
  · rw [if_pos hne] at hc
    obtain ⟨r, hr', hperm⟩ := C21_find_tag b t (Sub.refl t) J.sectionTag
    cases hf : s.heap.findTag k t.root J.sectionTag with
    | none => rw [hf] at hc; cases hc
    | some gs =>
      have : gs = r := by
        obtain ⟨N, hN⟩ := hr'
        have h1 : s.heap.findTag (max k N) t.root J.sectionTag = some gs := tagsUp_mono _ _ _ _ hf _ (by omega)
        have h2 := hN (max k N) (by omega)
        simp only at h2
        rw [h1] at h2
        cases h2
        rfl
      subst this
      rw [hf] at hc
      cases gs with
      | nil => cases hc
      | cons g gs =>
        obtain ⟨i, hi, hg⟩ := named_mem (hperm.mem_iff.1 (List.mem_cons_self ..))
        have := C49_own_tags hr i g hg
        simp only [this] at hc
        cases hc
        exact ⟨rfl, hi⟩

/-- **C68**: whatever happens during a build, also if it fails half way, no files are touched but those of pages of the
book and that of the search index, if one is asked for. None are touched if the book cannot be loaded, or is written to the
standard output. -/
theorem C68_only_its_files (J : Job) (ht : J.sectionTag ≠ [] ∨ J.sectionPath = []) (W : World) (O : Outside) (E : Engine)
    (bo short : Bool) (n k : Nat) (d : Disk) :
    (J.out = [] → (J.build W O E bo short n k d).disk = d) ∧
    ((∀ i s, loadFile W n none J.input [0] ⟨[], []⟩ ≠ (.ok i, s)) → (J.build W O E bo short n k d).disk = d) ∧
    ∀ i s, loadFile W n none J.input [0] ⟨[], []⟩ = (.ok i, s) → ∃ t ps, t.root = i ∧ Book s.heap t ∧
      Ends (fun n => s.heap.written n i) ps ∧ ∀ f, (∀ p ∈ ps, f ≠ s.heap.filePathOf J.out E.ext p) →
        (J.saveIndex = true → f ≠ joinPath J.out q%"search_index.json") → (J.build W O E bo short n k d).disk f = d f := by
  refine ⟨fun ho => ?_, fun hl => ?_, fun i s hl => ?_⟩
  · unfold Job.build
    split
    · split
      · rw [if_pos ho]
        split <;> rfl
      all_goals rfl
    all_goals rfl
  · unfold Job.build
    split
    · rename_i i s e
      exact absurd e (hl i s)
    all_goals rfl
  · have hr : Reach W s := by
      have := Reach.load n none J.input [0] (Reach.start (W := W)) (by simp) rfl
      rw [hl] at this
      exact this
    obtain ⟨t, rfl, b⟩ := C28_loaded_tree hl
    refine ⟨t, _, rfl, b, written_ends b t (Sub.refl t), fun f hf hf' => ?_⟩
    rw [Job.build, hl]
    simp only
    split
    · rename_i j s1 hc
      obtain ⟨rfl, hj⟩ := choose_sub ht hr b hc
      split
      · split <;> rfl
      · split
        · rfl
        · obtain ⟨u, hu, rfl⟩ := mem_ids.1 hj
          obtain ⟨N, hN⟩ := written_ends b u hu
          refine andNext_disk ((write_other k).1 N _ _ (hN N (Nat.le_refl _)) (fun p hp => hf p (sub_written b hu p hp)) d)
            fun d' hd => ?_
          split
          · rename_i hi
            rw [← hd, Heap.writeIndex]
            split
            · exact save_other (hf' hi)
            all_goals rfl
          · exact hd
    all_goals rfl

/-- Pages are sections of the book. -/
theorem written_ids {h : Heap} {t : Tree} (b : Book h t) {ps : List Nat} (hps : Ends (fun n => h.written n t.root) ps) :
    ∀ p ∈ ps, p ∈ t.ids := by
  have := hps.unique (written_ends b t (Sub.refl t))
  subst this
  intro p hp
  rcases List.mem_append.1 hp with hp | hp
  · split at hp
    · rw [List.mem_singleton.1 hp]
      exact mem_ids.2 ⟨t, Sub.refl t, rfl⟩
    · cases hp
  · obtain ⟨u, hu, rfl⟩ := List.mem_map.1 hp
    exact mem_ids.2 ⟨u, pages_sub h hu, rfl⟩

/-- **C68**: documents in order are built with the HTML engine: the build succeeds, each page is in its file, the search index
in its, and nothing else has changed. -/
theorem C68_documents {W : World} {F : Content → Prop} (hF : W.Makes F) (hm : ∀ c, F c → c.simple = true)
    (hs : W.SolidPlugins) (hfs : W.fs [] = none) {J : Job} (hJ : J.Whole) {n i : Nat} {s : St}
    (hl : loadFile W n none J.input [0] ⟨[], []⟩ = (.ok i, s)) {O : Outside} (hO : O.Fine) (S : Site) (short : Bool) :
    ∃ t ps, t.root = i ∧ Book s.heap t ∧ Ends (fun n => s.heap.written n i) ps ∧
      (InOrder s.heap t → ∃ K, ∀ k, K ≤ k → ∀ d, let B := J.build W O (htmlEngine S) S.brokenOk short n k d
        B.res = .ok () ∧
        (∀ p ∈ ps, ∃ q ∈ ps, s.heap.filePathOf J.out htmlExt q = s.heap.filePathOf J.out htmlExt p ∧
          ∃ txt, s.heap.page S k q = .ok txt ∧ B.disk (s.heap.filePathOf J.out htmlExt p) = some txt) ∧
        (J.saveIndex = true → ∃ ix, s.heap.searchIndex S.brokenOk htmlExt k i = .ok ix ∧
          B.disk (joinPath J.out q%"search_index.json") = some (jsonIndex short ix)) ∧
        ∀ f, (∀ p ∈ ps, f ≠ s.heap.filePathOf J.out htmlExt p) →
          (J.saveIndex = true → f ≠ joinPath J.out q%"search_index.json") → B.disk f = d f) := by
  obtain ⟨t, ps, rfl, b, hps, hb⟩ := C68_build hJ hl hO (htmlEngine S) S.brokenOk short
  refine ⟨t, ps, rfl, b, hps, fun ord => hb (fun p hp => ?_) fun _ => ⟨?_, fun p _ => html_not_index hJ.out p⟩⟩
  · obtain ⟨t', h1, b', h2⟩ := C67_documents hF hm hs hfs Reach.start rfl hl
    obtain rfl := Tree.unique (h := s.heap) h1 b'.children b.children
    exact h2 ord S p (written_ids b hps p hp)
  · obtain ⟨t', h1, b', h2⟩ := C69_documents hF hm hs hfs Reach.start rfl hl
    obtain rfl := Tree.unique (h := s.heap) h1 b'.children b.children
    refine h2 (fun j hj g hg => ?_) S.brokenOk htmlExt
    refine (all_iff _).2 fun d hd => ?_
    have := (all_iff _).1 ((ord.titles j hj).2 g hg) d hd
    cases d with
    | nil => cases this
    | _ => rfl

/-! ### C70 -/

/-- **C70, partial**: after a document in order has been built with the HTML engine, the files in the output directory form a
closed site: each page is in its file, and each link on it is one written in the book, or a browser that follows it gets
to a file of the directory, and on it to the place named by the link. Missing compared with C70: page tags with slashes or used
for several pages, characters with a meaning in URLs in tags, targets in partials (see C26, C54 and C65); broken references
are errors here. -/
theorem C70_closed_site_partial {W : World} {F : Content → Prop} (hF : W.Makes F) (hm : ∀ c, F c → c.simple = true ∧ c.modest = true)
    (hs : W.SolidPlugins) (hfs : W.fs [] = none) {J : Job} (hJ : J.Whole) {n i : Nat} {s : St}
    (hl : loadFile W n none J.input [0] ⟨[], []⟩ = (.ok i, s)) {O : Outside} (hO : O.Fine) {S : Site} (hS : S.brokenOk = false)
    (short : Bool) :
    ∃ t ps, t.root = i ∧ Book s.heap t ∧ Ends (fun n => s.heap.written n i) ps ∧
      (InOrder s.heap t → (∀ j ∈ t.ids, ∀ g ∈ (s.heap.get j).tags, plainName g.name) →
       (∀ j ∈ t.ids, ∀ p ∈ (s.heap.get j).partials, ∀ a l x y, .target a l x y ∉ p.2.parts false) →
       (∀ p ∈ ps, '/' ∉ (s.heap.get p).primaryTag.name) →
       (∀ p ∈ ps, ∀ q ∈ ps, p ≠ q → (s.heap.get p).primaryTag.name ≠ (s.heap.get q).primaryTag.name) →
       ∃ K, ∀ k, K ≤ k → ∀ d, let B := J.build W O (htmlEngine S) false short n k d
        B.res = .ok () ∧ ∀ p ∈ ps, ∃ txt ds, B.disk (joinPath J.out ((s.heap.get p).primaryTag.name ++ q%".html")) = some txt ∧
          readHtml txt = some ds ∧ s.heap.page S k p = .ok txt ∧
          ∀ e as ks v, Within (.elem e as ks) ds → (q%"href", v) ∈ as →
            (∃ u ∈ t.links s.heap, v = linkTo u) ∨ OnDisk B.disk J.out v) := by
  have hr : Reach W s := by
    have := Reach.load n none J.input [0] (Reach.start (W := W)) (by simp) rfl
    rw [hl] at this
    exact this
  obtain ⟨t, ps, rfl, b, hps, hb⟩ := C68_documents hF (fun c h => (hm c h).1) hs hfs hJ hl hO S short
  refine ⟨t, ps, rfl, b, hps, fun ord names nopart noslash diff => ?_⟩
  obtain ⟨t', ps', h1, b', hps', links⟩ := C65_no_dead_links_partial hF (fun c h => (hm c h).2) hs hfs Reach.start rfl hl S
  obtain rfl := Tree.unique (h := s.heap) h1 b'.children b.children
  obtain rfl := hps'.unique hps
  obtain ⟨K, hK⟩ := hb ord
  refine ⟨K, fun k hk d => ?_⟩
  obtain ⟨hres, hfile, -, -⟩ := hK k hk d
  rw [hS] at hres hfile
  refine ⟨hres, ?_⟩
  have good : goodExt htmlExt := by unfold goodExt; decide
  have hname : ∀ p, (s.heap.get p).primaryTag.name ++ q%".html" = s.heap.fileName htmlExt p := fun p => by
    simp [Heap.fileName, htmlExt]
  -- each page is in its file
  have file : ∀ p ∈ ps', ∃ txt, s.heap.page S k p = .ok txt ∧
      (J.build W O (htmlEngine S) false short n k d).disk (joinPath J.out ((s.heap.get p).primaryTag.name ++ q%".html")) = some txt := by
    intro p hp
    obtain ⟨q, hq, e, txt, h2, h3⟩ := hfile p hp
    by_cases hpq : q = p
    · subst hpq
      exact ⟨txt, h2, by rw [hname]; exact h3⟩
    · have := joinPath_inj hJ.out (plain_fileName (noslash q hq) good) (plain_fileName (noslash p hp) good) e
      exact absurd (List.append_cancel_right (List.append_cancel_right this)) (diff q hq p hp hpq)
  have plain : ∀ j ∈ t'.ids, plainName (s.heap.get j).primaryTag.name := by
    intro j hj
    by_cases hj' : j < s.heap.length
    · rcases (C59_tags_of_sections hr hj').2 with ⟨h, -⟩ | ⟨h, -⟩
      · exact names j hj _ h
      · rw [h]
        intro c hc
        cases hc
    · rw [Heap.get_out hj']
      intro c hc
      cases hc
  intro p hp
  obtain ⟨txt, h2, h3⟩ := file p hp
  obtain ⟨ds, h4, h5⟩ := links p (written_ids b hps p hp) k txt h2
  refine ⟨txt, ds, h3, h4, h2, fun e as ks v hw hv => (h5 e as ks v hw hv).imp_right ?_⟩
  rintro ⟨o, ho, frag, -, h6, h7, h8⟩
  have nohide : ∀ a, ¬ (S.brokenOk = true ∧ a = q%"broken" ∨
      ∃ j ∈ t'.ids, ∃ p ∈ (s.heap.get j).partials, ∃ l x y, .target a l x y ∈ p.2.parts false) := by
    rintro a (⟨h, -⟩ | ⟨j, hj, p, hp, l, x, y, h⟩)
    · rw [hS] at h
      cases h
    · exact nopart j hj p hp a l x y h
  have hfrag : ∀ a, frag = some a → plainName a := by
    intro a ha
    obtain ⟨j, hj, h9⟩ := (h6 a ha).resolve_left (nohide a)
    rcases h9 with rfl | ⟨g, hg, rfl⟩
    · exact plain j hj
    · have hj' : j < s.heap.length := Classical.byContradiction fun hj' => by
        rw [Heap.get_out hj'] at hg
        cases hg
      by_cases ha : g.anchor = []
      · rw [ha]
        intro c hc
        cases hc
      · rw [((C59_tags_of_sections hr hj').1 g hg).2.2 ha]
        exact names j hj g hg
  obtain ⟨txt', h9, h10⟩ := file o ho
  obtain ⟨ds', h11, -⟩ := links o (written_ids b hps o ho) k txt' h9
  refine ⟨(s.heap.get o).primaryTag.name ++ q%".html", frag, txt', ds', h7 (plain o (written_ids b hps o ho)) hfrag, ?_, h10, h11,
    fun a ha => ?_⟩
  · have : '/' ∉ q%".html" := by decide
    simp [noslash o ho]
  · obtain ⟨ds2, h12, h13⟩ := (h8 a ha (hfrag a ha) k txt' h9).resolve_left (nohide a)
    rw [h11] at h12
    cases h12
    exact h13

/-! ### C71 -/

/-- What is on the disk after some pages have been written. -/
theorem written_pages {h : Heap} {O : Outside} {E : Engine} {dest : Str} {k : Nat} {ps : List Nat} {d : Disk}
    (hd : (h.writeAll O E dest k ps d).1 = .ok ()) : ∀ p ∈ ps, ∃ q ∈ ps, h.filePathOf dest E.ext q = h.filePathOf dest E.ext p ∧
      ∃ txt, E.render h k q = .ok txt ∧ (h.writeAll O E dest k ps d).2 (h.filePathOf dest E.ext p) = some txt := by
  intro p hp
  have h1 := writeAll_done ps d hd
  have h2 := (writeAll_ok (txt := fun p => match E.render h k p with | .ok t => t | _ => []) ps d (fun p hp => (h1 p hp).1)
    (fun p hp => by obtain ⟨t, ht⟩ := (h1 p hp).2; rw [ht])).2 (h.filePathOf dest E.ext p)
  obtain ⟨q, hq⟩ := lastWritten_some (ws := ps.map fun p => (h.filePathOf dest E.ext p, p))
    (path := h.filePathOf dest E.ext p) (i := p) (List.mem_map.2 ⟨p, hp, rfl⟩)
  obtain ⟨q', hq', e⟩ := List.mem_map.1 (lastWritten_mem hq)
  simp only [Prod.mk.injEq] at e
  obtain ⟨e1, rfl⟩ := e
  obtain ⟨t, ht⟩ := (h1 q' hq').2
  refine ⟨q', hq', e1, t, ht, ?_⟩
  rw [h2, hq]
  simp only [ht]

/-- **C71, partial**: a build that fails, for whatever reason, leaves at most one file of a page incomplete. The pages before
it, in the order of the book, are new; those after it, and all other files, are as they were. If the making of the search
index fails, all pages are new. Missing compared with C71: the file of the page at which the build fails, whose earlier
contents are lost, see `C71_false`. -/
theorem C71_failed_build_partial {J : Job} (hJ : J.Whole) {W : World} {n i : Nat} {s : St}
    (hl : loadFile W n none J.input [0] ⟨[], []⟩ = (.ok i, s)) (O : Outside) (E : Engine) (bo short : Bool) :
    ∃ t ps, t.root = i ∧ Book s.heap t ∧ Ends (fun n => s.heap.written n i) ps ∧ ∃ K, ∀ k, K ≤ k → ∀ d,
      let B := J.build W O E bo short n k d
      let file := s.heap.filePathOf J.out E.ext
      B.res ≠ .ok () → B.disk = d ∨ ∃ pre post, ps = pre ++ post ∧ ∃ torn,
        (torn = joinPath J.out q%"search_index.json" ∧ post = [] ∧ J.saveIndex = true ∨ ∃ p, post.head? = some p ∧ torn = file p) ∧
        (∀ p ∈ pre, file p ≠ torn → ∃ q ∈ pre, file q = file p ∧ ∃ txt, E.render s.heap k q = .ok txt ∧ B.disk (file p) = some txt) ∧
        ∀ f, f ≠ torn → (∀ p ∈ pre, f ≠ file p) → B.disk f = d f := by
  obtain ⟨t, rfl, b⟩ := C28_loaded_tree hl
  have hw := written_ends b t (Sub.refl t)
  refine ⟨t, _, rfl, b, hw, ?_⟩
  generalize (if s.heap.isPage t.root = true then [t.root] else []) ++ List.map root (pages s.heap t) = ps at hw
  obtain ⟨N, hN⟩ := hw
  refine ⟨N, fun k hk d => ?_⟩
  dsimp only
  intro hf
  rw [build_whole hJ hl] at hf ⊢
  by_cases hmk : O.mkdir J.out = false
  · rw [if_pos hmk]
    exact .inl rfl
  rw [if_neg hmk, (write_all k).1 _ _ (hN k hk)] at hf ⊢
  refine .inr ?_
  simp only at hf ⊢
  by_cases hall : (s.heap.writeAll O E J.out k ps d).1 = .ok ()
  · have hpages := written_pages hall
    have hother : ∀ f, (∀ p ∈ ps, f ≠ s.heap.filePathOf J.out E.ext p) → (s.heap.writeAll O E J.out k ps d).2 f = d f :=
      fun f hf => writeAll_other ps d hf
    cases hx : s.heap.writeAll O E J.out k ps d with
    | mk r d1 =>
      rw [hx] at hall hpages hother hf
      simp only at hall hpages hother
      subst hall
      simp only [andNext] at hf ⊢
      by_cases hi : J.saveIndex = true
      · simp only [hi, if_true]
        have keep : ∀ f, f ≠ joinPath J.out q%"search_index.json" →
            (s.heap.writeIndex O E bo short J.out k t.root d1).2 f = d1 f := by
          intro f hf
          rw [Heap.writeIndex]
          split
          · exact save_other hf
          all_goals rfl
        refine ⟨ps, [], by simp, _, .inl ⟨rfl, rfl, trivial⟩, fun p hp hne => ?_, fun f hne hf => ?_⟩
        · rw [keep _ hne]
          exact hpages p hp
        · rw [keep _ hne]
          exact hother f hf
      · simp only [hi, if_false, Bool.false_eq_true] at hf
        exact absurd rfl hf
  · obtain ⟨pre, p, post, rfl, h1, h2⟩ := writeAll_fail ps d hall
    have hd : ∀ g, (andNext (s.heap.writeAll O E J.out k (pre ++ p :: post) d) g) = s.heap.writeAll O E J.out k (pre ++ p :: post) d := by
      intro g
      cases hx : s.heap.writeAll O E J.out k (pre ++ p :: post) d with
      | mk r d1 =>
        rw [hx] at hall
        cases r with
        | ok u => exact absurd rfl hall
        | _ => rfl
    rw [hd, h2]
    refine ⟨pre, p :: post, rfl, _, .inr ⟨p, rfl, rfl⟩, fun q hq hne => ?_, fun f hne hf => ?_⟩
    · rw [Heap.writeSingle, save_other hne]
      exact written_pages h1 q hq
    · rw [Heap.writeSingle, save_other hne]
      exact writeAll_other pre d hf

/-! ### Cases -/

/-- The operating system has nothing against it, and what is cut short is lost. -/
def calm : Outside := ⟨fun _ => true, fun _ => true, fun _ => true, fun _ => []⟩

example : calm.Fine := fun _ => ⟨rfl, rfl, rfl⟩

/-- A build of a document into the directory `o`, where all files are old. -/
def buildOf (J : Job) (text : Str) : Built :=
  { J with input := q%"x.lit" : Job }.build (plainFile text) calm (htmlEngine ⟨false, fun _ => none⟩) false true 5 9 fun _ => some q%"old"

/-- A book with two pages. -/
def twoPageBook : Str := q%"\\title{A}{a}\n\n\\split-sections\n\n\\reference{u}\n\n\\section{\\title{B}{b}\n\n\\target{u}{U}\n}\n"

/-- It is built, with links that lead somewhere. -/
example : let B := buildOf { input := [], out := q%"o", saveIndex := true } twoPageBook
    (match B.res with | .ok _ => true | _ => false) = true ∧
    (B.disk q%"o/a.html").map (fun x => decide (x.length > 100)) = some true ∧
    (B.disk q%"o/b.html").map (fun x => decide (x.length > 100)) = some true ∧
    (B.disk q%"o/search_index.json").map (fun x => (Json.read x).isSome) = some true ∧
    B.disk q%"o/c.html" = some q%"old" ∧
    (match loadFile (plainFile twoPageBook) 5 none q%"x.lit" [0] ⟨[], []⟩ with
      | (.ok i, s) => i == 0 && orderCheck s.heap (.node 0 [.node 1 []]) && (s.heap.get 0).children == [1] && (s.heap.get 1).children == []
      | _ => false) = true := by
  decide +kernel

/-- A book with three pages, the second with a reference to a tag that does not exist. -/
def brokenPage : Str :=
  q%"\\title{A}{a}\n\n\\split-sections\n\n\\section{\\title{B}{b}\n\n\\reference{u}\n}\n\n\\section{\\title{C}{c}\n\nx\n}\n"

/-- **C71 is false in general**: building this book fails at its second page, and the earlier contents of that page's file
are lost. -/
theorem C71_false : let B := buildOf { input := [], out := q%"o" } brokenPage
    (match B.res with | .err _ => true | _ => false) = true ∧ (B.disk q%"o/a.html").map (fun x => decide (x.length > 100)) = some true ∧
    B.disk q%"o/b.html" = some [] ∧ B.disk q%"o/c.html" = some q%"old" := by
  decide +kernel

/-! ### C72 -/

theorem build_tag {J : Job} (ht : J.sectionTag ≠ []) {W : World} {n i j k : Nat} {s : St} {g : Tag}
    (hl : loadFile W n none J.input [0] ⟨[], []⟩ = (.ok i, s)) (hf : s.heap.findTag k i J.sectionTag = some [g]) (hg : g.sec = some j)
    (O : Outside) (E : Engine) (bo short : Bool) (d : Disk) :
    J.build W O E bo short n k d =
      if J.out = [] then
        match E.render s.heap k j with
        | .ok t => ⟨.ok (), d, t⟩
        | .err e => ⟨.err e, d, O.torn []⟩
        | .panic => ⟨.panic, d, O.torn []⟩
        | .more => ⟨.more, d, O.torn []⟩
      else if O.mkdir J.out = false then ⟨.err (.plain q%"mkdir"), d, []⟩
      else
        let r := andNext (s.heap.writeSection O E J.out k k j d) fun d =>
          if J.saveIndex then s.heap.writeIndex O E bo short J.out k i d else (.ok (), d)
        ⟨r.1, r.2, []⟩ := by
  rw [Job.build, hl]
  simp only [Job.choose, ht, ne_eq, not_false_iff, if_true, hf, hg]
  rfl

/-- **C72, partial**: if a section is asked for by a tag that only it has, it is what is rendered: to the standard output, or
to its file in the output directory if it is a page. The search index is that of the whole book all the same. Missing compared with C72: sections that are shown on the page of
another, see `C72_false`; tags that several sections have. -/
theorem C72_section_partial {J : Job} (ht : J.sectionTag ≠ []) {W : World} {n i : Nat} {s : St}
    (hl : loadFile W n none J.input [0] ⟨[], []⟩ = (.ok i, s)) {O : Outside} (hO : O.Fine) (E : Engine) (bo short : Bool) :
    ∃ t, t.root = i ∧ Book s.heap t ∧ ∀ g, t.tagsNamed s.heap J.sectionTag = [g] →
      ∃ j ∈ t.ids, g ∈ (s.heap.get j).tags ∧
        (J.out = [] → ∀ txt N, (∀ m, N ≤ m → E.render s.heap m j = .ok txt) →
          ∃ K, ∀ k, K ≤ k → ∀ d, J.build W O E bo short n k d = ⟨.ok (), d, txt⟩) ∧
        (J.out ≠ [] → s.heap.isPage j = true → ∃ ps, j ∈ ps ∧ Ends (fun n => s.heap.written n j) ps ∧
          ((∀ p ∈ ps, ∃ txt N, ∀ m, N ≤ m → E.render s.heap m p = .ok txt) →
            (J.saveIndex = true → (∃ ix N, ∀ m, N ≤ m → s.heap.searchIndex bo E.ext m i = .ok ix) ∧
              ∀ p ∈ ps, s.heap.filePathOf J.out E.ext p ≠ joinPath J.out q%"search_index.json") →
            ∃ K, ∀ k, K ≤ k → ∀ d, let B := J.build W O E bo short n k d
              let file := s.heap.filePathOf J.out E.ext
              B.res = .ok () ∧ (∀ p ∈ ps, ∃ q ∈ ps, file q = file p ∧ ∃ txt, E.render s.heap k q = .ok txt ∧ B.disk (file p) = some txt) ∧
              (J.saveIndex = true → ∃ ix, s.heap.searchIndex bo E.ext k i = .ok ix ∧
                B.disk (joinPath J.out q%"search_index.json") = some (jsonIndex short ix)) ∧
              ∀ f, (∀ p ∈ ps, f ≠ file p) → (J.saveIndex = true → f ≠ joinPath J.out q%"search_index.json") → B.disk f = d f)) := by
  have hr : Reach W s := by
    have := Reach.load n none J.input [0] (Reach.start (W := W)) (by simp) rfl
    rw [hl] at this
    exact this
  obtain ⟨t, rfl, b⟩ := C28_loaded_tree hl
  refine ⟨t, rfl, b, fun g hg => ?_⟩
  obtain ⟨r, ⟨N1, hN1⟩, hperm⟩ := C21_find_tag b t (Sub.refl t) J.sectionTag
  rw [hg] at hperm
  obtain rfl := List.perm_singleton.1 hperm
  obtain ⟨j, hj, hgj⟩ := named_mem (show g ∈ t.tagsNamed s.heap J.sectionTag by rw [hg]; simp)
  have hsec := C49_own_tags hr j g hgj
  refine ⟨j, hj, hgj, fun ho txt N hN => ⟨max N N1, fun k hk d => ?_⟩, fun ho hp => ?_⟩
  · rw [build_tag ht hl (hN1 k (by omega)) hsec, if_pos ho, hN k (by omega)]
  · obtain ⟨u, hu, rfl⟩ := mem_ids.1 hj
    have hw := written_ends b u hu
    refine ⟨_, by rw [if_pos hp]; simp, hw, ?_⟩
    generalize (if s.heap.isPage u.root = true then [u.root] else []) ++ List.map root (pages s.heap u) = ps at hw
    intro hren hidx
    obtain ⟨K, hK⟩ := site_written hO E bo short J.saveIndex J.out hw hren hidx
    refine ⟨max N1 K, fun k hk d => ?_⟩
    dsimp only
    rw [build_tag ht hl (hN1 k (by omega)) hsec, if_neg ho, if_neg (by simp [(hO _).1])]
    exact hK k (by omega) d

/-- The second section of the book is asked for, once on the standard output and once in a directory. -/
example : (buildOf { input := [], sectionTag := q%"b" } twoPageBook).stdout.length > 100 ∧
    (buildOf { input := [], out := q%"o", sectionTag := q%"b" } twoPageBook).disk q%"o/a.html" = some q%"old" ∧
    ((buildOf { input := [], out := q%"o", sectionTag := q%"b" } twoPageBook).disk q%"o/b.html").map (fun x => decide (x.length > 100)) = some true := by
  decide +kernel

/-- A book with a section that is not a page. -/
def onePageBook : Str := q%"\\title{A}{a}\n\n\\section{\\title{B}{b}\n\nx\n}\n"

/-- **C72 is false in general**: if the section that is asked for is shown on the page of another, the build succeeds but
writes nothing at all. -/
theorem C72_false (d : Disk) :
    let B := Job.build { input := q%"x.lit", out := q%"o", sectionTag := q%"b" } (plainFile onePageBook) calm
      (htmlEngine ⟨false, fun _ => none⟩) false true 5 9 d
    B.res = .ok () ∧ B.disk = d ∧ B.stdout = [] := by
  dsimp only
  have key : (match loadFile (plainFile onePageBook) 5 none q%"x.lit" [0] ⟨[], []⟩ with
      | (.ok i, s) => (match s.heap.findTag 9 i q%"b" with | some [g] => g.sec == some 1 | _ => false) && s.heap.written 9 1 == some []
      | _ => false) = true := by decide +kernel
  split at key
  · rename_i i s e
    simp only [Bool.and_eq_true, beq_iff_eq] at key
    obtain ⟨h1, h2⟩ := key
    split at h1
    · rename_i g hg
      have hb := build_tag (J := { input := q%"x.lit", out := q%"o", sectionTag := q%"b" }) (by simp) e hg (beq_iff_eq.1 h1) calm
        (htmlEngine ⟨false, fun _ => none⟩) false true d
      rw [if_neg (by simp), if_neg (by simp [calm]), (write_all 9).1 _ _ h2] at hb
      rw [hb]
      exact ⟨rfl, rfl, rfl⟩
    · cases h1
  · cases key

end Booklit.Props
