import Verif.Lemmas.EvalRel
import Verif.Lemmas.SectionL

/-!
Loading documents: C27, C28, C29, C31, C32, C43.
-/

namespace Booklit.Props

open Booklit

/-- A small file system for the examples. -/
def sampleWorld : World where
  fs := fun p =>
    if p = q%"a.lit" then
      some ⟨1, some q%"\\title{Hello & \\aux{x}World}\n\nfoo\\target{tt}\n\n\\section{\n  \\title{Sub}\n\n  text\n}\n\n\\include-section{d/b.lit}\n"⟩
    else if p = q%"d/b.lit" then some ⟨1, some q%"\\title{B}\n\n\\section{\\title{C}}\n"⟩
    else if p = q%"one.lit" then some ⟨1, some q%"\\single-page\n\n\\split-sections\n\n\\section{\\split-sections}\n"⟩
    else if p = q%"late.lit" then some ⟨1, some q%"\\split-sections\n\n\\single-page\n\n\\section{\\title{C}}\n"⟩
    else none
  registry := fun n => if n = q%"p" then some 1 else none
  foreign := fun p n => if p = 1 ∧ n = q%"Hi" then some ⟨[], none, fun _ _ _ => .content (.str q%"hi")⟩ else none
  brokenOk := false

/-- Loading one of the sample files. -/
def sampleLoad (path : Str) : Res Nat × St := loadFile sampleWorld 9 none path [0] ⟨[], []⟩

/-- A test on a successful load. -/
def okAnd (r : Res Nat × St) (p : Nat → St → Bool) : Bool :=
  match r with
  | (.ok i, s) => p i s
  | _ => false

/-! ### C28 -/

/-- **C28**: whatever the documents, the included files, the plugins and the earlier loads, the section that loading
a file returns is the root of a proper tree. -/
theorem C28_loaded_tree {W : World} {n : Nat} {path : Str} {plugins : List Nat} {s s' : St} {i : Nat}
    (h : loadFile W n none path plugins s = (.ok i, s')) : ∃ t : Tree, t.root = i ∧ Book s'.heap t := by
  rw [loadFile_run] at h
  cases he : evalFile W n none path plugins s with
  | mk r s1 =>
    rw [he] at h
    cases r with
    | err _ => cases h
    | panic => cases h
    | more => cases h
    | ok j =>
      dsimp only at h
      obtain ⟨rfl, g⟩ := keeps_file_ok (Grow.inv W) he
      cases hc : s1.heap.collect n s.heap.length with
      | err _ => rw [hc] at h; cases h
      | panic => rw [hc] at h; cases h
      | more => rw [hc] at h; cases h
      | ok h2 =>
        rw [hc] at h
        cases h
        obtain ⟨p1, _, ts, c1, f1⟩ := g.2 (by simp [St.file])
        have e0 : Heap.get (s.file none path plugins).heap s.heap.length =
            { Sec.fresh none path with plugins := plugins } := Heap.get_append_eq _ _
        rw [e0] at p1 c1
        have m := collect_more n _ _ _ hc
        have hl : s.heap.length < s1.heap.length := g.1.new.1
        have f1' : Forest h2 (s.heap.length + 1) s.heap.length ts := by
          have : Forest s1.heap (s.heap.length + 1) s.heap.length ts := by simpa [St.file] using f1
          exact this.keep (by rw [m.1]; exact Nat.le_refl _) fun j _ => ⟨(m.same j).1, (m.same j).2.1⟩
        have hroot : (h2.get s.heap.length).children = ts.map Tree.root := by rw [(m.same _).1, c1]; simp [Sec.fresh]
        have hsub : ∀ u, (Tree.node s.heap.length ts).Sub u → u = .node s.heap.length ts ∨ ∃ t ∈ ts, t.Sub u := by
          rintro u ⟨ks, hks⟩
          rcases hks.uncons with ⟨_, rfl⟩ | ⟨k, ls, c, _, hc1, hc2⟩
          · exact .inl rfl
          · exact .inr ⟨c, List.mem_of_getElem? hc1, ls, hc2⟩
        refine ⟨.node s.heap.length ts, rfl, ?_, ?_, ?_, ?_⟩
        · simp only [Tree.ids, List.nodup_cons]
          exact ⟨fun hm => by have := (f1'.range _ hm).1; omega, f1'.nodup⟩
        · intro u hu
          rcases hsub u hu with rfl | ⟨t, ht, hs⟩
          · exact hroot
          · exact f1'.children t ht u hs
        · intro u hu k hk
          rcases hsub u hu with rfl | ⟨t, ht, hs⟩
          · exact f1'.top k hk
          · exact f1'.parent t ht u hs k hk
        · show (h2.get s.heap.length).parent = none
          rw [(m.same _).2.1, p1]; rfl

example : okAnd (sampleLoad q%"a.lit") (fun i s => i == 0 && s.heap.length == 4 && (s.heap.get 0).children == [1, 2] &&
    (s.heap.get 2).children == [3] && (s.heap.get 3).parent == some 2) = true := by decide +kernel

/-! ### C29 -/

/-- **C29**: evaluating anything in section `i` leaves every other existing section as it was, however evaluation
ends. -/
theorem C29_sections_isolated (W : World) (k n i : Nat) (node : Node) (r : Content) (s : St) (hi : i < s.heap.length) :
    ∀ j, j < s.heap.length → j ≠ i → (evalNode W k (incl W n) node i r s).2.heap.get j = s.heap.get j :=
  ((node_ok (Frame.inv W) (keeps_incl (Frame.inv W) n) node i r).1 s hi).2

/-- **C29**: evaluating a file leaves every existing section as it was, the parent it is evaluated for included. -/
theorem C29_files_isolated (W : World) (n : Nat) (parent : Option Nat) (path : Str) (plugins : List Nat) (s : St) :
    ∀ j, j < s.heap.length → (evalFile W n parent path plugins s).2.heap.get j = s.heap.get j := by
  intro j hj
  rcases keeps_file (Frame.inv W) n parent path plugins s with ⟨e, h⟩ | h | h | ⟨s', ⟨h1, h2⟩ | ⟨h1, h2, h3⟩⟩
  · rw [h]
  · rw [h]
  · rw [h]
  · rw [h1]; exact h2.new.2 j hj
  · rw [h2]; exact h3.new.2 j hj

/-- **C29**: a call of `\section` that succeeds changes its section only by adding the new one to its children (and by
recording where the call is); the new section is a fresh one. One that fails adds nothing. -/
theorem C29_inline_section_only_adds (W : World) (k n i : Nat) (node : Node) (loc : Location) (r : Content) (s : St)
    (hs : Sound s.heap) (hi : i < s.heap.length) :
    (∀ r' s', evalNode W k (incl W n) (.invoke q%"section" [node] loc) i r s = (.ok r', s') → r' = r ∧
      s'.heap.get i = { s.heap.get i with invokeLoc := loc, children := (s.heap.get i).children ++ [s.heap.length] } ∧
      (s'.heap.get s.heap.length).parent = some i ∧ (s'.heap.get s.heap.length).loc = loc) ∧
    ((∀ r' s', evalNode W k (incl W n) (.invoke q%"section" [node] loc) i r s ≠ (.ok r', s')) →
      (evalNode W k (incl W n) (.invoke q%"section" [node] loc) i r s).2.heap.get i =
        { s.heap.get i with invokeLoc := loc }) := by
  obtain ⟨path, hp⟩ := hs.filePath i (s.heap.length + 1) hi (by omega)
  rw [section_run k (incl W n) node loc i r s hp (hs i hi).2, evalInline_run]
  have hi' : i < (s.calling i loc).heap.length := by rw [St.length_calling]; exact hi
  have hb := keeps_body (Grow.inv W) (c := (s.calling i loc).heap.length)
    (node_ok (Grow.inv W) (k := k) (keeps_incl (Grow.inv W) n) node) ((s.calling i loc).inline i) (by simp [St.inline])
  have ec : (s.calling i loc).heap.get i = { s.heap.get i with invokeLoc := loc } := by
    simp only [St.calling]; rw [Heap.get_upd_eq _ _ hi]
  revert hb
  cases evalBody (evalNode W k (incl W n) node) (s.calling i loc).heap.length ((s.calling i loc).inline i) with
  | mk x s1 =>
    intro hb
    dsimp only at hb
    obtain ⟨hl, hold⟩ := hb.1.new
    cases x with
    | ok _ =>
      refine ⟨fun r' s' e => ?_, fun e => absurd rfl (e r _)⟩
      injection e with e1 e2
      injection e1 with e1
      subst e1 e2
      have ei := hold i hi'
      have hlen : s1.heap.length > s.heap.length := by rw [St.length_calling] at hl; exact hl
      simp only [St.linkInline, St.length_calling]
      rw [Heap.get_upd_eq _ _ (by rw [Heap.length_upd]; omega), Heap.get_upd_ne _ _ (by omega), ei, ec]
      refine ⟨trivial, rfl, ?_, ?_⟩
      · rw [Heap.get_upd_ne _ _ (by omega), Heap.get_upd_eq _ _ hlen]
        have := (hb.2 (by simp [St.inline])).1
        rw [St.length_calling] at this
        rw [show (s1.heap.get s.heap.length).parent = _ from this]
        have e0 : Heap.get ((s.calling i loc).inline i).heap (s.calling i loc).heap.length = _ := Heap.get_append_eq _ _
        rw [St.length_calling] at e0
        rw [e0]
        rfl
      · rw [Heap.get_upd_ne _ _ (by omega), Heap.get_upd_eq _ _ hlen]
    | err e =>
      refine ⟨fun r' s' e => (by cases e), fun _ => ?_⟩
      show s1.heap.get i = _
      rw [hold i hi', ec]
    | panic =>
      refine ⟨fun r' s' e => (by cases e), fun _ => ?_⟩
      show s1.heap.get i = _
      rw [hold i hi', ec]
    | more =>
      refine ⟨fun r' s' e => (by cases e), fun _ => ?_⟩
      show s1.heap.get i = _
      rw [hold i hi', ec]

example : ∃ s, Reach sampleWorld s ∧ s.heap.length = 4 :=
  ⟨_, .load 9 none q%"a.lit" [0] .start (by simp) rfl, by decide +kernel⟩

/-! ### C43 -/

/-- **C43**: collecting a section changes nothing but lists of tags, to which it appends. -/
theorem C43_collect_only_adds_tags {h h' : Heap} {n i : Nat} (e : h.collect n i = .ok h') :
    h'.length = h.length ∧ ∀ j, ∃ gs, h'.get j = { h.get j with tags := (h.get j).tags ++ gs } :=
  collect_more n h i h' e

/-- **C43**: in a tree of sections whose contents are complete, every section gets exactly the tags of its own
targets, once, and no other section is touched. -/
theorem C43_collect_each_section_once {h : Heap} {t : Tree} (b : Book h t) (T : Nat → List Target)
    (hT : ∀ j ∈ t.ids, (h.get j).targets = some (T j)) (hr : ∀ j ∈ t.ids, j < h.length) :
    ∃ h' N, (∀ n, N ≤ n → h.collect n t.root = .ok h') ∧
      (∀ j ∈ t.ids, h'.get j = { h.get j with tags := (h.get j).tags ++ (T j).map fun g =>
        ⟨g.name, g.title, some j, g.name, g.content, g.loc⟩ }) ∧
      (∀ j, j ∉ t.ids → h'.get j = h.get j) := by
  obtain ⟨N, hN⟩ := collect_tree T t
  refine ⟨h.addAll T t.ids, N, fun n hn => hN n hn h b.children hT, fun j hj => ?_, fun j hj => ?_⟩
  · exact Heap.get_addAll_mem T t.ids h b.nodup hj (hr j hj)
  · exact Heap.get_addAll_not T t.ids h hj

example : okAnd (sampleLoad q%"a.lit") (fun _ s => ((s.heap.get 0).tags.map fun g => g.name) == [q%"hello-and-world", q%"tt"] &&
    ((s.heap.get 2).tags.map fun g => g.name) == [q%"b"]) = true := by decide +kernel

/-! ### C32 -/

/-- **C32**: once a section has a (non-empty) title, nothing evaluated in it changes its title, the place of the
title, or its tags. -/
theorem C32_title_stays (W : World) (k n i : Nat) (node : Node) (r : Content) (s : St) (hi : i < s.heap.length)
    (ht : (s.heap.get i).title ≠ .str []) :
    ((evalNode W k (incl W n) node i r s).2.heap.get i).title = (s.heap.get i).title ∧
    ((evalNode W k (incl W n) node i r s).2.heap.get i).titleLoc = (s.heap.get i).titleLoc ∧
    ((evalNode W k (incl W n) node i r s).2.heap.get i).tags = (s.heap.get i).tags ∧
    ((evalNode W k (incl W n) node i r s).2.heap.get i).primaryTag = (s.heap.get i).primaryTag :=
  ((node_ok (TitleKept.inv W) (keeps_incl (TitleKept.inv W) n) node i r).1 s hi).2 hi ht

/-- **C32**: a further `\title` never succeeds, whatever its arguments. -/
theorem C32_second_title_fails (W : World) (k n i : Nat) (args : List Node) (loc : Location) (r : Content) (s : St)
    (hs : Sound s.heap) (hi : i < s.heap.length) (ht : (s.heap.get i).title ≠ .str []) :
    ∀ r' s', evalNode W k (incl W n) (.invoke q%"title" args loc) i r s ≠ (.ok r', s') := by
  intro r' s' e
  obtain ⟨path, hp⟩ := hs.filePath i (s.heap.length + 1) hi (by omega)
  obtain ⟨ps, hps⟩ : ∃ ps, (s.heap.get i).plugins = 0 :: ps := by
    have h0 := (hs i hi).2
    cases hx : (s.heap.get i).plugins with
    | nil => rw [hx] at h0; cases h0
    | cons p ps => rw [hx] at h0; cases h0; exact ⟨ps, rfl⟩
  have hm : findMethod W (methodName q%"title") (s.heap.get i).plugins = some (.base .title) := by
    rw [hps]; rfl
  rw [invoke_run, hp] at e
  simp only [hm] at e
  split at e
  · have I := TitleKept.inv W
    have hargs := args_ok I (k := k) (keeps_incl I n) args
    have k1 := keeps_bind I (i := i) (keeps_upd I (f := fun x => { x with invokeLoc := loc }) fun _ => .invokeLoc loc)
      (fun _ => keeps_convertAll I (k := k) (Method.sig (.base .title)).1 (Method.sig (.base .title)).2 _ hargs) s hi
    simp only [M.bind_run, M.bind, M.upd] at e k1
    rw [show St.mk (s.heap.upd i fun x => { x with invokeLoc := loc }) s.cache = s.calling i loc from rfl] at k1
    cases hc : convertAll W k i (Method.sig (.base .title)).1 (Method.sig (.base .title)).2 (evalArgs W k (incl W n) args)
        (s.calling i loc) with
    | mk x s1 =>
      rw [hc] at e k1
      dsimp only at k1
      have ht1 : (s1.heap.get i).title ≠ .str [] := by rw [(k1.2 hi ht).1]; exact ht
      cases x with
      | err _ => cases e
      | panic => cases e
      | more => cases e
      | ok vals =>
        dsimp only at e
        have hcall : ∀ a s2, callMethod W k (incl W n) i (.base .title) vals s1 = (.ok a, s2) →
            ∃ e, a = .error (some e) := by
          intro a s2 h
          unfold callMethod at h
          split at h
          · cases h
          · have he : (s1.heap.get i).title.isEmpty = false := by
              rw [Content.isEmpty.eq_def]
              split
              · next h => exact absurd h ht1
              · rfl
            match vals, h with
            | [], h => cases h
            | .str _ :: _, h => cases h
            | .node _ _ :: _, h => cases h
            | .zero :: _, h => cases h
            | .content t :: tags, h =>
              simp only [callBase, M.bind_run, M.bind, M.get, he, Bool.false_eq_true, if_false, filePathM] at h
              cases hf : s1.heap.filePath (s1.heap.length + 1) i with
              | none => rw [hf] at h; cases h
              | some q => rw [hf] at h; simp only [Res.ofFuel, M.pure_run] at h; cases h; exact ⟨_, rfl⟩
        cases hcm : callMethod W k (incl W n) i (.base .title) vals s1 with
        | mk y s2 =>
          rw [hcm] at e
          cases y with
          | ok a =>
            obtain ⟨er, rfl⟩ := hcall a s2 hcm
            cases e
          | err _ => cases e
          | panic => cases e
          | more => cases e
  · cases e

example : okAnd (sampleLoad q%"a.lit") (fun _ s => !(s.heap.get 1).title.isEmpty) = true := by decide +kernel

/-! ### C27 -/

/-- **C27**: as stated it does not hold: `\split-sections` before `\single-page` stays in force. -/
theorem C27_false : ∃ i s, sampleLoad q%"late.lit" = (.ok i, s) ∧ (s.heap.get i).preventSplit = true ∧
    (s.heap.get i).split = true ∧ (s.heap.get i).children ≠ [] := by
  have h : okAnd (sampleLoad q%"late.lit") (fun i s => (s.heap.get i).preventSplit && (s.heap.get i).split &&
    decide ((s.heap.get i).children ≠ [])) = true := by decide +kernel
  revert h
  cases sampleLoad q%"late.lit" with
  | mk r s =>
    cases r with
    | ok i =>
      intro h
      simp only [okAnd, Bool.and_eq_true, decide_eq_true_iff] at h
      exact ⟨i, s, rfl, h.1.1, h.1.2, h.2⟩
    | _ => intro h; cases h

/-- **C27** (partial): from the moment a section or one above it is declared a single page, evaluation in the section
neither splits it nor makes a split section. What is missing: sections that were split before, see `C27_false`. -/
theorem C27_single_page_wins_partial (W : World) (k n i : Nat) (node : Node) (r : Content) (s : St) (hs : Sound s.heap)
    (hi : i < s.heap.length) (hp : OnSinglePage s.heap i) :
    ((evalNode W k (incl W n) node i r s).2.heap.get i).split = (s.heap.get i).split ∧
    ∀ j, s.heap.length ≤ j → j < (evalNode W k (incl W n) node i r s).2.heap.length →
      ((evalNode W k (incl W n) node i r s).2.heap.get j).split = false :=
  ((node_ok (Unsplit.inv W) (keeps_incl (Unsplit.inv W) n) node i r).1 s hi).2.2.2 hs hi hp

/-- **C27** (partial): in a document that starts with `\single-page`, and in the files it includes, no section is
split, whatever the rest says. -/
theorem C27_single_page_first_partial {W : World} {n : Nat} {path : Str} {plugins : List Nat} {s s' : St} {i : Nat}
    {info : FileInfo} {loc : Location} {rest : List Node} (hs : Sound s.heap) (hf : W.fs path = some info)
    (hc : cached s.cache path info.mtime = none)
    (hn : parseFile path info = .ok (.seq (.para [[.invoke q%"single-page" [] loc]] :: rest)))
    (h0 : plugins.head? = some 0) (h : loadFile W n none path plugins s = (.ok i, s')) :
    ∀ t : Tree, t.root = i → Book s'.heap t → ∀ j ∈ t.ids, (s'.heap.get j).split = false := by
  obtain ⟨m, rfl⟩ : ∃ m, n = m + 1 := by
    cases n with
    | zero => rw [loadFile_run] at h; cases h
    | succ m => exact ⟨m, rfl⟩
  rw [loadFile_run, evalFile_run, hf] at h
  simp only [nodeOf, hc, hn, evalBody_run] at h
  have hs1 : Sound (s.file none path plugins).heap := hs.add _ (by intro p e; cases e) h0
  have hl1 : s.heap.length < (s.file none path plugins).heap.length := by simp [St.file]
  obtain ⟨fp, hfp⟩ := hs1.filePath s.heap.length _ hl1 (Nat.lt_succ_of_lt hl1)
  have hm : findMethod W (methodName q%"single-page") ((s.file none path plugins).heap.get s.heap.length).plugins =
      some (.base .singlePage) := by
    have : ((s.file none path plugins).heap.get s.heap.length).plugins = plugins := by
      rw [show (s.file none path plugins).heap.get s.heap.length = _ from Heap.get_append_eq _ _]
    rw [this]
    cases plugins with
    | nil => cases h0
    | cons p ps => cases h0; rfl
  have hrun : evalNode W m (incl W m) (.para [[.invoke q%"single-page" [] loc]]) s.heap.length .nil
      (s.file none path plugins) = (.ok .nil, { (s.file none path plugins).calling s.heap.length loc with
        heap := ((s.file none path plugins).calling s.heap.length loc).heap.upd s.heap.length
          fun x => { x with preventSplit := true } }) := by
    simp only [evalNode, evalLines, evalSeq, M.bind_run, M.bind]
    have := invoke_run (W := W) m (incl W m) q%"single-page" [] loc s.heap.length .nil (s.file none path plugins)
    rw [evalNode] at this
    rw [this, hfp]
    simp only [hm]
    rfl
  rw [evalNode, evalSeq] at h
  simp only [M.bind_run, M.bind, hrun] at h
  generalize hs2 : ({ (s.file none path plugins).calling s.heap.length loc with
        heap := ((s.file none path plugins).calling s.heap.length loc).heap.upd s.heap.length
          fun x => { x with preventSplit := true } } : St) = s2 at h
  have hlen2 : s2.heap.length = s.heap.length + 1 := by
    rw [← hs2]; simp [Heap.length_upd, St.calling, St.file]
  have hsound2 : Sound s2.heap := by
    rw [← hs2]
    simp only [St.calling]
    apply Sound.upd
    · apply Sound.upd hs1
      exact fun _ => ⟨rfl, id⟩
    · exact fun _ => ⟨rfl, id⟩
  have hget2 : s2.heap.get s.heap.length = { Sec.fresh none path with plugins := plugins, invokeLoc := loc, preventSplit := true } := by
    rw [← hs2]
    simp only [St.calling]
    rw [Heap.get_upd_eq _ _ (by rw [Heap.length_upd]; exact hl1), Heap.get_upd_eq _ _ hl1,
      show (s.file none path plugins).heap.get s.heap.length = _ from Heap.get_append_eq _ _]
  have hu := ((seq_ok (Unsplit.inv W) (k := m) (keeps_incl (Unsplit.inv W) m) rest s.heap.length .nil).1 s2 (by omega)).2.2.2 hsound2
    (by omega) (.here (by rw [hget2]))
  have hg := ((seq_ok (Grow.inv W) (k := m) (keeps_incl (Grow.inv W) m) rest s.heap.length .nil).1 s2 (by omega))
  revert h
  cases he : evalSeq W m (incl W m) rest s.heap.length .nil s2 with
  | mk r s3 =>
    rw [he] at hu hg
    dsimp only at hu hg
    have hall : ∀ j, s.heap.length ≤ j → j < s3.heap.length → (s3.heap.get j).split = false := by
      intro j h1 h2
      by_cases e : j = s.heap.length
      · subst e; rw [hu.1, hget2]; rfl
      · exact hu.2 j (by omega) h2
    cases r with
    | err _ => intro h; cases h
    | panic => intro h; cases h
    | more => intro h; cases h
    | ok r =>
      dsimp only
      intro h
      cases hcol : (remember path (Node.seq (Node.para [[Node.invoke q%"single-page" [] loc]] :: rest)) info.mtime
          (setBody r s3 s.heap.length)).2.heap.collect (m + 1) s.heap.length with
      | err _ => rw [hcol] at h; cases h
      | panic => rw [hcol] at h; cases h
      | more => rw [hcol] at h; cases h
      | ok h4 =>
        rw [hcol] at h
        cases h
        have mt := collect_more _ _ _ _ hcol
        have hb : ∀ j, ((setBody r s3 s.heap.length).heap.get j).split = (s3.heap.get j).split ∧
            ((setBody r s3 s.heap.length).heap.get j).children = (s3.heap.get j).children ∧
            (setBody r s3 s.heap.length).heap.length = s3.heap.length := by
          intro j
          rw [setBody]
          split
          · exact ⟨rfl, rfl, rfl⟩
          · refine ⟨?_, ?_, ?_⟩
            · rw [Heap.get_field (g := Sec.split) (hg := ?_)]; exact fun _ => rfl
            · rw [Heap.get_field (g := Sec.children) (hg := ?_)]; exact fun _ => rfl
            · simp [Heap.length_upd]
        intro t hroot b j hj
        obtain ⟨_, _, ts, hts, f⟩ := hg.2 (by omega)
        have htree : ∀ j ∈ t.ids, s.heap.length ≤ j ∧ j < s3.heap.length := by
          have hsame : ∀ j, (h4.get j).children = (s3.heap.get j).children := fun j =>
            ((mt.same j).1).trans ((hb j).2.1)
          intro j hj
          rw [Tree.mem_ids] at hj
          obtain ⟨u, ⟨ks, hu⟩, rfl⟩ := hj
          have hu' : u = t ∨ ∃ v ∈ ts, ∃ w, v.Sub w ∧ w.root = u.root := by
            clear hall hcol mt
            induction hu with
            | here => exact .inl rfl
            | @step ks p k u hp hk ih =>
              have hkid : u.root ∈ (h4.get p.root).children := by
                rw [b.children p ⟨ks, hp⟩]
                exact List.mem_map.2 ⟨u, List.mem_of_getElem? hk, rfl⟩
              rw [hsame] at hkid
              rcases ih with rfl | ⟨v, hv, w, hw, e⟩
              · rw [hroot, hts, hget2] at hkid
                simp only [Sec.fresh, List.nil_append, List.mem_map] at hkid
                obtain ⟨v, hv, e⟩ := hkid
                exact .inr ⟨v, hv, v, Tree.Sub.refl v, e⟩
              · rw [← e, f.children v hv w hw, List.mem_map] at hkid
                obtain ⟨x, hx, e'⟩ := hkid
                exact .inr ⟨v, hv, x, hw.kid hx, e'⟩
          rcases hu' with rfl | ⟨v, hv, w, hw, e⟩
          · rw [hroot]; exact ⟨Nat.le_refl _, by have := hg.1.1; omega⟩
          · rw [← e]
            have := f.range w.root (Tree.mem_idsL.2 ⟨v, hv, hw.root_mem⟩)
            omega
        obtain ⟨gs, e⟩ := mt.2 j
        have hr := htree j hj
        show (h4.get j).split = false
        rw [e]
        show ((setBody r s3 s.heap.length).heap.get j).split = false
        rw [(hb j).1]
        exact hall j hr.1 hr.2

example : (match parseFile q%"one.lit" ⟨1, some q%"\\single-page\n\n\\split-sections\n\n\\section{\\split-sections}\n"⟩ with
    | .ok (.seq (.para [[.invoke f [] _]] :: rest)) => f == q%"single-page" && rest.length == 2
    | _ => false) = true := by decide +kernel

example : okAnd (sampleLoad q%"one.lit") (fun i s => (s.heap.get i).preventSplit && !(s.heap.get i).split &&
    !(s.heap.get 1).split && (s.heap.get 1).resetDepth) = true := by decide +kernel

end Booklit.Props
