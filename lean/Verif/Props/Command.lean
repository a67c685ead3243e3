import Verif.Props.Custom
import Verif.Props.Build
import Verif.Props.ErrorPage
import Verif.Spec.Command
import Verif.Lemmas.CommandL

/-!
C81: the command, from its flags to its exit status.
-/

namespace Booklit.Props

open Booklit Booklit.Templates Booklit.Tmpl

theorem build_engine (F : Options) (m : Machine) (p : Linked) (n k : Nat) (d : Disk) :
    F.build m p n k d = match F.engine m with
      | .ok E => F.toJob.build (m.world p F) m.outside E F.brokenOk m.short n k d
      | .err e => ⟨.err e, d, []⟩
      | .panic => ⟨.panic, d, []⟩
      | .more => ⟨.more, d, []⟩ := by
  by_cases h : F.textExt = []
  · simp only [Options.build, Options.engine, Options.site, Options.dir, h, ne_eq, not_true, if_false]
    rfl
  · simp only [Options.build, Options.engine, Options.site, Options.dir, h, ne_eq, not_false_eq_true, if_true]
    rfl

theorem engine_cases (m : Machine) (M : Tmpl.Mode) (b : TSet) (dir : Str) (S : Site) :
    (∃ ts, m.engine M b dir S = .ok (engineWith M ts S)) ∨ ∃ e, m.engine M b dir S = .err e := by
  unfold Machine.engine
  split
  · exact .inl ⟨_, rfl⟩
  · split
    · exact .inr ⟨_, rfl⟩
    · dsimp only
      split
      · exact .inl ⟨_, rfl⟩
      · exact .inr ⟨_, rfl⟩

theorem engineOf_cases (F : Options) (m : Machine) : (∃ E, F.engine m = .ok E) ∨ ∃ e, F.engine m = .err e := by
  unfold Options.engine
  split
  · rcases engine_cases m (textMode F.textExt) builtinText F.dir (F.site m) with ⟨ts, h⟩ | h
    · exact .inl ⟨_, h⟩
    · exact .inr h
  · rcases engine_cases m htmlMode builtinHtml F.dir (F.site m) with ⟨ts, h⟩ | h
    · exact .inl ⟨_, h⟩
    · exact .inr h

theorem print_last (M : Wording) (fs : Disk8) (e : Err) : (e.print M fs).getLast? = some 10 := by
  refine (Err.print_ended M fs e).resolve_left ?_
  cases e with
  | plain w => simp [Err.print]
  | failed fn e p l =>
    obtain ⟨X, hX, _⟩ := print_failed M fs fn e p l
    simp [hX, Spot.head]
  | _ => simp [Err.print, Spot.head]

/-- **C81**: the exit status tells how a build went: 0 if and only if it was successful, and then there is nothing on the standard
error; 1 if there was an error, which is then reported there; 2 if the program crashed. -/
theorem C81_status {F : Options} (hp : F.plugins = []) {m : Machine} {n k : Nat} {d : Disk} {o : Outcome} (h : F.main m n k d = some o) :
    (o.exit = 0 ↔ (F.build m m.self n k d).res = .ok ()) ∧
    (o.exit = 0 → o.stderr = []) ∧
    (o.exit = 1 ↔ ∃ e, (F.build m m.self n k d).res = .err e) ∧
    (∀ e, (F.build m m.self n k d).res = .err e → Reports m.wording m.bytes e o.stderr ∧ o.stderr.getLast? = some 10) ∧
    o.exit ≤ 2 := by
  rw [Options.main, if_pos hp, Built.outcome] at h
  split at h
  · rename_i u hr
    cases h
    simp [hr]
  · rename_i e hr
    cases h
    refine ⟨by simp [hr], by simp, by simp [hr], ?_, by simp⟩
    intro e' he
    rw [hr] at he
    cases he
    exact ⟨C77_report _ _ e, print_last _ _ e⟩
  · rename_i hr
    cases h
    simp [hr]
  · cases h

/-- **C81**: with `--out`, nothing is written to the standard output. Without it, no file is touched. -/
theorem C81_streams {F : Options} {m : Machine} {n k : Nat} {d : Disk} {o : Outcome} (h : F.main m n k d = some o) :
    (F.out ≠ [] → o.stdout = []) ∧ (F.out = [] → o.disk = d) := by
  have key : ∀ p o, (F.build m p n k d).outcome m = some o → (F.out ≠ [] → o.stdout = []) ∧ (F.out = [] → o.disk = d) := by
    intro p o h
    have h1 : o.stdout = (F.build m p n k d).stdout ∧ o.disk = (F.build m p n k d).disk := by
      unfold Built.outcome at h
      split at h <;> cases h <;> exact ⟨rfl, rfl⟩
    rw [h1.1, h1.2, build_engine]
    rcases engineOf_cases F m with ⟨E, he⟩ | ⟨e, he⟩
    · rw [he]
      dsimp only
      unfold Job.build
      split
      · split
        · split
          · split <;> simp_all
          · split <;> simp_all
        all_goals simp
      all_goals simp
    · rw [he]
      simp
  rw [Options.main] at h
  split at h
  · exact key _ _ h
  · split at h
    · cases h; simp
    · rename_i p _
      cases ho : (F.build m p n k d).outcome m with
      | none => rw [ho] at h; cases h
      | some o' =>
        rw [ho] at h
        cases h
        exact key p o' ho

/-- **C81**: status 0 can be relied on. When the whole book was to be written to a directory and the command ends with status 0, then,
whatever the operating system may have refused to do, each page of the book is in its file (or, if several pages have the same file, one
of them is), and so is the search index if one was asked for; all other files are as they were. -/
theorem C81_complete {F : Options} (hp : F.plugins = []) (hJ : F.Whole) {m : Machine} {n k : Nat} {d : Disk} {o : Outcome}
    (h : F.main m n k d = some o) (h0 : o.exit = 0) :
    ∃ E i s t ps, F.engine m = .ok E ∧ loadFile ⟨m.fs, m.self.registry, m.self.foreign, F.brokenOk⟩ n none F.input [0] ⟨[], []⟩ = (.ok i, s) ∧
      t.root = i ∧ Book s.heap t ∧ Ends (fun n => s.heap.written n i) ps ∧
      let file := s.heap.filePathOf F.out E.ext
      let index := joinPath F.out q%"search_index.json"
      (∀ p ∈ ps, (F.saveIndex = true → file p ≠ index) →
        ∃ q ∈ ps, file q = file p ∧ ∃ txt, E.render s.heap k q = .ok txt ∧ o.disk (file p) = some txt) ∧
      (F.saveIndex = true → ∃ ix, s.heap.searchIndex F.brokenOk E.ext k i = .ok ix ∧ o.disk index = some (jsonIndex m.short ix)) ∧
      ∀ f, (∀ p ∈ ps, f ≠ file p) → (F.saveIndex = true → f ≠ index) → o.disk f = d f := by
  have hres := (C81_status hp h).1.1 h0
  have hdisk : o.disk = (F.build m m.self n k d).disk := by
    rw [Options.main, if_pos hp] at h
    unfold Built.outcome at h
    split at h <;> cases h <;> rfl
  rw [hdisk]
  clear hdisk h
  rw [build_engine] at hres ⊢
  rcases (engineOf_cases F m).symm with ⟨e, he⟩ | ⟨E, he⟩
  · rw [he] at hres; cases hres
  rw [he] at hres ⊢
  dsimp only at hres ⊢
  show ∃ E i s t ps, _ ∧ loadFile (m.world m.self F) n none F.input [0] ⟨[], []⟩ = (.ok i, s) ∧ _
  cases hl : loadFile (m.world m.self F) n none F.input [0] ⟨[], []⟩ with
  | mk r s =>
    cases r with
    | ok i =>
      obtain ⟨t, rfl, b⟩ := C28_loaded_tree hl
      obtain ⟨ps, hw⟩ : ∃ ps, Ends (fun n => s.heap.written n t.root) ps := ⟨_, written_ends b t (Tree.Sub.refl t)⟩
      refine ⟨E, t.root, s, t, ps, rfl, rfl, rfl, b, hw, ?_⟩
      rw [build_whole hJ hl] at hres ⊢
      split at hres
      · cases hres
      rename_i hmk
      rw [if_neg hmk]
      dsimp only at hres ⊢
      have hok : (s.heap.writeSection m.outside E F.out k k t.root d).1 = .ok () := by
        generalize s.heap.writeSection m.outside E F.out k k t.root d = r at hres
        obtain ⟨r, d1⟩ := r
        cases r <;> first | rfl | cases hres
      obtain ⟨qs, hqs⟩ := (writes_listed k).1 _ _ hok
      rw [written_ends_eq hqs hw] at hqs
      rw [(write_all k).1 _ _ hqs] at hres hok ⊢
      have pages := written_pages hok
      have others : ∀ f, (∀ p ∈ ps, f ≠ s.heap.filePathOf F.out E.ext p) → (s.heap.writeAll m.outside E F.out k ps d).2 f = d f :=
        fun f hf => writeAll_other ps d hf
      cases hx : s.heap.writeAll m.outside E F.out k ps d with
      | mk r d1 =>
        rw [hx] at hok pages others hres
        dsimp only at hok pages others
        subst hok
        dsimp only [andNext] at hres ⊢
        by_cases hi : F.saveIndex = true
        · simp only [hi, if_true] at hres ⊢
          rw [Heap.writeIndex] at hres ⊢
          cases hix : s.heap.searchIndex F.brokenOk E.ext k t.root with
          | ok ix =>
            rw [hix] at hres
            dsimp only at hres ⊢
            obtain ⟨h1, h2, _⟩ := save_done hres
            have hs : m.outside.save (joinPath F.out q%"search_index.json") (.ok (jsonIndex m.short ix)) d1 =
                (.ok (), d1.put (joinPath F.out q%"search_index.json") (jsonIndex m.short ix)) := by
              simp [Outside.save, h1, h2]
            rw [hs]
            refine ⟨fun p hp hne => ?_, fun _ => ⟨ix, rfl, by simp [Disk.put]⟩, fun f hf hf' => ?_⟩
            · obtain ⟨q, h3, h4, x, h5, h6⟩ := pages p hp
              exact ⟨q, h3, h4, x, h5, by simp only [Disk.put, if_neg (hne trivial), h6]⟩
            · simp only [Disk.put, if_neg (hf' trivial), others f hf]
          | _ => rw [hix] at hres; cases hres
        · simp only [hi, if_false, Bool.false_eq_true] at hres ⊢
          exact ⟨fun p hp _ => pages p hp, fun h => absurd h (by simp), fun f hf _ => others f hf⟩
    | _ => rw [Job.build, hl] at hres; cases hres

/-! ### Engines -/

theorem first_reload {b : TSet} : ∀ {fs : Dir} {f : Str × TFile}, f ∈ fs → (checkTimes (Eng.new b).modTimes false fs).1 = true := by
  intro fs f hf
  have stays : ∀ (fs : Dir) times, (checkTimes times true fs).1 = true := by
    intro fs
    induction fs with
    | nil => intro times; rfl
    | cons f fs ih => intro times; rw [checkTimes]; exact ih _
  cases fs with
  | nil => cases hf
  | cons f fs => rw [checkTimes]; exact stays _ _

theorem parseAll_parses (L : Lang) : ∀ (d : Dir) (ts : TSet), (∀ f ∈ d, L.parses (trimNewlines f.2.text) = true) → (L.parseAll ts d).1 = true := by
  intro d
  induction d with
  | nil => intro ts _; rfl
  | cons f d ih =>
    intro ts h
    rw [Lang.parseAll, Lang.define, if_pos (h f (by simp))]
    split
    · exact ih _ fun g hg => h g (by simp [hg])
    · rename_i e
      split at e <;> cases e

theorem main_same {F F' : Options} {m : Machine} {n : Nat} {d : Disk} (hplug : F.plugins = F'.plugins)
    (h : ∀ p k o, (F.build m p n k d).outcome m = some o → ∃ k, (F'.build m p n k d).outcome m = some o) {k : Nat} {o : Outcome}
    (e : F.main m n k d = some o) : ∃ k, F'.main m n k d = some o := by
  simp only [Options.main, ← hplug] at e ⊢
  split
  · rename_i hp
    rw [if_pos hp] at e
    exact h _ _ _ e
  · rename_i hp
    rw [if_neg hp] at e
    cases hc : m.compile (reexecSource F.plugins) with
    | mk out q =>
      rw [hc] at e
      cases q with
      | none => exact ⟨0, e⟩
      | some p =>
        dsimp only at e ⊢
        cases ho : (F.build m p n k d).outcome m with
        | none => rw [ho] at e; cases e
        | some o' =>
          obtain ⟨k', hk'⟩ := h _ _ _ ho
          rw [ho] at e
          exact ⟨k', by rw [hk']; exact e⟩

/-- A command whose engine does what another engine does ends as the other build does. -/
theorem outcome_under {J : Job} {W : World} {O : Outside} {E E' : Engine} {bo short : Bool} {n k : Nat} {d : Disk} {m : Machine}
    {o : Outcome} (h : (J.build W O E bo short n k d).outcome m = some o) (he : E.ext = E'.ext)
    (hu : ∀ s, J.Loads W n s → E.Under E' s.heap) : ∃ k, (J.build W O E' bo short n k d).outcome m = some o := by
  have hne : (J.build W O E bo short n k d).res ≠ .more := by
    intro e
    rw [Built.outcome, e] at h
    cases h
  obtain ⟨K, hK⟩ := build_same he hu hne
  exact ⟨K, by rw [hK K (Nat.le_refl _)]; exact h⟩

theorem pageWith_le {M : Tmpl.Mode} {ts : TSet} {S : Site} {h : Heap} {n m : Nat} (hnm : n ≤ m) (i : Nat) :
    (pageWith M ts S h n i).Le (pageWith M ts S h m i) := by
  unfold pageWith
  split
  · exact .rfl
  · exact run_le hnm _

/-- Two engines that make the same pages, with enough fuel, do so from some fuel on. -/
theorem under_of {E E' : Engine} {h : Heap} (mono : ∀ {n m i}, n ≤ m → (E'.render h n i).Le (E'.render h m i))
    (same : ∀ i r, r ≠ .more → (∃ n, E.render h n i = r) → ∃ n, E'.render h n i = r) : E.Under E' h := by
  intro k i hk
  obtain ⟨n, e⟩ := same i _ hk ⟨k, rfl⟩
  refine ⟨n, fun m hmn => ?_⟩
  rcases mono (i := i) hmn with h | h
  · exact absurd (e ▸ h) hk
  · exact h.symm.trans e

/-- **C81**: without `--html-templates`, a build to HTML ends as it does with the pages of the model, which other properties are about: with
the same status, output and files. The sections that are rendered must not have one of the styles whose templates are of another kind, and
no contents may have the style `string`; see C79. -/
theorem C81_shipped {F : Options} (ht : F.htmlTemplates = []) (hx : F.textExt = []) (hp : F.plugins = []) {m : Machine}
    {G : Content → Prop} (hG : (m.world m.self F).Makes G) (hm : ∀ c, G c → c.notStyle [q%"string"] = true)
    (hfs : m.fs [] = none) (hS : ∀ i c, m.force i = some c → c.unstyled [q%"string"] = true) {n : Nat}
    (hs : ∀ s, F.Loads (m.world m.self F) n s → ∀ i, (s.heap.get i).style ∉ [q%"string", q%"toc", q%"page", q%"raw-html"])
    (d : Disk) (o : Outcome) :
    (∃ k, F.main m n k d = some o) ↔
      ∃ k, (F.toJob.build ⟨m.fs, m.self.registry, m.self.foreign, F.brokenOk⟩ m.outside (htmlEngine (F.site m)) F.brokenOk m.short n k d).outcome m = some o := by
  have he : F.engine m = .ok (engineWith htmlMode builtinHtml (F.site m)) := by
    rw [Options.engine, if_neg (by simp [hx]), Machine.engine, if_pos (by simp [Options.dir, hx, ht])]
  simp only [Options.main, if_pos hp, build_engine, he]
  constructor
  · rintro ⟨k, h⟩
    refine outcome_under h rfl (fun s hl => under_of (fun {n m i} hnm => page_le hnm i) fun i r hr e => ?_)
    exact (C79_documents hG hm hfs hl.reach hS (hs s hl) i r hr).2 e
  · rintro ⟨k, h⟩
    refine outcome_under h rfl (fun s hl => under_of (fun {n m i} hnm => pageWith_le hnm i) fun i r hr e => ?_)
    exact (C79_documents hG hm hfs hl.reach hS (hs s hl) i r hr).1 e

/-- **C81**: the same for a build to text, for all books. -/
theorem C81_text {F : Options} (ht : F.textTemplates = []) (hx : F.textExt ≠ []) (hp : F.plugins = []) (m : Machine) (n : Nat)
    (d : Disk) (o : Outcome) :
    (∃ k, F.main m n k d = some o) ↔
      ∃ k, (F.toJob.build ⟨m.fs, m.self.registry, m.self.foreign, F.brokenOk⟩ m.outside (plainEngine F.textExt (F.site m)) F.brokenOk m.short n k d).outcome m = some o := by
  have he : F.engine m = .ok (engineWith (textMode F.textExt) builtinText (F.site m)) := by
    rw [Options.engine, if_pos hx, Machine.engine, Options.dir, if_pos hx, if_pos ht]
  simp only [Options.main, if_pos hp, build_engine, he]
  constructor
  · rintro ⟨k, h⟩
    refine outcome_under h rfl (fun s hl => under_of (fun {n m i} hnm => txtPage_le hnm i) fun i r hr e => ?_)
    exact (C79_text F.textExt _ s.heap i r hr).2 e
  · rintro ⟨k, h⟩
    refine outcome_under h rfl (fun s hl => under_of (fun {n m i} hnm => pageWith_le hnm i) fun i r hr e => ?_)
    exact (C79_text F.textExt _ s.heap i r hr).1 e

/-- **C81**: the templates for the engine that is not used do not matter, nor does whether they can be loaded. -/
theorem C81_other_engine (F : Options) (m : Machine) (n k : Nat) (d : Disk) (dir : Str) :
    (F.textExt = [] → { F with textTemplates := dir }.main m n k d = F.main m n k d) ∧
    (F.textExt ≠ [] → { F with htmlTemplates := dir }.main m n k d = F.main m n k d) := by
  refine ⟨fun h => ?_, fun h => ?_⟩
  · simp only [Options.main, Options.build, h, ne_eq, not_true, if_false]
    rfl
  · simp only [Options.main, Options.build, h, ne_eq, not_false_eq_true, if_true]
    rfl

/-- **C81**: a directory without templates is as good as none, whether it exists or not. -/
theorem C81_no_templates {F : Options} {m : Machine} (hg : m.glob F.dir = some []) (n k : Nat) (d : Disk) :
    F.main m n k d = Options.main { F with htmlTemplates := [], textTemplates := [] } m n k d := by
  have he : F.engine m = Options.engine { F with htmlTemplates := [], textTemplates := [] } m := by
    have key : ∀ (M : Tmpl.Mode) (b : TSet), m.engine M b F.dir (F.site m) = m.engine M b [] (F.site m) := by
      intro M b
      unfold Machine.engine
      by_cases h : F.dir = []
      · rw [if_pos h, if_pos rfl]
      · rw [if_neg h, if_pos rfl, hg]
        rfl
    unfold Options.engine
    simp only [key]
    simp [Options.dir, Options.site]
  have hb : ∀ p, F.build m p n k d = Options.build { F with htmlTemplates := [], textTemplates := [] } m p n k d := by
    intro p
    rw [build_engine, build_engine, he]
    rfl
  simp only [Options.main, hb]

/-- **C81**: templates for styles that are not used change nothing about a build. -/
theorem C81_unused {F : Options} (hp : F.plugins = []) {m : Machine} (hd : F.dir ≠ []) {dir : Dir} (hg : m.glob F.dir = some dir)
    (hpar : ∀ f ∈ dir, (langOf (if F.textExt ≠ [] then textMode F.textExt else htmlMode)).parses (trimNewlines f.2.text) = true)
    {xs : List Str} (hx : ∀ f ∈ dir, ∃ x ∈ xs, f.1 = fileOf x) (hk : ∀ x ∈ xs, x ∉ q%"page" :: kindNames)
    {G : Content → Prop} (hG : (m.world m.self F).Makes G) (hm : ∀ c, G c → c.notStyle xs = true)
    (hcall : ∀ p fn args l st, (m.world m.self F).Has p (.invoke fn args l) → (methodName fn, Base.style st) ∈ baseMethods → st ∉ xs)
    (hfs : m.fs [] = none) (hS : ∀ i c, m.force i = some c → c.unstyled xs = true) {n : Nat}
    (hs : ∀ s, F.Loads (m.world m.self F) n s → ∀ i, (s.heap.get i).style ∉ xs ∧ (s.heap.get i).style ++ q%"-page" ∉ xs)
    (d : Disk) (o : Outcome) :
    (∃ k, F.main m n k d = some o) ↔ ∃ k, Options.main { F with htmlTemplates := [], textTemplates := [] } m n k d = some o := by
  have key : ∃ E E' : Engine, F.engine m = .ok E ∧ Options.engine { F with htmlTemplates := [], textTemplates := [] } m = .ok E' ∧
      E.ext = E'.ext ∧ ∀ s, F.Loads (m.world m.self F) n s → E.Under E' s.heap ∧ E'.Under E s.heap := by
    have same : ∀ (html : Bool) (L : Lang) s, F.Loads (m.world m.self F) n s →
        let M := if html then htmlMode else textMode F.textExt
        let b := if html then builtinHtml else builtinText
        (engineWith M (L.loadTemplates b dir (.new b)).2.tmpl (F.site m)).Under (engineWith M b (F.site m)) s.heap ∧
          (engineWith M b (F.site m)).Under (engineWith M (L.loadTemplates b dir (.new b)).2.tmpl (F.site m)) s.heap := by
      intro html L s hl M b
      have e := fun i n => C80_documents html F.textExt L hx hk hG hm hcall hfs hl.reach (S := F.site m) hS (hs s hl) i n
      refine ⟨under_of (fun {n m i} hnm => pageWith_le hnm i) fun i r _ h => ?_, under_of (fun {n m i} hnm => pageWith_le hnm i) fun i r _ h => ?_⟩
      · obtain ⟨n, h⟩ := h
        exact ⟨n, (e i n).symm.trans h⟩
      · obtain ⟨n, h⟩ := h
        exact ⟨n, (e i n).trans h⟩
    have loads : ∀ (L : Lang) (b : TSet), (∀ f ∈ dir, L.parses (trimNewlines f.2.text) = true) → (L.loadTemplates b dir (.new b)).1 = true := by
      intro L b h
      rw [Lang.loadTemplates]
      dsimp only
      split
      · exact parseAll_parses L dir b h
      · rfl
    have fine : ∀ (M : Tmpl.Mode) (b : TSet), (∀ f ∈ dir, (langOf M).parses (trimNewlines f.2.text) = true) →
        m.engine M b F.dir (F.site m) = .ok (engineWith M ((langOf M).loadTemplates b dir (.new b)).2.tmpl (F.site m)) := by
      intro M b h
      rw [Machine.engine, if_neg hd, hg]
      dsimp only
      rw [if_pos (loads _ _ h)]
    by_cases ht : F.textExt = []
    · rw [if_neg (by simp [ht])] at hpar
      refine ⟨_, engineWith htmlMode builtinHtml (F.site m), (if_neg (by simp [ht])).trans (fine htmlMode builtinHtml hpar), ?_, rfl, same true _⟩
      simp [Options.engine, Options.dir, ht, Machine.engine]
      rfl
    · rw [if_pos ht] at hpar
      refine ⟨_, engineWith (textMode F.textExt) builtinText (F.site m), (if_pos ht).trans (fine (textMode F.textExt) builtinText hpar), ?_, rfl, same false _⟩
      simp [Options.engine, Options.dir, ht, Machine.engine]
      rfl
  obtain ⟨E, E', h1, h2, hext, hu⟩ := key
  simp only [Options.main, if_pos hp, build_engine, h1, h2]
  constructor
  · rintro ⟨k, h⟩
    exact outcome_under h hext fun s hl => (hu s hl).1
  · rintro ⟨k, h⟩
    exact outcome_under h hext.symm fun s hl => (hu s hl).2

/-- **C81**: if a template cannot be parsed, or the directory cannot be listed, the command ends with status 1 and does nothing else. -/
theorem C81_bad_template {F : Options} (hp : F.plugins = []) {m : Machine} (hd : F.dir ≠ [])
    (hg : m.glob F.dir = none ∨ ∃ fs f, m.glob F.dir = some fs ∧ f ∈ fs ∧
      (langOf (if F.textExt ≠ [] then textMode F.textExt else htmlMode)).parses (trimNewlines f.2.text) = false) (n k : Nat) (d : Disk) :
    ∃ o, F.main m n k d = some o ∧ o.exit = 1 ∧ o.stdout = [] ∧ o.disk = d ∧ o.stderr ≠ [] := by
  have key : ∀ (M : Tmpl.Mode) (b : TSet), (m.glob F.dir = none ∨ ∃ fs f, m.glob F.dir = some fs ∧ f ∈ fs ∧
      (langOf M).parses (trimNewlines f.2.text) = false) → ∃ e, m.engine M b F.dir (F.site m) = .err e := by
    intro M b hg
    unfold Machine.engine
    rw [if_neg hd]
    rcases hg with hg | ⟨fs, f, hg, hf, hpar⟩
    · rw [hg]; exact ⟨_, rfl⟩
    · rw [hg]
      have h1 : (checkTimes (Eng.new b).modTimes false fs).1 = true := first_reload hf
      have h2 := parseAll_bad fs b ⟨f, hf, hpar⟩
      refine ⟨.plain q%"template", ?_⟩
      simp only [Lang.loadTemplates, h1, if_true, h2, Bool.false_eq_true, if_false]
  have he : ∃ e, F.engine m = .err e := by
    unfold Options.engine
    split
    · rename_i h; rw [if_pos h] at hg; exact key _ _ hg
    · rename_i h; rw [if_neg h] at hg; exact key _ _ hg
  obtain ⟨e, he⟩ := he
  refine ⟨⟨1, [], e.print m.wording m.bytes, d⟩, ?_, rfl, rfl, rfl, fun h => ?_⟩
  · rw [Options.main, if_pos hp, build_engine, he]
    rfl
  · have := print_last m.wording m.bytes e
    simp only at h
    rw [h] at this
    cases this

/-- **C81**: with plugins, the command does what a command does that is linked with the plugins and not told about them; what the compiler
printed comes before its errors. If the program cannot be compiled, the command fails and nothing is touched. -/
theorem C81_plugins {F : Options} (hp : F.plugins ≠ []) (m : Machine) (n k : Nat) (d : Disk) :
    (∀ out p, m.compile (reexecSource F.plugins) = (out, some p) → F.main m n k d =
      (Options.main { F with plugins := [] } { m with self := p } n k d).map fun o => { o with stderr := out ++ o.stderr }) ∧
    (∀ out, m.compile (reexecSource F.plugins) = (out, none) →
      ∃ o, F.main m n k d = some o ∧ o.exit = 1 ∧ o.stdout = [] ∧ o.disk = d ∧ o.stderr ≠ []) := by
  refine ⟨fun out p h => ?_, fun out h => ⟨_, by rw [Options.main, if_neg hp, h], rfl, rfl, rfl, by simp⟩⟩
  rw [Options.main, if_neg hp, h, Options.main, if_pos rfl]
  rfl

/-! ### Cases -/

/-- A machine with the file `x.lit`, with a template directory `t` of one's own, a directory `b` with a template that does not parse, and a
compiler that knows the plugin `p`. -/
def machine (text : Str) : Machine where
  fs := (oneFile text).fs
  bytes := (oneFile text).bytes
  glob := fun dir => some (if dir = q%"t" then ownTemplates else if dir = q%"b" then [(q%"bold.tmpl", ⟨1, q%"{{"⟩)] else [])
  force := fun _ => none
  short := true
  outside := calm
  wording := words
  trace := utf8 q%"panic\n"
  self := ⟨fun _ => none, fun _ _ => none⟩
  compile := fun src => if src = reexecSource [q%"p"] then ([], some ⟨(oneFile text).registry, (oneFile text).foreign⟩) else (utf8 q%"no such package\n", none)
  compileError := utf8 q%"build failed: exit status 1"

/-- How a command ends there, where all files are old. -/
def ran (F : Options) (text : Str) : Option Outcome := Options.main { F with input := q%"x.lit" } (machine text) 5 40 fun _ => some q%"old"

/-- A book is built. -/
example : (match ran { input := [], out := q%"o", saveIndex := true } twoPageBook with
    | some o => o.exit == 0 && o.stdout == [] && o.stderr == [] &&
      (o.disk q%"o/a.html").map (fun x => decide (x.length > 100)) == some true &&
      (o.disk q%"o/b.html").map (fun x => decide (x.length > 100)) == some true && o.disk q%"o/c.html" == some q%"old"
    | none => false) = true := by decide +kernel

/-- With an error in it, it is not. -/
example : (match ran { input := [], out := q%"o" } brokenPage with
    | some o => o.exit == 1 && o.stdout == [] && decide (o.stderr.length > 50) && o.disk q%"o/c.html" == some q%"old"
    | none => false) = true := by decide +kernel

/-- With templates of one's own; with a misspelt directory, which is not noticed; and without. -/
theorem C81_misspelt : (match ran { input := [], htmlTemplates := q%"t" } q%"\\bold{x}\n",
      ran { input := [], htmlTemplates := q%"tt" } q%"\\bold{x}\n", ran { input := [] } q%"\\bold{x}\n" with
    | some o1, some o2, some o3 => o1.exit == 0 && o2.exit == 0 && o1.stdout != o2.stdout && o2.stdout == o3.stdout && o2.stderr == []
    | _, _, _ => false) = true := by decide +kernel

/-- With a template that does not parse. -/
example : (match ran { input := [], out := q%"o", htmlTemplates := q%"b" } q%"x\n" with
    | some o => o.exit == 1 && o.stdout == [] && o.stderr == utf8 q%"template\n" && o.disk q%"o/x.html" == some q%"old"
    | _ => false) = true := by decide +kernel

/-- With a plugin, and without. -/
example : (match ran { input := [], textExt := q%"txt", plugins := [q%"p"] } q%"\\use-plugin{p}\n\n\\hi\n",
      ran { input := [], textExt := q%"txt" } q%"\\use-plugin{p}\n\n\\hi\n", ran { input := [], textExt := q%"txt", plugins := [q%"q"] } q%"x" with
    | some o1, some o2, some o3 => o1.exit == 0 && o1.stdout == q%"\n\nhi\n\n\n\n\n\n" && o2.exit == 1 && o2.stdout == [] && o3.exit == 1
    | _, _, _ => false) = true := by decide +kernel

/-- The hypotheses of `C81_shipped` hold for this book. -/
example : let F : Options := { input := q%"x.lit", out := q%"o", saveIndex := true }
    let m := machine twoPageBook
    (m.world m.self F).Makes (fun _ => False) ∧ m.fs [] = none ∧ (∀ i c, m.force i = some c → c.unstyled [q%"string"] = true) ∧
    ∀ s, F.Loads (m.world m.self F) 5 s → ∀ i, (s.heap.get i).style ∉ [q%"string", q%"toc", q%"page", q%"raw-html"] := by
  refine ⟨fun _ _ _ h => (by cases h), rfl, fun _ _ h => (by cases h), ?_⟩
  intro s hl i
  obtain ⟨k, j, s0, r, h1, h2⟩ := hl
  have h3 : s0 = s := by
    simp only [Job.choose, ne_eq, not_true, if_false] at h2
    cases h2
    rfl
  subst h3
  have key : (match loadFile (World.mk (machine twoPageBook).fs (fun _ => none) (fun _ _ => none) false) 5 none q%"x.lit" [0] ⟨[], []⟩ with
      | (.ok _, s) => s.heap.length == 2 && (s.heap.get 0).style == [] && (s.heap.get 1).style == []
      | _ => false) = true := by decide +kernel
  change loadFile (World.mk (machine twoPageBook).fs (fun _ => none) (fun _ _ => none) false) 5 none q%"x.lit" [0] ⟨[], []⟩ = _ at h1
  rw [h1] at key
  simp only [Bool.and_eq_true, beq_iff_eq] at key
  obtain ⟨⟨k1, k2⟩, k3⟩ := key
  have : (s0.heap.get i).style = [] := by
    match i with
    | 0 => exact k2
    | 1 => exact k3
    | i + 2 => rw [Heap.get_out (by omega)]; rfl
  rw [this]
  decide

end Booklit.Props
