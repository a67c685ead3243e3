import Verif.Spec.Dev
import Verif.Lemmas.MovedTmpl
import Verif.Props.Templates
import Verif.Props.Answers
import Verif.Props.Command

/-!
C83: the development server with templates of the user.
-/

namespace Booklit.Props

open Booklit Booklit.Templates Booklit.Tmpl

/-! ### Answers and templates -/

theorem steady_with {S : Site} (hS : S.Plain) (ts : TSet) : Steady (engineWith htmlMode ts S) :=
  ⟨fun old h k i => pageWith_moved (hS.moved _) (behind_moved old h) htmlMode ts k i, fun _ _ _ i hk => pageWith_le hk i⟩

/-- The templates that are used for an answer, and whether they could be loaded. -/
def loadedNow (dir : Option Dir) (e : Eng) : Bool × Eng :=
  match dir with
  | none => (true, e)
  | some d => (langOf htmlMode).loadTemplates builtinHtml d e

theorem dev_answer (W : World) (S : Site) (dir : Option Dir) (n k : Nat) (input path : Str) (s : DevState)
    (h : (loadedNow dir s.eng).1 = true) :
    (devAnswer W S dir n k input path s).1 = (answer W (engineWith htmlMode (loadedNow dir s.eng).2.tmpl S) n k input path s.st).1 := by
  unfold devAnswer answer
  show _ = (match requestTag htmlExt path with | none => _ | some _ => _ : Res Answer × St).1
  cases requestTag htmlExt path with
  | none => rfl
  | some _ =>
    dsimp only
    cases loadFile W n none input [0] s.st with
    | mk r t =>
      cases r with
      | err _ => rfl
      | panic => rfl
      | more => rfl
      | ok i =>
        show _ = (match t.heap.requested htmlExt k i path with | none => _ | some none => _ | some (some j) => _ : Res Answer × St).1
        dsimp only
        cases t.heap.requested htmlExt k i path with
        | none => rfl
        | some x =>
          cases x with
          | none => rfl
          | some j =>
            cases dir with
            | none => rfl
            | some d =>
              simp only [loadedNow] at h ⊢
              rw [if_pos h]
              rfl

theorem dev_state (W : World) (S : Site) (dir : Option Dir) (n k : Nat) (input path : Str) (s : DevState) :
    (devAnswer W S dir n k input path s).2.st = (answer W (htmlEngine S) n k input path s.st).2 ∧
    ((devAnswer W S dir n k input path s).2.eng = s.eng ∨ (devAnswer W S dir n k input path s).2.eng = (loadedNow dir s.eng).2) := by
  unfold devAnswer answer
  show _ = (match requestTag htmlExt path with | none => _ | some _ => _ : Res Answer × St).2 ∧ _
  cases requestTag htmlExt path with
  | none => exact ⟨rfl, .inl rfl⟩
  | some _ =>
    dsimp only
    cases loadFile W n none input [0] s.st with
    | mk r t =>
      cases r with
      | err _ => exact ⟨rfl, .inl rfl⟩
      | panic => exact ⟨rfl, .inl rfl⟩
      | more => exact ⟨rfl, .inl rfl⟩
      | ok i =>
        show _ = (match t.heap.requested htmlExt k i path with | none => _ | some none => _ | some (some j) => _ : Res Answer × St).2 ∧ _
        dsimp only
        cases t.heap.requested htmlExt k i path with
        | none => exact ⟨rfl, .inl rfl⟩
        | some x =>
          cases x with
          | none => exact ⟨rfl, .inl rfl⟩
          | some j =>
            cases dir with
            | none => exact ⟨rfl, .inl rfl⟩
            | some d =>
              dsimp only [loadedNow]
              split
              · exact ⟨rfl, .inr rfl⟩
              · exact ⟨rfl, .inr rfl⟩

theorem Evolves.refl (d : Dir) : Evolves d d := fun _ f hf => ⟨f, hf, Nat.le_refl _, fun _ => rfl⟩

theorem inUse_unique {L : Lang} {b : TSet} {d : Dir} {ts ts' : TSet} (h : InUse L b d ts) (h' : InUse L b d ts') : ts = ts' := by
  funext name
  have h1 := h name
  have h2 := h' name
  cases e : d.lookup name with
  | none => rw [e] at h1 h2; exact h1.trans h2.symm
  | some f =>
    rw [e] at h1 h2
    obtain ⟨t, ht, e1⟩ := h1
    obtain ⟨t', ht', e2⟩ := h2
    rw [trimmed_unique ht' ht] at e2
    exact e1.trans e2.symm

/-- What a server remembers of its life. -/
theorem developed_inv {W : World} {S : Site} {input : Str} {own : Bool} {past : List (Files × Dir)} {s : DevState}
    (h : Developed W S input own past s) :
    Served W (htmlEngine S) input (past.map Prod.fst) s.st ∧ (∀ x ∈ past.head?, (x.2.map (·.1)).Nodup) ∧
    (own = false → s.eng = .new builtinHtml) ∧
    ∃ d0, Inv (langOf htmlMode) builtinHtml d0 s.eng ∧ (d0.map (·.1)).Nodup ∧ (d0 = [] ∨ ∃ old ∈ past, d0 = old.2) ∧
      ∀ x ∈ past.head?, Evolves d0 x.2 := by
  induction h with
  | start fs d hd =>
    refine ⟨.start fs, ?_, fun _ => rfl, [], ⟨fun _ => rfl, fun _ _ => rfl⟩, by simp, .inl rfl, ?_⟩
    · simpa using hd
    · intro x _ name f hf; cases hf
  | @request fs d past s n k path _ ih =>
    obtain ⟨h1, h2, h3, d0, h4, h5, h6, h7⟩ := ih
    obtain ⟨e1, e2⟩ := dev_state (W.on fs) S (if own then some d else none) n k input path s
    have hd : (d.map (·.1)).Nodup := h2 (fs, d) rfl
    refine ⟨?_, h2, fun ho => ?_, ?_⟩
    · rw [e1]
      exact .request n k path h1
    · rcases e2 with e | e
      · rw [e]; exact h3 ho
      · rw [e, ho]; exact h3 ho
    · cases own with
      | false =>
        refine ⟨d0, ?_, h5, h6, h7⟩
        rcases e2 with e | e
        · rw [e]; exact h4
        · rw [e]; exact h4
      | true =>
        rcases e2 with e | e
        · exact ⟨d0, by rw [e]; exact h4, h5, h6, h7⟩
        · refine ⟨d, ?_, hd, .inr ⟨(fs, d), by simp, rfl⟩, ?_⟩
          · rw [e]
            exact (h4.load h5 hd (h7 (fs, d) rfl)).1
          · intro x hx
            cases hx
            exact Evolves.refl d
  | @edit past s fs d _ hl hd ih =>
    obtain ⟨h1, h2, h3, d0, h4, h5, h6, h7⟩ := ih
    refine ⟨?_, ?_, h3, d0, h4, h5, ?_, ?_⟩
    · refine .edit fs h1 fun old ho => ?_
      obtain ⟨x, hx, rfl⟩ := List.mem_map.1 ho
      exact (hl x hx).1
    · intro x hx
      cases hx
      exact hd
    · rcases h6 with h6 | ⟨old, ho, h6⟩
      · exact .inl h6
      · exact .inr ⟨old, by simp [ho], h6⟩
    · intro x hx
      cases hx
      rcases h6 with rfl | ⟨old, ho, rfl⟩
      · intro name f hf; cases hf
      · exact (hl old ho).2

/-- If a new server can load the templates, all of them parse. -/
theorem allParse_of_load {d : Dir} (hd : (d.map (·.1)).Nodup)
    (h : ((langOf htmlMode).loadTemplates builtinHtml d (.new builtinHtml)).1 = true) : AllParse (langOf htmlMode) d := by
  refine Classical.byContradiction fun hn => ?_
  have := (Inv.load (L := langOf htmlMode) (builtin := builtinHtml) (d0 := []) (e := .new builtinHtml)
    ⟨fun _ => rfl, fun _ _ => rfl⟩ (by simp) hd (fun name f hf => by cases hf)).2.2 (fun f hf => by cases hf) hn
  rw [this] at h
  cases h

/-- The templates in use for an answer are those of the directory, if all of them parse. -/
theorem developed_load {W : World} {S : Site} {input : Str} {own : Bool} {fs : Files} {d : Dir} {past : List (Files × Dir)} {s : DevState}
    (h : Developed W S input own ((fs, d) :: past) s) (hp : own = true → AllParse (langOf htmlMode) d) :
    (loadedNow (if own then some d else none) s.eng).1 = true ∧
    (loadedNow (if own then some d else none) s.eng).2.tmpl =
      (loadedNow (if own then some d else none) (.new builtinHtml)).2.tmpl ∧
    (loadedNow (if own then some d else none) (.new builtinHtml)).1 = true := by
  obtain ⟨-, h2, h3, d0, h4, h5, -, h7⟩ := developed_inv h
  have hd : (d.map (·.1)).Nodup := h2 (fs, d) rfl
  cases own with
  | false => exact ⟨rfl, by rw [h3 rfl], rfl⟩
  | true =>
    obtain ⟨i1, i2, -⟩ := h4.load h5 hd (h7 (fs, d) rfl)
    obtain ⟨j1, j2, -⟩ := Inv.load (L := langOf htmlMode) (builtin := builtinHtml) (d0 := []) (e := .new builtinHtml)
      ⟨fun _ => rfl, fun _ _ => rfl⟩ (by simp) hd (fun name f hf => by cases hf)
    exact ⟨i2 (hp rfl), inUse_unique (i1.used (hp rfl)) (j1.used (hp rfl)), j2 (hp rfl)⟩

/-! ### C83 -/

/-- **C83**: after any requests, and any changes of files and of templates that give them later modification times, the development
server answers a request as a server would that is started now, if all templates parse: with the same page, or the same error, or it leaves the
request to the file server just the same. The templates may be any. -/
theorem C83_history {W : World} (hW : W.Local) {S : Site} (hS : S.Plain) {input : Str} {own : Bool} {fs : Files} {d : Dir}
    {past : List (Files × Dir)} {s : DevState} (hs : Developed W S input own ((fs, d) :: past) s)
    (hp : own = true → AllParse (langOf htmlMode) d) (path : Str) {n k n' k' : Nat} (hn : n ≤ n') (hk : k ≤ k') :
    let now := (devAnswer (W.on fs) S (if own then some d else none) n k input path .new).1
    now ≠ .more → (devAnswer (W.on fs) S (if own then some d else none) n' k' input path s).1 = now := by
  dsimp only
  obtain ⟨e1, e2, e3⟩ := developed_load hs hp
  rw [dev_answer _ _ _ _ _ _ _ _ e1, dev_answer _ _ _ _ _ _ _ .new e3, e2]
  intro hm
  exact answer_history hW (steady_with hS _) (developed_inv hs).1 path hn hk hm

/-- **C83**, in part: if a template is changed so that it does not parse, the next request for a page is answered with an error. What is missing: so are
those after it, until the template is mended; see `C83_false_broken`. -/
theorem C83_reports_partial {W : World} {S : Site} {input : Str} {past : List (Files × Dir)} {s : DevState}
    (hs : Developed W S input true past s) (hall : ∀ old ∈ past, AllParse (langOf htmlMode) old.2) {fs : Files} {d : Dir}
    (hl : ∀ old ∈ past, Later old.1 fs ∧ Evolves old.2 d) (hd : (d.map (·.1)).Nodup) (hp : ¬ AllParse (langOf htmlMode) d)
    {path : Str} {n k : Nat} {txt : Str} (he : (devAnswer (W.on fs) S none n k input path s).1 = .ok (.page txt)) :
    (devAnswer (W.on fs) S (some d) n k input path s).1 = .err (.plain q%"template") := by
  obtain ⟨-, -, -, d0, h4, h5, h6, -⟩ := developed_inv hs
  have hbad : ((langOf htmlMode).loadTemplates builtinHtml d s.eng).1 = false := by
    refine (h4.load h5 hd ?_).2.2 ?_ hp
    · rcases h6 with rfl | ⟨old, ho, rfl⟩
      · intro name f hf; cases hf
      · exact (hl old ho).2
    · rcases h6 with rfl | ⟨old, ho, rfl⟩
      · intro f hf; cases hf
      · exact hall old ho
  revert he
  unfold devAnswer
  cases requestTag htmlExt path with
  | none => intro he; cases he
  | some _ =>
    dsimp only
    cases loadFile (W.on fs) n none input [0] s.st with
    | mk r t =>
      cases r with
      | err _ => intro he; cases he
      | panic => intro he; cases he
      | more => intro he; cases he
      | ok i =>
        dsimp only
        cases t.heap.requested htmlExt k i path with
        | none => intro he; cases he
        | some x =>
          cases x with
          | none => intro he; cases he
          | some j =>
            intro _
            simp [hbad]

/-- **C83**: the server and the command agree. If a build of the files and templates as they are now ends with status 0, then the development
server answers, after any requests and changes of files and templates, the request for a page with the very text that the build has put into the
file of this name, provided that no other section has a tag or page of that name. -/
theorem C83_like_build {F : Options} (hplug : F.plugins = []) (hx : F.textExt = []) (hJ : F.Whole) {m : Machine}
    (hW : World.Local ⟨m.fs, m.self.registry, m.self.foreign, F.brokenOk⟩) (hS : Site.Plain ⟨F.brokenOk, m.force⟩) {d : Dir}
    (hg : m.glob F.htmlTemplates = some d) {n k : Nat} {disk : Disk} {o : Outcome} (h : F.main m n k disk = some o) (h0 : o.exit = 0)
    {past : List (Files × Dir)} {s : DevState} (hs : Developed ⟨m.fs, m.self.registry, m.self.foreign, F.brokenOk⟩ ⟨F.brokenOk, m.force⟩
      F.input (decide (F.htmlTemplates ≠ [])) ((m.fs, d) :: past) s) :
    ∃ i b t ps, loadFile ⟨m.fs, m.self.registry, m.self.foreign, F.brokenOk⟩ n none F.input [0] ⟨[], []⟩ = (.ok i, b) ∧
      t.root = i ∧ Book b.heap t ∧ Ends (fun n => b.heap.written n i) ps ∧
      ∀ p ∈ ps, (b.heap.get p).primaryTag ∈ (b.heap.get p).tags →
       (∀ q ∈ ps, '/' ∉ (b.heap.get q).primaryTag.name) →
       (∀ q ∈ ps, q ≠ p → (b.heap.get q).primaryTag.name ≠ (b.heap.get p).primaryTag.name) →
       (∀ j ∈ t.ids, j ≠ p → ∀ g ∈ (b.heap.get j).tags, g.name ≠ (b.heap.get p).primaryTag.name) →
       ∃ txt K, o.disk (joinPath F.out ((b.heap.get p).primaryTag.name ++ q%".html")) = some txt ∧
        ∀ n' k', n ≤ n' → K ≤ k' →
          (devAnswer ⟨m.fs, m.self.registry, m.self.foreign, F.brokenOk⟩ ⟨F.brokenOk, m.force⟩
            (if F.htmlTemplates ≠ [] then some d else none) n' k' F.input ('/' :: ((b.heap.get p).primaryTag.name ++ q%".html")) s).1 =
          .ok (.page txt) := by
  obtain ⟨E, i, b, t, ps, hE, hl, rfl, bk, hps, hfile, -, -⟩ := C81_complete hplug hJ h h0
  refine ⟨t.root, b, t, ps, hl, rfl, bk, hps, fun p hpp htag noslash diff uniq => ?_⟩
  -- the templates
  have heng : E = engineWith htmlMode (loadedNow (if F.htmlTemplates ≠ [] then some d else none) (.new builtinHtml)).2.tmpl ⟨F.brokenOk, m.force⟩ ∧
      (loadedNow (if F.htmlTemplates ≠ [] then some d else none) (.new builtinHtml)).1 = true := by
    have hdir : F.dir = F.htmlTemplates := by unfold Options.dir; rw [if_neg (by simp [hx])]
    unfold Options.engine at hE
    rw [if_neg (by simp [hx]), hdir] at hE
    unfold Machine.engine Options.site at hE
    by_cases hd : F.htmlTemplates = []
    · rw [if_pos hd] at hE
      rw [if_neg (by simp [hd])]
      cases hE
      exact ⟨rfl, rfl⟩
    · rw [if_neg hd, hg] at hE
      rw [if_pos hd]
      dsimp only at hE
      split at hE
      · rename_i h1
        cases hE
        exact ⟨rfl, h1⟩
      · cases hE
  obtain ⟨rfl, hload⟩ := heng
  have hparse : decide (F.htmlTemplates ≠ []) = true → AllParse (langOf htmlMode) d := by
    intro ho
    rw [if_pos (by simpa using ho)] at hload
    exact allParse_of_load ((developed_inv hs).2.1 (m.fs, d) rfl) hload
  obtain ⟨e1, e2, e3⟩ := developed_load hs hparse
  simp only [decide_eq_true_eq] at e1 e2 e3
  -- the page
  have hr : Reach ⟨m.fs, m.self.registry, m.self.foreign, F.brokenOk⟩ b := by
    have := Reach.load n none F.input [0] (Reach.start (W := ⟨m.fs, m.self.registry, m.self.foreign, F.brokenOk⟩)) (by simp) rfl
    rw [hl] at this
    exact this
  have own : ∀ j ∈ t.ids, ∀ g ∈ (b.heap.get j).tags, g.sec = some j := fun j _ => C49_own_tags hr j
  obtain ⟨r, ⟨N, hN⟩, hr'⟩ := (C47_requests bk own htmlExt).1 (b.heap.get p).primaryTag.name
  have hr2 : r = some p := by
    have hpt := written_ids bk hps p hpp
    cases r with
    | none => exact (hr' p hpt _ htag rfl).elim
    | some j =>
      obtain ⟨hj, g, hg, hname⟩ := hr'
      by_cases e : j = p
      · rw [e]
      · exact (uniq j hj e g hg hname).elim
  subst hr2
  have good : goodExt htmlExt := by unfold goodExt; decide
  have hname : (b.heap.get p).primaryTag.name ++ q%".html" = (b.heap.get p).primaryTag.name ++ ['.'] ++ htmlExt := by
    simp [htmlExt]
  obtain ⟨q, hq, e, txt, h2, h3⟩ := hfile p hpp fun _ => html_not_index hJ.out p
  have hqp : q = p := Classical.byContradiction fun hqp => by
    have := joinPath_inj hJ.out (plain_fileName (noslash q hq) good) (plain_fileName (noslash p hpp) good) e
    exact absurd (List.append_cancel_right (List.append_cancel_right this)) (diff q hq hqp)
  subst hqp
  refine ⟨txt, k + N, by rw [hname]; exact h3, fun n' k' hn hk' => ?_⟩
  rw [dev_answer _ _ _ _ _ _ _ _ e1, e2]
  have steady := steady_with hS (loadedNow (if F.htmlTemplates ≠ [] then some d else none) (.new builtinHtml)).2.tmpl
  have hr3 : (engineWith htmlMode (loadedNow (if F.htmlTemplates ≠ [] then some d else none) (.new builtinHtml)).2.tmpl
      ⟨F.brokenOk, m.force⟩).render b.heap (k + N) q = .ok txt := by
    rcases steady.le b.heap k (k + N) q (by omega) with e | e
    · rw [h2] at e; cases e
    · rw [← e, h2]
  have fresh : (answer ⟨m.fs, m.self.registry, m.self.foreign, F.brokenOk⟩ (engineWith htmlMode
      (loadedNow (if F.htmlTemplates ≠ [] then some d else none) (.new builtinHtml)).2.tmpl ⟨F.brokenOk, m.force⟩) n (k + N) F.input
      ('/' :: ((b.heap.get q).primaryTag.name ++ q%".html")) ⟨[], []⟩).1 = .ok (.page txt) := by
    have h4 : b.heap.requested htmlExt (k + N) t.root ('/' :: ((b.heap.get q).primaryTag.name ++ ['.'] ++ htmlExt)) = some (some q) :=
      hN (k + N) (by omega)
    rw [hname]
    unfold answer
    change (match requestTag htmlExt _ with | none => _ | some _ => _ : Res Answer × St).1 = _
    rw [requestTag_page]
    dsimp only
    rw [hl]
    dsimp only
    change (match b.heap.requested htmlExt (k + N) t.root _ with | none => _ | some none => _ | some (some j) => _ : Res Answer × St).1 = _
    rw [h4]
    dsimp only
    rw [hr3]
    rfl
  exact (answer_history hW steady (developed_inv hs).1 _ hn hk' (by rw [show World.on _ m.fs = _ from rfl]; erw [fresh]; simp)).trans fresh

/-! ### Examples -/

/-- The text of an answer. -/
def pageText : Res Answer → Option Str
  | .ok (.page t) => some t
  | _ => none

/-- The answer is an error. -/
def isError : Res Answer → Bool
  | .err _ => true
  | _ => false

/-- A page with a bold word. -/
def boldPage : Files := oneAt 1 q%"\\title{A}{a}\n\n\\bold{x}\n"

/-- Directories with a template for bold words. -/
def boldBy (t : Nat) (text : Str) : Dir := [(q%"bold.tmpl", ⟨t, text⟩)]

/-- A request for the page. -/
def askedDev (d : Dir) (s : DevState) : Res Answer × DevState :=
  devAnswer (baseOnly.on boldPage) plainSite (some d) 5 12 q%"x.lit" q%"/a.html" s

/-- A template is changed after a page has been shown with it. -/
def changedTemplate : DevState := (askedDev (boldBy 1 q%"<b>{{.Content | render}}</b>") .new).2

theorem bold_later (t t' : Nat) (h : t < t') (x x' : Str) : Evolves (boldBy t x) (boldBy t' x') := by
  intro name f hf
  by_cases e : name = q%"bold.tmpl"
  · subst e
    have : f = ⟨t, x⟩ := by
      have h' : some (⟨t, x⟩ : TFile) = some f := hf
      cases h'
      rfl
    subst this
    exact ⟨⟨t', x'⟩, rfl, Nat.le_of_lt h, fun e => absurd (show t' ≤ t from e) (by omega)⟩
  · simp only [boldBy, List.lookup, beq_false_of_ne e] at hf
    cases hf

theorem same_files (t : Nat) (x : Str) : Later (oneAt t x) (oneAt t x) := by
  intro path i i' h1 h2
  rw [h1] at h2
  cases h2
  exact .inl rfl

theorem changed_developed (x : Str) : Developed baseOnly plainSite q%"x.lit" true
    [(boldPage, boldBy 2 x), (boldPage, boldBy 1 q%"<b>{{.Content | render}}</b>")] changedTemplate := by
  refine .edit _ _ (.request 5 12 q%"/a.html" (.start _ _ (by decide))) (fun old ho => ?_) (by simp [boldBy])
  rw [List.mem_singleton.1 ho]
  exact ⟨same_files _ _, bold_later 1 2 (by decide) _ _⟩

/-- The conditions of `C83_history` and of `C83_reports_partial` are met. -/
example : AllParse (langOf htmlMode) (boldBy 2 q%"<i>{{.Content | render}}</i>") ∧
    ¬ AllParse (langOf htmlMode) (boldBy 2 q%"<i>{{.Content | render</i>") := by
  refine ⟨allParse_of_load (by decide) (by decide +kernel), fun h => ?_⟩
  have := (Inv.load (L := langOf htmlMode) (builtin := builtinHtml) (d0 := []) (e := .new builtinHtml)
    ⟨fun _ => rfl, fun _ _ => rfl⟩ (by simp) (show ((boldBy 2 q%"<i>{{.Content | render</i>").map (·.1)).Nodup by decide)
    (fun name f hf => by cases hf)).2.1 h
  revert this
  decide +kernel

/-- The old server uses the changed template, as a new one would, and the old one used the old template. -/
example : (pageText (askedDev (boldBy 2 q%"<i>{{.Content | render}}</i>") changedTemplate).1).map (occurs q%"<p><i>x</i></p>") = some true ∧
    (pageText (askedDev (boldBy 1 q%"<b>{{.Content | render}}</b>") .new).1).map (occurs q%"<p><b>x</b></p>") = some true ∧
    pageText (askedDev (boldBy 2 q%"<i>{{.Content | render}}</i>") changedTemplate).1 =
      pageText (askedDev (boldBy 2 q%"<i>{{.Content | render}}</i>") .new).1 := by
  decide +kernel

/-- **C83 is false of templates that do not parse**: the request after the change is answered with an error, but the next one with a page, for
which the built-in template is used, although a server that is started now reports the error. (The time of the change is remembered before the template
is parsed, html.go:127-140.) -/
theorem C83_false_broken : let broken := boldBy 2 q%"<i>{{.Content | render</i>"
    Developed baseOnly plainSite q%"x.lit" true [(boldPage, broken), (boldPage, boldBy 1 q%"<b>{{.Content | render}}</b>")] changedTemplate ∧
    isError (askedDev broken changedTemplate).1 = true ∧
    (pageText (askedDev broken (askedDev broken changedTemplate).2).1).map (occurs q%"<p><strong>x</strong></p>") = some true ∧
    isError (askedDev broken .new).1 = true :=
  ⟨changed_developed _, by decide +kernel⟩

/-- A build with templates of one's own ends with status 0, and a server shows what it has written: the condition of `C83_like_build` is met. -/
example : let m := machine q%"\\title{A}{a}\n\n\\bold{x}\n"
    Developed ⟨m.fs, m.self.registry, m.self.foreign, false⟩ ⟨false, m.force⟩ q%"x.lit" true [(m.fs, ownTemplates)] .new ∧
    m.glob q%"t" = some ownTemplates ∧
    ((Options.main { input := q%"x.lit", out := q%"o", htmlTemplates := q%"t" } m 5 12 fun _ => none).map fun o =>
      o.exit == 0 && ((o.disk q%"o/a.html").map (occurs q%"<p><b>x</b></p>") == some true) &&
      o.disk q%"o/a.html" == pageText (devAnswer ⟨m.fs, m.self.registry, m.self.foreign, false⟩ ⟨false, m.force⟩ (some ownTemplates) 5 12 q%"x.lit"
        q%"/a.html" .new).1) = some true :=
  ⟨.start _ _ (by decide), by decide +kernel, by decide +kernel⟩

end Booklit.Props
