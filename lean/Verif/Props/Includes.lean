import Verif.Lemmas.IncludesSpec
import Verif.Lemmas.IncludesServe
import Verif.Props.Answers
import Verif.Props.Positions

/-!
C89: whether a section is written down in its parent or has a file of its own does not matter for the site.
-/

namespace Booklit.Props

open Booklit Booklit.Peg Booklit.Src Booklit.Templates Booklit.Tmpl

/-- Nothing but the program as it is shipped: no plugins, so that nothing is deferred either. -/
structure Plainly (F : Options) (m : Machine) : Prop where
  plugins : F.plugins = []
  foreign : ∀ p n, m.self.foreign p n = none
  force : ∀ i, m.force i = none
  input : F.input ≠ []
  nameless : m.fs [] = none

/-- The templates are those of the program, and no section has one of the styles whose templates are not meant for sections. -/
def Ordinary (F : Options) (m : Machine) (n : Nat) : Prop :=
  F.textExt = [] ∧ F.htmlTemplates = [] ∧
    (∀ s, F.Loads (m.world m.self F) n s → ∀ i, (s.heap.get i).style ∉ [q%"string", q%"toc", q%"page", q%"raw-html"]) ∨
  F.textExt ≠ [] ∧ F.textTemplates = [] ∧ ∀ s, F.Loads (m.world m.self F) n s → ∀ i, (s.heap.get i).style ≠ q%"string"

/-- **C89**: one build, with any engine that shows the same for both books. -/
theorem C89_build {W W' : World} {E : Nat} {B : Str → Prop} (hr : W'.registry = W.registry) (hb : W'.brokenOk = W.brokenOk)
    (hW : ∀ p n, W.foreign p n = none) (hW' : ∀ p n, W'.foreign p n = none) (hF : FilesSplit E B (treesOf W.fs) (treesOf W'.fs))
    {J : Job} (hJ : J.input ≠ []) (hB : B J.input) (hB' : J.sectionPath ≠ [] → B J.sectionPath) {O : Outside} {S : Site}
    (hS : ∀ i, S.force i = none) {b short : Bool} {n k : Nat} {d : Disk}
    (hok : (J.build W O (htmlEngine S) b short n k d).res = .ok ()) :
    J.build W' O (htmlEngine S) b short ((E + 1) * n) k d = J.build W O (htmlEngine S) b short n k d :=
  (job_apart hr hb hW hW' hF hJ hB hB' (Nat.le_refl _)
    (fun s h' _ H k i => H.page (fun i c e => by rw [hS] at e; cases e) k i) hok).1

/-- **C89**: the development server. If a new server answers a request for the one book with a page, or leaves it to the file server, then
for the other book any server answers just the same, whatever it has been asked before and however the files have been changed. -/
theorem C89_answers {W : World} (hW : ∀ p n, W.foreign p n = none) {fs fs' : Files} {E : Nat} {B : Str → Prop}
    (hF : FilesSplit E B (treesOf fs) (treesOf fs')) {input path : Str} (hne : input ≠ []) (hB : B input) {S : Site} (hS : ∀ i, S.force i = none)
    {n k : Nat} {a : Answer} (h : (answer (W.on fs) (htmlEngine S) n k input path ⟨[], []⟩).1 = .ok a) {past : List Files} {s : St}
    (hs : Served W (htmlEngine S) input (fs' :: past) s) : (answer (W.on fs') (htmlEngine S) ((E + 1) * n) k input path s).1 = .ok a := by
  have h' := answer_apart (W := W.on fs) (W' := W.on fs') rfl rfl hW hW hF hne hB hS (Nat.le_refl _) h
  rw [C74_history (fun _ _ _ f e => by rw [hW] at e; cases e) (fun i c e => by rw [hS] at e; cases e) hs _ (Nat.le_refl _) (Nat.le_refl k)
    (by rw [h']; simp), h']

section
variable {F : Options} {m : Machine} (hm : Plainly F m) {E : Nat} {B : Str → Prop} {fs' : Str → Option FileInfo}
  (hF : FilesSplit E B (treesOf m.fs) (treesOf fs')) (hB : B F.input) (hB' : F.sectionPath ≠ [] → B F.sectionPath) (bytes' : Disk8)
include hm hF hB hB'

/-- **C89**: two books that differ only in which sections are written down in their parent and which are included from a file in the same
directory: if the one is built successfully to HTML, then so is the other, with the same output and the same files, byte for byte. The
sections must not have one of the styles whose templates are of another kind; see C79. -/
theorem C89_html (ht : F.htmlTemplates = []) (hx : F.textExt = []) (h0' : fs' [] = none) {n k : Nat} {d : Disk} {o : Outcome}
    (hs : ∀ s, F.Loads (m.world m.self F) n s → ∀ i, (s.heap.get i).style ∉ [q%"string", q%"toc", q%"page", q%"raw-html"])
    (h : F.main m n k d = some o) (ho : o.exit = 0) :
    ∃ N k', F.main { m with fs := fs', bytes := bytes' } N k' d = some o := by
  have mk : ∀ fs, (⟨fs, m.self.registry, m.self.foreign, F.brokenOk⟩ : World).Makes fun _ => False := by
    intro fs p name f hf
    rw [show (⟨fs, m.self.registry, m.self.foreign, F.brokenOk⟩ : World).foreign p name = m.self.foreign p name from rfl, hm.foreign] at hf
    cases hf
  have hS : ∀ i c, m.force i = some c → c.unstyled [q%"string"] = true := fun i c e => by rw [hm.force] at e; cases e
  have hQ : ∀ i c, (F.site m).force i = some c → c.quiet = true := fun i c e => by
    rw [show (F.site m).force i = m.force i from rfl, hm.force] at e; cases e
  obtain ⟨k', hk⟩ := (C81_shipped ht hx hm.plugins (mk m.fs) (fun c e => e.elim) hm.nameless hS hs d o).1 ⟨k, h⟩
  have hok : (F.toJob.build ⟨m.fs, m.self.registry, m.self.foreign, F.brokenOk⟩ m.outside (htmlEngine (F.site m)) F.brokenOk m.short n k' d).res = .ok () := by
    revert hk
    unfold Built.outcome
    split
    · rename_i u e; intro _; exact e
    · intro hk; cases hk; cases ho
    · intro hk; cases hk; cases ho
    · intro hk; cases hk
  obtain ⟨e1, s, s', e2, e3, e4⟩ := job_apart (W := ⟨m.fs, m.self.registry, m.self.foreign, F.brokenOk⟩)
    (W' := ⟨fs', m.self.registry, m.self.foreign, F.brokenOk⟩) rfl rfl hm.foreign hm.foreign hF hm.input hB hB' (Nat.le_refl _)
    (fun s h' _ H k i => H.page hQ k i) hok
  refine ⟨(E + 1) * n, (C81_shipped (m := { m with fs := fs', bytes := bytes' }) ht hx hm.plugins (mk fs') (fun c e => e.elim) h0' hS ?_ d o).2 ⟨k', ?_⟩⟩
  · intro t hl i
    obtain rfl := e3.unique hl
    rw [e4.style]
    exact hs s e2 i
  · show (F.toJob.build ⟨fs', m.self.registry, m.self.foreign, F.brokenOk⟩ m.outside (htmlEngine (F.site m)) F.brokenOk m.short ((E + 1) * n) k' d).outcome
      { m with fs := fs', bytes := bytes' } = some o
    rw [e1]
    have := hk
    unfold Built.outcome at this ⊢
    rw [hok] at this ⊢
    exact this

/-- **C89**: the same for a build to text. Here a section with the style `string` shows the path of its file. -/
theorem C89_text (ht : F.textTemplates = []) (hx : F.textExt ≠ []) {n k : Nat} {d : Disk} {o : Outcome}
    (hs : ∀ s, F.Loads (m.world m.self F) n s → ∀ i, (s.heap.get i).style ≠ q%"string")
    (h : F.main m n k d = some o) (ho : o.exit = 0) :
    ∃ N k', F.main { m with fs := fs', bytes := bytes' } N k' d = some o := by
  have hQ : ∀ i c, (F.site m).force i = some c → c.quiet = true := fun i c e => by
    rw [show (F.site m).force i = m.force i from rfl, hm.force] at e; cases e
  obtain ⟨k', hk⟩ := (C81_text ht hx hm.plugins m n d o).1 ⟨k, h⟩
  have hok : (F.toJob.build ⟨m.fs, m.self.registry, m.self.foreign, F.brokenOk⟩ m.outside (plainEngine F.textExt (F.site m)) F.brokenOk m.short n k' d).res = .ok () := by
    revert hk
    unfold Built.outcome
    split
    · rename_i u e; intro _; exact e
    · intro hk; cases hk; cases ho
    · intro hk; cases hk; cases ho
    · intro hk; cases hk
  obtain ⟨e1, s, s', e2, e3, e4⟩ := job_apart (W := ⟨m.fs, m.self.registry, m.self.foreign, F.brokenOk⟩)
    (W' := ⟨fs', m.self.registry, m.self.foreign, F.brokenOk⟩) rfl rfl hm.foreign hm.foreign hF hm.input hB hB' (Nat.le_refl _)
    (fun s h' hl H k i => H.txtPage hQ (hs s hl) k i) hok
  refine ⟨(E + 1) * n, (C81_text (m := { m with fs := fs', bytes := bytes' }) ht hx hm.plugins _ d o).2 ⟨k', ?_⟩⟩
  show (F.toJob.build ⟨fs', m.self.registry, m.self.foreign, F.brokenOk⟩ m.outside (plainEngine F.textExt (F.site m)) F.brokenOk m.short ((E + 1) * n) k' d).outcome
    { m with fs := fs', bytes := bytes' } = some o
  rw [e1]
  have := hk
  unfold Built.outcome at this ⊢
  rw [hok] at this ⊢
  exact this

/-- **C89**: both. -/
theorem C89_files (h0' : fs' [] = none) {n k : Nat} {d : Disk} {o : Outcome} (hs : Ordinary F m n) (h : F.main m n k d = some o)
    (ho : o.exit = 0) : ∃ N k', F.main { m with fs := fs', bytes := bytes' } N k' d = some o := by
  rcases hs with ⟨hx, ht, hs⟩ | ⟨hx, ht, hs⟩
  · exact C89_html hm hF hB hB' bytes' ht hx h0' hs h ho
  · exact C89_text hm hF hB hB' bytes' ht hx hs h ho

end

/-! ### One section -/

/-- The text of a file. -/
def Holds (fs : Str → Option FileInfo) (path : Str) (a : Doc) : Prop :=
  ∃ nl i, lineEnd nl ∧ a.ok nl ∧ fs path = some i ∧ i.data = some (a.print nl)

theorem Holds.tree {fs : Str → Option FileInfo} {path : Str} {a : Doc} (h : Holds fs path a) : treesOf fs path = some (.ok a.tree) := by
  obtain ⟨nl, i, h1, h2, h3, h4⟩ := h
  obtain ⟨t, h5, h6⟩ := C11_print_parse nl h1 a h2
  simp [treesOf, h3, parseFile, h4, h5, Res.erased, h6]

/-- A document in which a paragraph is replaced. -/
theorem treeParas_append (a b : List Para) : treeParas (a ++ b) = treeParas a ++ treeParas b := by
  induction a with
  | nil => rfl
  | cons p ps ih => simp [treeParas, ih]

/-- In the file `path`, a paragraph that is nothing but `\section{…}` has become `\include-section{g}`, and what was in the section is now
the new file `g`. It is in the same directory, or in another one; then the section includes no files itself, since their names would have
to change with it. Line endings, indentation, comments and blank lines may change. -/
structure Moved1 (fs fs' : Str → Option FileInfo) (path g : Str) : Prop where
  here : ∃ (sp sp' : List Sp) (pre pre' post post' : List Para) (p p' : Para) (b : Doc),
    Holds fs path ⟨sp, pre ++ p :: post⟩ ∧ Holds fs' path ⟨sp', pre' ++ p' :: post'⟩ ∧ Holds fs' (joinPath (dirPath path) g) b ∧
    p.tree = inlineSection b.tree ∧ p'.tree = includedSection g ∧ treeParas pre' = treeParas pre ∧ treeParas post' = treeParas post ∧
    (Plain g ∨ b.tree.includesOnly (fun _ => false) = true)
  fresh : fs (joinPath (dirPath path) g) = none
  others : ∀ q, q ≠ path → q ≠ joinPath (dirPath path) g → fs' q = fs q

theorem Moved1.split {fs fs' : Str → Option FileInfo} {path g : Str} (h : Moved1 fs fs' path g) :
    FilesSplit 1 (fun _ => True) (treesOf fs) (treesOf fs') := by
  obtain ⟨⟨sp, sp', pre, pre', post, post', p, p', b, h1, h2, h3, h4, h5, h6, h7, hg⟩, hn, ho⟩ := h
  intro q t _ ht
  by_cases hq : q = path
  · subst hq
    rw [h1.tree] at ht
    cases ht
    refine ⟨_, h2.tree, ?_⟩
    simp only [Doc.tree, treeParas_append, treeParas, h4, h5, h6, h7, inlineSection, includedSection]
    refine .seq (SplitsL.append (.refl rfl (fun _ => trivial) _ _) (.cons (.para (.cons (.cons ?_ .nil) .nil)) (.refl rfl (fun _ => trivial) _ _)))
    refine .moved (.inr rfl) h3.tree ?_
    rcases hg with hg | hg
    · exact .refl (dirPath_beside hg).symm (fun _ => trivial) _ _
    · exact .same (ok := fun _ => false) (by simp) _ _ hg
  · by_cases hq' : q = joinPath (dirPath path) g
    · rw [hq', treesOf, hn] at ht
      cases ht
    · refine ⟨t, ?_, .refl rfl (fun _ => trivial) _ _⟩
      rw [treesOf, ho q hq hq']
      exact ht

/-- The same for the other direction, where the file need not be kept: nothing else includes it. -/
theorem Moved1.join {fs fs' : Str → Option FileInfo} {path g : Str} (h : Moved1 fs fs' path g)
    (hone : ∀ q t, q ≠ path → q ≠ joinPath (dirPath path) g → treesOf fs q = some (.ok t) →
      t.includesOnly (fun x => decide (joinPath (dirPath q) x ≠ joinPath (dirPath path) g)) = true)
    (hrest : ∀ t, treesOf fs path = some (.ok t) →
      t.includesOnly (fun x => decide (joinPath (dirPath path) x ≠ joinPath (dirPath path) g)) = true) :
    FilesSplit 1 (· ≠ joinPath (dirPath path) g) (treesOf fs') (treesOf fs) := by
  obtain ⟨⟨sp, sp', pre, pre', post, post', p, p', b, h1, h2, h3, h4, h5, h6, h7, hg⟩, hn, ho⟩ := h
  intro q t hB ht
  have ok : ∀ q x, decide (joinPath (dirPath q) x ≠ joinPath (dirPath path) g) = true →
      dirPath q = dirPath q ∧ joinPath (dirPath q) x ≠ joinPath (dirPath path) g :=
    fun q x h => ⟨rfl, by simpa using h⟩
  by_cases hq : q = path
  · subst hq
    rw [h2.tree] at ht
    cases ht
    refine ⟨_, h1.tree, ?_⟩
    have hr := hrest _ h1.tree
    simp only [Doc.tree, treeParas_append, treeParas, h4, h5, h6, h7, inlineSection, includedSection, Node.includesOnly] at hr ⊢
    have app : ∀ (f : Str → Bool) (a b : List Node), includesOnlyL f (a ++ b) = (includesOnlyL f a && includesOnlyL f b) := by
      intro f a b
      induction a with
      | nil => rfl
      | cons x a ih => simp [includesOnlyL, ih, Bool.and_assoc]
    rw [app] at hr
    have hm : methodName q%"section" ≠ q%"IncludeSection" := by decide
    simp only [includesOnlyL, includesOnlyR, Node.includesOnly, hm, if_false, Bool.and_eq_true, and_true] at hr
    obtain ⟨r1, r2, r3⟩ := hr
    refine .seq (SplitsL.append (.same (ok q) _ _ r1) (.cons (.para (.cons (.cons ?_ .nil) .nil)) (.same (ok q) _ _ r3)))
    refine .joined (.inr rfl) h3.tree ?_
    rcases hg with hg | hg
    · rw [dirPath_beside hg]
      exact .same (ok q) _ _ (by simpa [Doc.tree, Node.includesOnly] using r2)
    · exact .same (ok := fun _ => false) (by simp) _ _ hg
  · have e : treesOf fs q = treesOf fs' q := by rw [treesOf, treesOf, ho q hq hB]
    refine ⟨t, by rw [e]; exact ht, .same (ok q) _ _ (hone q t hq hB (by rw [e]; exact ht))⟩

theorem Moved1.nameless {fs fs' : Str → Option FileInfo} {path g : Str} (h : Moved1 fs fs' path g) : fs' [] = none ↔ fs [] = none := by
  obtain ⟨⟨sp, sp', pre, pre', post, post', p, p', b, ⟨_, _, _, _, h1, _⟩, ⟨_, _, _, _, h2, _⟩, h3, h4, h5, h6, h7, _⟩, hn, ho⟩ := h
  by_cases hp : path = []
  · subst hp
    rw [h1, h2]
    simp
  · rw [ho [] (Ne.symm hp) (Ne.symm (joinPath_some (cleanPath_ne _)))]

/-- **C89**: moving a section to a file of its own. If a book is built successfully, and then in one of its files a paragraph that is nothing
but `\section{…}` is replaced by `\include-section{g}`, with what was in the section in a new file `g` in the same directory (or in any other,
if the section includes no files), the site is the same, byte for byte. -/
theorem C89_move_section {F : Options} {m : Machine} (hm : Plainly F m) {fs' : Str → Option FileInfo} (bytes' : Disk8) {path g : Str}
    (hM : Moved1 m.fs fs' path g) {n k : Nat} {d : Disk} {o : Outcome} (hs : Ordinary F m n) (h : F.main m n k d = some o) (ho : o.exit = 0) :
    ∃ N k', F.main { m with fs := fs', bytes := bytes' } N k' d = some o :=
  C89_files hm hM.split trivial (fun _ => trivial) bytes' (hM.nameless.2 hm.nameless) hs h ho

/-- **C89**: making the file of a section part of its parent. If a book is built successfully, and then in one of its files a paragraph
that is nothing but `\include-section{g}` is replaced by `\section{…}` with what was in the file `g` in the same directory (or in any other,
if that file includes no files), the site is the same, byte for byte. The file `g` may be deleted, if nothing else includes it. -/
theorem C89_join_section {F : Options} {m : Machine} (hm : Plainly F m) {fs' : Str → Option FileInfo} (bytes' : Disk8) {path g : Str}
    (hM : Moved1 fs' m.fs path g) (hi : F.input ≠ joinPath (dirPath path) g) (hi' : F.sectionPath ≠ joinPath (dirPath path) g)
    (hone : ∀ q t, treesOf fs' q = some (.ok t) →
      t.includesOnly (fun x => decide (joinPath (dirPath q) x ≠ joinPath (dirPath path) g)) = true)
    {n k : Nat} {d : Disk} {o : Outcome} (hs : Ordinary F m n) (h : F.main m n k d = some o) (ho : o.exit = 0) :
    ∃ N k', F.main { m with fs := fs', bytes := bytes' } N k' d = some o :=
  C89_files hm (hM.join (fun q t _ _ ht => hone q t ht) fun t ht => hone path t ht) hi (fun _ => hi') bytes' (hM.nameless.1 hm.nameless) hs h ho

/-! ### Examples -/

/-- An argument. -/
def argOf (s : Str) : Arg := .inline (.mk (.text s) none) []

/-- A paragraph with one invocation. -/
def callOf (bl fn : Str) (as : List Arg) : Para := .mk [.mk bl none [.mk (.call fn as) none]] true [.nl]

/-- A paragraph of text with a reference. -/
def seeOf (bl s tag : Str) : Para := .mk [.mk bl none [.mk (.text s) none, .mk (.call q%"reference" [argOf tag]) none]] true [.nl]

/-- A section, as a file and as part of its parent. -/
def chapter (bl : Str) : List Para := [callOf bl q%"title" [argOf q%"One"], seeOf bl q%"See " q%"book"]

/-- A book with a section, and the same with the section in a file. -/
def wholeBook (p : Para) : Doc := ⟨[], [callOf [] q%"title" [argOf q%"Book"], callOf [] q%"split-sections" [], p, seeOf [] q%"And " q%"one"]⟩

/-- The two ways to have the section. -/
def chapterHere : Para := callOf [] q%"section" [.paras [.nl] (chapter q%"  ") []]

/-- The two ways to have the section. -/
def chapterThere : Para := callOf [] q%"include-section" [argOf q%"one.lit"]

/-- Files. -/
def filesIn (l : List (Str × Str)) : Str → Option FileInfo := fun p => (l.lookup p).map fun s => ⟨0, some s⟩

/-- The book in one file. -/
def oneFileBook : Str → Option FileInfo := filesIn [(q%"x.lit", (wholeBook chapterHere).print ['\n'])]

/-- The book in two files. -/
def twoFileBook : Str → Option FileInfo :=
  filesIn [(q%"x.lit", (wholeBook chapterThere).print ['\n']), (q%"one.lit", (Doc.mk [] (chapter [])).print ['\n'])]

-- This is what is in the files.
example : (wholeBook chapterHere).print ['\n'] =
      q%"\\title{Book}\n\n\\split-sections\n\n\\section{\n  \\title{One}\n\n  See \\reference{book}\n\n}\n\nAnd \\reference{one}\n\n" ∧
    (wholeBook chapterThere).print ['\n'] =
      q%"\\title{Book}\n\n\\split-sections\n\n\\include-section{one.lit}\n\nAnd \\reference{one}\n\n" ∧
    (Doc.mk [] (chapter [])).print ['\n'] = q%"\\title{One}\n\nSee \\reference{book}\n\n" := by decide

theorem docs_ok : (wholeBook chapterHere).ok ['\n'] ∧ (wholeBook chapterThere).ok ['\n'] ∧ (Doc.mk [] (chapter [])).ok ['\n'] := by
  have e : noCmt [] := by intro bl t hb e; simp at e
  have hc : ∀ (c : Char) t, isBlank c = false → c ≠ '{' → noCmt (c :: t) := fun c t h1 h2 => noCmt_head h1 h2
  refine ⟨?_, ?_, ?_⟩ <;>
  simp [wholeBook, chapterHere, chapterThere, chapter, callOf, seeOf, argOf, Doc.ok, Sp.ok, spOk, okParas, okLines, okWords, Word.ok, Vl.ok, okArgs, Arg.ok, okPieces,
    Vl.ends, Vl.ends.isFnChar', isText, isBlank, allBlank, printWords, Word.print, Vl.print, printArgs,
    Arg.print, printPieces, Piece.print, printTrail, printParas, Para.print, printLines, Line.print, printLead, printSp, e, hc]

theorem oneFile_moved : Moved1 oneFileBook twoFileBook q%"x.lit" q%"one.lit" := by
  have nl : lineEnd ['\n'] := .inl rfl
  refine ⟨⟨[], [], [callOf [] q%"title" [argOf q%"Book"], callOf [] q%"split-sections" []],
    [callOf [] q%"title" [argOf q%"Book"], callOf [] q%"split-sections" []], [seeOf [] q%"And " q%"one"], [seeOf [] q%"And " q%"one"],
    chapterHere, chapterThere, ⟨[], chapter []⟩, ⟨_, _, nl, docs_ok.1, rfl, rfl⟩, ⟨_, _, nl, docs_ok.2.1, rfl, rfl⟩, ⟨_, _, nl, docs_ok.2.2, rfl, rfl⟩,
    rfl, rfl, rfl, rfl, .inl (by unfold Plain; decide)⟩, rfl, ?_⟩
  intro q h1 h2
  have h2 : q ≠ q%"one.lit" := h2
  have e1 : (q == q%"x.lit") = false := by simpa using h1
  have e2 : (q == q%"one.lit") = false := by simpa using h2
  simp [oneFileBook, twoFileBook, filesIn, List.lookup, e1, e2]

/-- A machine with these files. -/
def machineOf (fs : Str → Option FileInfo) : Machine := { machine [] with fs := fs, bytes := fun _ => none }

/-- Where the book is written to. -/
def writing : Options := { input := q%"x.lit", out := q%"o", saveIndex := true }

theorem writing_plainly : Plainly writing (machineOf oneFileBook) ∧ Plainly writing (machineOf twoFileBook) :=
  ⟨⟨rfl, fun _ _ => rfl, fun _ => rfl, by decide, rfl⟩, ⟨rfl, fun _ _ => rfl, fun _ => rfl, by decide, rfl⟩⟩
/-- The styles of the sections of a book, without `--section-tag` and `--section-path`. -/
def stylesOk (F : Options) (m : Machine) (n : Nat) (xs : List Str) : Bool :=
  match loadFile (m.world m.self F) n none F.input [0] ⟨[], []⟩ with
  | (.ok _, s) => s.heap.all fun x => decide (x.style ∉ xs)
  | _ => true

theorem styles_of_check {F : Options} {m : Machine} {n : Nat} {xs : List Str} (h1 : F.sectionTag = []) (h2 : F.sectionPath = []) (hxs : [] ∉ xs)
    (h : stylesOk F m n xs = true) : ∀ s, F.Loads (m.world m.self F) n s → ∀ i, (s.heap.get i).style ∉ xs := by
  rintro s ⟨k, i, s0, j, e1, e2⟩ l
  rw [Job.choose, if_neg (by simp [h1]), if_neg (by simp [h2])] at e2
  cases e2
  rw [stylesOk, e1] at h
  by_cases hl : l < s.heap.length
  · have := List.all_eq_true.1 h s.heap[l] (List.getElem_mem _)
    simpa [Heap.get, hl] using this
  · simpa [Heap.get, hl, Sec.fresh] using hxs

-- The hypotheses of `C89_move_section` hold for the book: it is built to two pages, in the one file and in two.
example : Ordinary writing (machineOf oneFileBook) 5 ∧
    (match writing.main (machineOf oneFileBook) 5 40 fun _ => some q%"old", writing.main (machineOf twoFileBook) 5 40 fun _ => some q%"old" with
    | some o, some o' => o.exit == 0 && o'.exit == 0 && o.disk q%"o/book.html" == o'.disk q%"o/book.html" && o.disk q%"o/one.html" == o'.disk q%"o/one.html" &&
      (o.disk q%"o/one.html").map (fun x => decide (x.length > 100)) == some true
    | _, _ => false) = true :=
  ⟨.inl ⟨rfl, rfl, styles_of_check rfl rfl (by decide) (by decide +kernel)⟩, by decide +kernel⟩

-- So it is, wherever it is written to.
example {d : Disk} {k : Nat} {o : Outcome} (h : writing.main (machineOf oneFileBook) 5 k d = some o) (ho : o.exit = 0) :
    ∃ N k', writing.main (machineOf twoFileBook) N k' d = some o :=
  C89_move_section writing_plainly.1 (fun _ => none) oneFile_moved (.inl ⟨rfl, rfl, styles_of_check rfl rfl (by decide) (by decide +kernel)⟩) h ho

-- A server for the book in two files that has shown another page answers like a new one for the book in one file.
example : ∃ x, (answer (baseOnly.on oneFileBook) (htmlEngine plainSite) 5 40 q%"x.lit" q%"/one.html" ⟨[], []⟩).1 = .ok (.page x) ∧
    (answer (baseOnly.on twoFileBook) (htmlEngine plainSite) 10 40 q%"x.lit" q%"/one.html"
      (answer (baseOnly.on twoFileBook) (htmlEngine plainSite) 5 40 q%"x.lit" q%"/book.html" ⟨[], []⟩).2).1 = .ok (.page x) := by
  have h : (Answered.text (answer (baseOnly.on oneFileBook) (htmlEngine plainSite) 5 40 q%"x.lit" q%"/one.html" ⟨[], []⟩)).isSome = true := by decide +kernel
  have h : ∃ x, (answer (baseOnly.on oneFileBook) (htmlEngine plainSite) 5 40 q%"x.lit" q%"/one.html" ⟨[], []⟩).1 = .ok (.page x) := by
    revert h
    unfold Answered.text
    split
    · next t s e => exact fun _ => ⟨t, by rw [e]⟩
    · intro h; cases h
  obtain ⟨x, e⟩ := h
  exact ⟨x, e, C89_answers (W := baseOnly) (fun _ _ => rfl) oneFile_moved.split (by decide) trivial (fun _ => rfl) e (.request 5 40 _ (.start _))⟩

-- And back again.
example {d : Disk} {k : Nat} {o : Outcome} (h : writing.main (machineOf twoFileBook) 5 k d = some o) (ho : o.exit = 0) :
    ∃ N k', writing.main (machineOf oneFileBook) N k' d = some o := by
  refine C89_join_section writing_plainly.2 (fun _ => none) oneFile_moved (by decide) (by decide) (fun q t ht => ?_)
    (.inl ⟨rfl, rfl, styles_of_check rfl rfl (by decide) (by decide +kernel)⟩) h ho
  by_cases hq : q = q%"x.lit"
  · subst hq
    have : treesOf oneFileBook q%"x.lit" = some (.ok (wholeBook chapterHere).tree) := Holds.tree ⟨_, _, .inl rfl, docs_ok.1, rfl, rfl⟩
    rw [this] at ht
    cases ht
    decide +kernel
  · have e1 : (q == q%"x.lit") = false := by simpa using hq
    simp [treesOf, oneFileBook, filesIn, List.lookup, e1] at ht
/-- **C89**: with plugins it is not so: a section can use what its parent uses, a file can not. The functions of the plugin `p` are known in
the section as long as it is part of its parent, and unknown once it has a file of its own. -/
theorem C89_plugins :
    (match Options.main { input := q%"x.lit", plugins := [q%"p"] }
        (machineOf (filesIn [(q%"x.lit", q%"\\use-plugin{p}\n\n\\section{\n  \\title{One}\n\n  \\hi\n}\n")])) 5 40 fun _ => none,
      Options.main { input := q%"x.lit", plugins := [q%"p"] }
        (machineOf (filesIn [(q%"x.lit", q%"\\use-plugin{p}\n\n\\include-section{one.lit}\n"), (q%"one.lit", q%"\\title{One}\n\n\\hi\n")])) 5 40 fun _ => none with
    | some o, some o' => o.exit == 0 && o'.exit == 1
    | _, _ => false) = true := by decide +kernel

/-- **C89**: nor with a section of the style `string`, which shows the name of its file. -/
theorem C89_path_shown :
    (match Options.main { input := q%"x.lit", out := q%"o", textExt := q%"txt" }
        (machineOf (filesIn [(q%"x.lit", q%"\\title{Book}\n\n\\section{\n  \\title{One}\n\n  \\styled{string}\n}\n")])) 5 40 fun _ => none,
      Options.main { input := q%"x.lit", out := q%"o", textExt := q%"txt" }
        (machineOf (filesIn [(q%"x.lit", q%"\\title{Book}\n\n\\include-section{one.lit}\n"), (q%"one.lit", q%"\\title{One}\n\n\\styled{string}\n")])) 5 40 fun _ => none with
    | some o, some o' => o.exit == 0 && o'.exit == 0 && o.disk q%"o/book.txt" == some q%"Book\n\nBook\n\n\n\n{section (): One}\n\n" &&
        o'.disk q%"o/book.txt" == some q%"Book\n\nBook\n\n\n\n{section (one.lit): One}\n\n"
    | _, _ => false) = true := by decide +kernel

-- How inclusions are checked; other spellings of `\include-section` are not accepted.
example : (match parseDoc q%"\\include-section{a.lit}\n\n\\bold{\\include-section{b.lit}}\n", parseDoc q%"\\include--section{a.lit}\n" with
    | some (.ok (.node t)), some (.ok (.node t')) =>
      t.includesOnly (fun g => g != q%"c.lit") && !t.includesOnly (fun g => g != q%"b.lit") && !t'.includesOnly (fun g => g != q%"b.lit")
    | _, _ => false) = true := by decide +kernel

end Booklit.Props
