import Verif.Spec.MsFiles
import Verif.Lemmas.MsSource
import Verif.Lemmas.IncludesSpec
import Verif.Props.Surface

/-!
Manuscripts in several files are read as trees that differ from the one of the whole manuscript only by inclusions.
-/

namespace Booklit.Ms

open Booklit Booklit.Src

mutual
def Script.sur : Script → List Para
  | .mk title tags split hide body subs =>
    titlePara title tags :: (settings split hide ++ (surBlks body ++ surScripts subs))
def surScripts : List (Option Str × Script) → List Para
  | [] => []
  | (none, s) :: r => callPara q%"section" [.paras [.nl] s.sur []] :: surScripts r
  | (some g, _) :: r => callPara q%"include-section" [.inline (.mk (.text g) none) []] :: surScripts r
end

mutual
theorem script_print (nl : Str) : ∀ p : Script, printParas nl p.sur = p.src nl
  | .mk title tags split hide body subs => by
    have := surScripts_print nl subs
    simp [Script.sur, Script.src, printParas, printParas_app, titlePara_print, surBlks_print, this, settings_print]
theorem surScripts_print (nl : Str) : ∀ ps : List (Option Str × Script), printParas nl (surScripts ps) = srcScripts nl ps
  | [] => rfl
  | (none, p) :: ps => by
    have h1 := script_print nl p
    have h2 := surScripts_print nl ps
    simp [surScripts, srcScripts, printParas, callPara_print, printArgs, Arg.print, printSp, Sp.print, h1, h2]
  | (some g, p) :: ps => by
    have h2 := surScripts_print nl ps
    simp [surScripts, srcScripts, printParas, callPara_print, printArgs, Arg.print, printPieces, Word.print, Vl.print, printTrail, h2]
end

theorem nameArg_ok {nl g : Str} (h : nameFine g) : (Arg.inline (.mk (.text g) none) []).ok nl := by
  obtain ⟨h1, h2⟩ := h
  have := argOf_ok (nl := nl) (ws := [.mk (.text g) none]) ?_ ?_
  · exact this
  · rw [← okThen_nil]
    simp only [okThen, Word.ok, Vl.ok, Vl.print, printTrail, printWords, List.append_nil, Vl.ends]
    exact ⟨⟨⟨h1, h2⟩, by simpa using noCmt_textApp h2 noCmt_nil, by simp, noCmt_nil⟩, trivial⟩
  · rintro ⟨t, e⟩
    simp only [Word.print, Vl.print, printTrail, List.append_nil] at e
    have := h2 '{' (by rw [e]; simp)
    simp [isText] at this

theorem script_ne (p : Script) : p.sur ≠ [] := by
  cases p
  simp [Script.sur]

mutual
theorem script_ok {nl : Str} {fs : Str → Option FileInfo} : ∀ {D : Str} (p : Script), p.whole.ok → p.Stored fs D → ∀ q ∈ p.sur, paraOk nl q
  | _, .mk title tags split hide body subs, h, hs => by
    rw [Script.whole] at h
    have h2 := scripts_ok (nl := nl) subs h.2.2.2 hs
    intro q hq
    simp only [Script.sur, List.mem_cons, List.mem_append] at hq
    rcases hq with rfl | hq | hq | hq
    · exact titlePara_ok h.1.1 h.2.1
    · exact settings_ok q hq
    · exact blks_ok h.2.2.1 q hq
    · exact h2 q hq
theorem scripts_ok {nl : Str} {fs : Str → Option FileInfo} : ∀ {D : Str} (ps : List (Option Str × Script)), okParts (wholes ps) → storedAll fs D ps →
    ∀ q ∈ surScripts ps, paraOk nl q
  | _, [], _, _ => by simp [surScripts]
  | _, (none, p) :: ps, h, hs => by
    have h1 := script_ok (nl := nl) p h.1 hs.1
    have h2 := scripts_ok (nl := nl) ps h.2 hs.2
    intro q hq
    simp only [surScripts, List.mem_cons] at hq
    rcases hq with rfl | hq
    · exact callPara_ok ⟨by decide, by decide⟩ ⟨paras_ok (script_ne p) h1, trivial⟩
    · exact h2 q hq
  | _, (some g, p) :: ps, h, hs => by
    have h2 := scripts_ok (nl := nl) ps h.2 hs.2.2.2
    intro q hq
    simp only [surScripts, List.mem_cons] at hq
    rcases hq with rfl | hq
    · exact callPara_ok ⟨by decide, by decide⟩ ⟨nameArg_ok hs.1, trivial⟩
    · exact h2 q hq
end

/-- The tree of a file. -/
theorem script_tree {fs : Str → Option FileInfo} {D path : Str} {p : Script} (h : p.whole.ok) (hs : p.Stored fs D) (hf : InFile fs path p) :
    treesOf fs path = some (.ok (.seq (treeParas p.sur))) := by
  obtain ⟨nl, i, hnl, h1, h2⟩ := hf
  obtain ⟨t, ht, he⟩ := Booklit.Peg.read_doc (nl := nl) hnl ⟨[], p.sur⟩ ⟨by simp, script_ne p, okParas_of (script_ok p h hs)⟩
  have e : (Doc.mk [] p.sur).print nl = p.src nl := by simp [Doc.print, printSp, script_print]
  rw [e] at ht
  simp [treesOf, h1, parseFile, h2, ht, Res.erased, he, Doc.tree]

theorem part_tree {fs : Str → Option FileInfo} {path nl : Str} {i : FileInfo} {p : Part} (h : p.ok) (hnl : nl = ['\n'] ∨ nl = ['\r', '\n'])
    (h1 : fs path = some i) (h2 : i.data = some (p.src nl)) : treesOf fs path = some (.ok (.seq (treeParas p.sur))) := by
  obtain ⟨t, ht, he⟩ := Booklit.Peg.read_doc (nl := nl) hnl ⟨[], p.sur⟩ ⟨by simp, sur_ne p, okParas_of (part_ok h)⟩
  rw [doc_print] at ht
  simp [treesOf, h1, parseFile, h2, ht, Res.erased, he, Doc.tree]

mutual
/-- How deep files include files. -/
def Script.nest : Script → Nat
  | .mk _ _ _ _ _ subs => nests subs
def nests : List (Option Str × Script) → Nat
  | [] => 0
  | (none, s) :: r => max s.nest (nests r)
  | (some _, s) :: r => max (s.nest + 1) (nests r)
end

theorem treeParas_app (a b : List Para) : treeParas (a ++ b) = treeParas a ++ treeParas b := by
  induction a with
  | nil => rfl
  | cons p ps ih => simp [treeParas, ih]

/-! ### Manuscripts include nothing but sections -/

theorem includesL_app (f : Str → Bool) (a b : List Node) : includesOnlyL f (a ++ b) = (includesOnlyL f a && includesOnlyL f b) := by
  induction a with
  | nil => rfl
  | cons x a ih => simp [includesOnlyL, ih, Bool.and_assoc]

theorem includesL_strs (f : Str → Bool) (l : List Str) : includesOnlyL f (l.map .str) = true := by
  induction l with
  | nil => rfl
  | cons x a ih => simp [includesOnlyL, Node.includesOnly, ih]

theorem treePieces_words (ws : List Word) : treePieces (ws.map .word) = treeWords ws := by
  induction ws with
  | nil => rfl
  | cons p ps ih => simp [treePieces, treeWords, Piece.tree, ih]

/-- Words and arguments without inclusions. -/
abbrev NoInc (ws : List Word) : Prop := includesOnlyL (fun _ => false) (treeWords ws) = true

theorem noInc_arg {ws : List Word} (h : NoInc ws) : (argOf ws).tree.includesOnly (fun _ => false) = true := by
  cases ws with
  | nil => simp [argOf, Arg.tree, Node.includesOnly]
  | cons w ws =>
    simp only [NoInc, treeWords] at h
    simp only [argOf, Arg.tree, Node.includesOnly, treePieces_words]
    exact h

theorem noInc_call {fn : Str} {as : List Arg} (hf : methodName fn ≠ q%"IncludeSection") (h : includesOnlyL (fun _ => false) (treeArgs as) = true) :
    NoInc [.mk (.call fn as) none] := by
  simp [NoInc, treeWords, Word.tree, Vl.tree, includesOnlyL, Node.includesOnly, hf, h]

theorem noInc_callPara {fn : Str} {as : List Arg} (hf : methodName fn ≠ q%"IncludeSection") (h : includesOnlyL (fun _ => false) (treeArgs as) = true) :
    (callPara fn as).tree.includesOnly (fun _ => false) = true := by
  have := noInc_call hf h
  simpa [callPara, Para.tree, treeLines, Line.tree, Node.includesOnly, includesOnlyR] using this

theorem noInc_chars (s : Str) : ∀ run, NoInc (wordsOf run s) := by
  induction s with
  | nil =>
    intro run
    simp [NoInc, wordsOf]
    split <;> simp [treeWords, Word.tree, Vl.tree, includesOnlyL, Node.includesOnly]
  | cons c s ih =>
    intro run
    have h := ih
    simp only [NoInc] at h ⊢
    simp only [wordsOf]
    split <;> simp [treeWords_app, treeWords, Word.tree, Vl.tree, includesOnlyL, Node.includesOnly, includesL_app, h]
    all_goals (split <;> simp [treeWords, Word.tree, Vl.tree, includesOnlyL, Node.includesOnly])

mutual
theorem noInc_span : ∀ s : Span, NoInc s.words
  | .text s => noInc_chars s []
  | .code s => noInc_call (by decide) (by simp [treeArgs, Arg.tree, includesOnlyL, Node.includesOnly, includesL_strs])
  | .styled f ss => by
    have h := noInc_arg (noInc_spans ss)
    exact noInc_call (by cases f <;> decide) (by simp [treeArgs, includesOnlyL, h])
  | .link ss url => by
    have h := noInc_arg (noInc_spans ss)
    exact noInc_call (by decide) (by simp [treeArgs, includesOnlyL, h, noInc_arg (noInc_chars _ _)])
  | .ref name => noInc_call (by decide) (by simp [treeArgs, includesOnlyL, noInc_arg (noInc_chars _ _)])
  | .see name ss => by
    have h := noInc_arg (noInc_spans ss)
    exact noInc_call (by decide) (by simp [treeArgs, includesOnlyL, h, noInc_arg (noInc_chars _ _)])
  | .image path alt => noInc_call (by decide) (by simp [treeArgs, includesOnlyL, noInc_arg (noInc_chars _ _)])
  | .target name none => noInc_call (by decide) (by simp [treeArgs, includesOnlyL, noInc_arg (noInc_chars _ _)])
  | .target name (some title) => noInc_call (by decide) (by simp [treeArgs, includesOnlyL, noInc_arg (noInc_chars _ _)])
  | .aux ss => by
    have h := noInc_arg (noInc_spans ss)
    exact noInc_call (by decide) (by simp [treeArgs, includesOnlyL, h])
theorem noInc_spans : ∀ ss : List Span, NoInc (wordsSpans ss)
  | [] => rfl
  | s :: ss => by
    have h1 := noInc_span s
    have h2 := noInc_spans ss
    simp only [NoInc] at h1 h2 ⊢
    rw [wordsSpans, treeWords_app, includesL_app, h1, h2]
    rfl
end

theorem noInc_args (ls : List (List Span)) : includesOnlyL (fun _ => false) (treeArgs (argsOf ls)) = true := by
  induction ls with
  | nil => rfl
  | cons l ls ih => simpa [argsOf, treeArgs, includesOnlyL, noInc_arg (noInc_spans l)] using ih

theorem noInc_calls {fn : Str} (hf : methodName fn ≠ q%"IncludeSection") (rs : List (List (List Span))) :
    includesOnlyL (fun _ => false) (treeArgs (callsOf fn rs)) = true := by
  induction rs with
  | nil => rfl
  | cons r rs ih => simpa [callsOf, treeArgs, includesOnlyL, noInc_arg (noInc_call hf (noInc_args r))] using ih

theorem noInc_lines (ls : List (List Span)) :
    includesOnlyR (fun _ => false) (treeLines (ls.map fun l => .mk [] none (wordsSpans l))) = true := by
  induction ls with
  | nil => rfl
  | cons l ls ih => simpa [treeLines, Line.tree, includesOnlyR, noInc_spans l] using ih

theorem noInc_code (b : Block) : b.arg.tree.includesOnly (fun _ => false) = true := by
  cases b with
  | verbatim ls =>
    simp only [Block.arg, Arg.tree, Node.includesOnly]
    generalize Src.baseOf (ls.map Prod.fst) = k
    induction ls with
    | nil => rfl
    | cons l ls ih => simpa [includesOnlyR, includesOnlyL, Node.includesOnly, includesL_strs] using ih
  | preformatted ls =>
    simp only [Block.arg, Arg.tree, Node.includesOnly]
    generalize Src.baseOf _ = k
    induction ls with
    | nil => rfl
    | cons l ls ih =>
      have := noInc_chars l.2 []
      simpa [treePLines, PLine.tree, includesOnlyR, includesOnlyL, Node.includesOnly, this] using ih

mutual
theorem noInc_blk : ∀ b : Blk, b.sur.tree.includesOnly (fun _ => false) = true
  | .para ls => by simpa [Blk.sur, Para.tree, Node.includesOnly] using noInc_lines ls
  | .code b => noInc_callPara (by decide) (by simp [treeArgs, includesOnlyL, noInc_code])
  | .list o items => noInc_callPara (by cases o <;> decide) (noInc_args items)
  | .table rows => noInc_callPara (by decide) (noInc_calls (by decide) rows)
  | .defs ds => noInc_callPara (by decide) (noInc_calls (by decide) _)
  | .box a bs => by
    have h := noInc_blks bs
    exact noInc_callPara (by cases a <;> decide) (by simp [treeArgs, includesOnlyL, Arg.tree, Node.includesOnly, h])
  | .toc => noInc_callPara (by decide) rfl
theorem noInc_blks : ∀ bs : List Blk, includesOnlyL (fun _ => false) (treeParas (surBlks bs)) = true
  | [] => rfl
  | b :: bs => by
    have h1 := noInc_blk b
    have h2 := noInc_blks bs
    simp [surBlks, treeParas, includesOnlyL, h1, h2]
end

theorem noInc_title (title : List Span) (tags : List Str) : (titlePara title tags).tree.includesOnly (fun _ => false) = true := by
  refine noInc_callPara (by decide) ?_
  have h : includesOnlyL (fun _ => false) (treeArgs (tags.map fun g => argOf (wordsOf [] g))) = true := by
    induction tags with
    | nil => rfl
    | cons g gs ih => simpa [treeArgs, includesOnlyL, noInc_arg (noInc_chars g [])] using ih
  simp [treeArgs, includesOnlyL, noInc_arg (noInc_spans title), h]

theorem noInc_settings (split hide : Bool) : includesOnlyL (fun _ => false) (treeParas (settings split hide)) = true := by
  cases split <;> cases hide <;> decide

/-! ### Inclusions -/

mutual
theorem script_splits {fs : Str → Option FileInfo} (P : Trees) : ∀ (p : Script) (D0 D : Str), p.whole.ok → p.Stored fs D →
    SplitsL (fun _ => True) P (treesOf fs) (D0, D) p.nest (treeParas p.whole.sur) (treeParas p.sur)
  | .mk title tags split hide body subs, D0, D, h, hs => by
    rw [Script.whole] at h ⊢
    have h2 := scripts_splits P subs D0 D h.2.2.2 hs
    rw [Part.sur, Script.sur, treeParas, treeParas, treeParas_app, treeParas_app, treeParas_app, treeParas_app]
    have no : ∀ g : Str, (fun _ : Str => false) g = true → (D0, D).1 = (D0, D).2 ∧ (fun _ => True) (joinPath (D0, D).1 g) := by simp
    exact .cons (.same no _ _ (noInc_title title tags)) (SplitsL.append (.same no _ _ (noInc_settings split hide))
      (SplitsL.append (.same no _ _ (noInc_blks body)) h2))
theorem scripts_splits {fs : Str → Option FileInfo} (P : Trees) :
    ∀ (ps : List (Option Str × Script)) (D0 D : Str), okParts (wholes ps) → storedAll fs D ps →
    SplitsL (fun _ => True) P (treesOf fs) (D0, D) (nests ps) (treeParas (surParts (wholes ps))) (treeParas (surScripts ps))
  | [], _, _, _, _ => .nil
  | (none, p) :: ps, D0, D, h, hs => by
    have h1 := script_splits P p D0 D h.1 hs.1
    have h2 := scripts_splits P ps D0 D h.2 hs.2
    rw [wholes, surParts, surScripts, nests, treeParas, treeParas]
    refine .cons (.para (.cons (.cons ?_ .nil) .nil)) (h2.mono (by omega))
    exact .invoke (fun h => absurd h (by unfold Includes; decide)) (.cons (.seq (h1.mono (by omega))) .nil)
  | (some g, p) :: ps, D0, D, h, hs => by
    have h1 := script_splits P p D0 _ h.1 hs.2.2.1
    have h2 := scripts_splits P ps D0 D h.2 hs.2.2.2
    have h3 := script_tree h.1 hs.2.2.1 hs.2.1
    rw [wholes, surParts, surScripts, nests, treeParas, treeParas]
    refine .cons (.para (.cons (.cons ?_ .nil) .nil)) (h2.mono (by omega))
    refine Splits.mono (e := p.nest + 1) ?_ (by omega)
    exact .moved (.inr rfl) h3 (.seq h1)
end

/-- The manuscript in one file, and in several. -/
theorem script_files {fs fs' : Str → Option FileInfo} {path nl : Str} {p : Script} {i : FileInfo} (h : p.whole.ok)
    (hnl : nl = ['\n'] ∨ nl = ['\r', '\n']) (h1 : fs path = some i) (h2 : i.data = some (p.whole.src nl)) (ho : ∀ q, q ≠ path → fs q = none)
    (hs : p.Stored fs' (dirPath path)) (hf : InFile fs' path p) :
    FilesSplit p.nest (fun _ => True) (treesOf fs) (treesOf fs') := by
  intro q t _ ht
  by_cases hq : q = path
  · subst hq
    rw [part_tree h hnl h1 h2] at ht
    cases ht
    exact ⟨_, script_tree h hs hf, .seq (script_splits _ p _ _ h hs)⟩
  · rw [treesOf, ho q hq] at ht
    cases ht

end Booklit.Ms
