import Verif.Lemmas.SlugL
import Verif.Lemmas.HeapContent
import Verif.Model.Plugins
import Verif.Spec.Single
import Verif.Props.Calls

/-!
Titles, tags, partials, plugins, paragraphs: C17, C32, C56, C57, C58.
-/

namespace Booklit.Props

open Booklit

/-! ### C17 -/

/-- **C17**: automatic tags contain only a-z, 0-9, '-' and '_'. -/
theorem C17_characters (W : World) (k : Nat) (title : Content) (s s' : St) (tag : Str)
    (h : defaultTag W k title s = (.ok tag, s')) : ∀ c ∈ tag, IsSlugChar c := by
  rw [defaultTag] at h
  split at h
  · cases h
  · next c _ =>
    cases ht : s.heap.text W.brokenOk k c with
    | ok t => rw [ht] at h; cases h; exact slug_chars t
    | err _ => rw [ht] at h; cases h
    | panic => rw [ht] at h; cases h
    | more => rw [ht] at h; cases h

/-- **C17**: deriving a tag from an automatic tag gives the same tag. -/
theorem C17_stable (W : World) (k k' : Nat) (title : Content) (s s' s2 : St) (tag : Str)
    (h : defaultTag W k title s = (.ok tag, s')) : defaultTag W k' (.str tag) s2 = (.ok tag, s2) := by
  rw [defaultTag_inline (by rfl)]
  simp only [Content.texts, List.flatten_cons, List.flatten_nil, List.append_nil]
  rw [slug_id (C17_characters W k title s s' tag h)]

/-- **C17**: for titles of text, styled text and links the automatic tag depends only on the text outside auxiliary
parts; styles, links and auxiliary parts do not matter. -/
theorem C17_depends_on_text (W : World) (k k' : Nat) (t t' : Content) (s s' : St) (ht : t.inlineText = true)
    (ht' : t'.inlineText = true) (h : (t.texts false).flatten = (t'.texts false).flatten) :
    ∃ tag, defaultTag W k t s = (.ok tag, s) ∧ defaultTag W k' t' s' = (.ok tag, s') :=
  ⟨_, defaultTag_inline ht s, by rw [h]; exact defaultTag_inline ht' s'⟩

/-- **C17**: the automatic tag of words separated by blanks: the words, in small letters and without special characters,
joined by dashes. Blanks before the first word and after the last also give one dash. -/
theorem C17_words (W : World) (k : Nat) (t : Content) (s : St) (ht : t.inlineText = true)
    (w : Str) (rest : List (Str × Str)) (tail : Str)
    (h : (t.texts false).flatten = w ++ rest.flatMap (fun p => p.1 ++ p.2) ++ tail) (hw : IsPlainWord w)
    (hr : ∀ p ∈ rest, IsBlanks p.1 ∧ IsPlainWord p.2 ∧ p.2 ≠ []) (hb : tail = [] ∨ IsBlanks tail) :
    defaultTag W k t s =
      (.ok (tagOfWord w ++ rest.flatMap (fun p => '-' :: tagOfWord p.2) ++ if tail = [] then [] else ['-']), s) := by
  rw [defaultTag_inline ht s, h, slug_words w rest tail hw hr hb]

example : tagOfWord q%"Wörld!" = q%"wrld" ∧ IsBlanks q%" \n" ∧ IsPlainWord q%"Wörld!" ∧
    tagOfWord q%"Hello" ++ [(q%" \n", q%"Wörld!")].flatMap (fun p => '-' :: tagOfWord p.2) = q%"hello-wrld" := by
  unfold IsBlanks IsPlainWord
  decide

/-- **C17**: an ampersand between spaces counts as the word "and". -/
theorem C17_and (W : World) (k k' : Nat) (t t' : Content) (s : St) (ht : t.inlineText = true) (ht' : t'.inlineText = true)
    (a b : Str) (ha : '&' ∉ a) (hb : '&' ∉ b) (h : (t.texts false).flatten = a ++ q%" & " ++ b)
    (h' : (t'.texts false).flatten = a ++ q%" and " ++ b) : defaultTag W k t s = defaultTag W k' t' s := by
  rw [defaultTag_inline ht s, defaultTag_inline ht' s, h, h', slug_and a b ha hb]

/-- **C17**, **C32**: a `\title` that is the first of its section sets the title to what its argument evaluates to, and
gives the section one tag, made from the text. -/
theorem C32_first_title_is_set (W : World) (k n i : Nat) (a : Node) (loc : Location) (r t : Content) (s s1 : St)
    (hs : Sound s.heap) (hi : i < s.heap.length) (ha : evalNode W k (incl W n) a i .nil (s.calling i loc) = (.ok t, s1))
    (hin : t.inlineText = true) (he : (s1.heap.get i).title = .str []) :
    ∃ s', evalNode W k (incl W n) (.invoke q%"title" [a] loc) i r s = (.ok r, s') ∧
      (s'.heap.get i).title = t ∧ (s'.heap.get i).primaryTag.name = slug (t.texts false).flatten ∧
      (s'.heap.get i).tags = [(s'.heap.get i).primaryTag] ∧ (s'.heap.get i).primaryTag.sec = some i ∧
      (s'.heap.get i).primaryTag.title = t ∧ (s'.heap.get i).titleLoc = (s1.heap.get i).invokeLoc := by
  obtain ⟨path, hp⟩ := hs.filePath i (s.heap.length + 1) hi (by omega)
  have hn : t.isNil = false := by cases t <;> simp_all [Content.inlineText, Content.isNil]
  rw [title_run k (incl W n) a loc i r t s s1 hp (hs i hi).2 ha hn he]
  have hl : i < s1.heap.length := by
    have := ((node_ok (Frame.inv W) (k := k) (keeps_incl (Frame.inv W) n) a i .nil).1 (s.calling i loc)
      (by rw [St.length_calling]; exact hi)).1
    rw [ha, St.length_calling] at this
    exact Nat.lt_of_lt_of_le hi this
  simp only [titleNames, if_true, M.bind_run, M.bind, defaultTag_inline hin, M.pure_run, setTitle, M.upd]
  refine ⟨_, rfl, ?_⟩
  dsimp only
  rw [Heap.get_upd_eq _ _ hl]
  exact ⟨rfl, rfl, rfl, rfl, rfl, rfl⟩

example : (match loadText q%"\\title{Tom & \\aux{the }\\italic{Jerry} Ride}\n" with
    | (.ok i, s) => (s.heap.get i).primaryTag.name == q%"tom-and-jerry-ride" && !(s.heap.get i).title.isNil &&
      (s.heap.get i).title.inlineText
    | _ => false) = true := by decide +kernel

/-- **C32**: the error about a second title tells where the title was set first and where the second `\title` is (with
its argument a text; calls in the argument move the second place, see `C38_false`). The state is left as it was, except
for the place of the last call. -/
theorem C32_second_title_error (W : World) (k n i : Nat) (x : Str) (loc : Location) (r : Content) (s : St)
    (hs : Sound s.heap) (hi : i < s.heap.length) (ht : (s.heap.get i).title ≠ .str []) :
    ∃ path, s.heap.filePath (s.heap.length + 1) i = some path ∧
      evalNode W k (incl W n) (.invoke q%"title" [.str x] loc) i r s =
        (.err (.titleTwice path (s.heap.get i).titleLoc loc), s.calling i loc) := by
  obtain ⟨path, hp⟩ := hs.filePath i (s.heap.length + 1) hi (by omega)
  refine ⟨path, hp, ?_⟩
  rw [invoke_run, hp, findMethod_head (by decide : baseMethods.lookup (methodName q%"title") = some .title) (hs i hi).2]
  simp only [Method.sig, Base.sig, arityOk, List.length_singleton, Nat.le_refl, decide_true, if_true, evalArgs, convertAll, convert]
  have ev : evalNode W k (incl W n) (.str x) i .nil (s.calling i loc) = (.ok (.str x), s.calling i loc) := rfl
  have hg : (s.calling i loc).heap.get i = { s.heap.get i with invokeLoc := loc } := Heap.get_upd_eq _ _ hi
  have e1 : (([ArgV.content (.str x)]).any ArgV.isZero) = false := rfl
  have e2 : (s.heap.get i).title.isEmpty = false := by
    rw [Content.isEmpty.eq_def]
    split
    · next h => exact absurd h ht
    · rfl
  have e3 : filePathM i (s.calling i loc) = (.ok path, s.calling i loc) := by
    rw [filePathM, St.length_calling, St.filePath_calling, hp]; rfl
  simp only [M.bind_run, M.bind, M.pure_run, ev, Content.isNil, callMethod, e1, callBase, Bool.false_eq_true, if_false, M.get, hg, e2, e3,
    M.pure_run, finish, returnedError, Err.pretty, if_true, M.lift]

example : (match loadText q%"\\title{A}\n\n\\title{B}\n" with
    | (.err (.titleTwice _ a b), _) => a.line == 1 && b.line == 3
    | _ => false) = true := by decide +kernel

/-! ### C57 -/

/-- **C57**: after any history of writes a partial is the one last written under its name, or else the one from before. -/
theorem C57_last_write (x : Sec) (ws : List (Str × Content)) (name : Str) :
    (ws.foldl (fun x w => x.setPartial w.1 w.2) x).partialOf name = (lastWrite name ws).getD (x.partialOf name) := by
  induction ws generalizing x with
  | nil => rfl
  | cons w ws ih =>
    obtain ⟨m, c⟩ := w
    rw [List.foldl_cons, ih, lastWrite]
    cases lastWrite name ws with
    | some d => rfl
    | none =>
      simp only [Option.none_or]
      by_cases e : m = name
      · subst e
        simp [Sec.partialOf, Sec.setPartial]
      · have hl : (List.lookup name (x.setPartial m c).partials) = List.lookup name x.partials := by
          simp only [Sec.setPartial, List.lookup_cons, show (name == m) = false by simpa using fun h => e h.symm]
          generalize x.partials = ps
          induction ps with
          | nil => rfl
          | cons p ps ih =>
            by_cases ep : p.1 = m
            · rw [List.filter_cons_of_neg (by simp [ep]), ih, List.lookup_cons,
                show (name == p.1) = false by rw [ep]; simpa using fun h => e h.symm]
            · rw [List.filter_cons_of_pos (by simp [ep]), List.lookup_cons, List.lookup_cons, ih]
        simp only [Sec.partialOf, hl, if_neg e, Option.getD_none]

example : ((Sec.fresh none []).setPartial q%"a" (.str q%"x") |>.setPartial q%"b" .nil |>.setPartial q%"a" (.toc 7)).partialOf q%"a" = .toc 7 := by
  rfl

/-! ### C56 -/

/-- **C56**: looking up a plugin gives the one most recently registered under that name, or none if there was none. -/
theorem C56_last_registration (ws : List (Str × Nat)) (name : Str) :
    (ws.foldl (fun (r : Registry) w => r.register w.1 w.2) []).find name = lastWrite name ws := by
  have key : ∀ (r : Registry), (ws.foldl (fun (r : Registry) w => r.register w.1 w.2) r).find name =
      (lastWrite name ws).or (r.find name) := by
    induction ws with
    | nil => intro r; simp [lastWrite]
    | cons w ws ih =>
      intro r
      obtain ⟨m, c⟩ := w
      rw [List.foldl_cons, ih, lastWrite]
      cases lastWrite name ws with
      | some d => rfl
      | none =>
        simp only [Option.none_or]
        by_cases e : m = name
        · subst e
          simp [Registry.find, Registry.register]
        · have hl : (r.register m c).find name = r.find name := by
            simp only [Registry.find, Registry.register, List.lookup_cons,
              show (name == m) = false by simpa using fun h => e h.symm]
            induction r with
            | nil => rfl
            | cons p ps ih =>
              by_cases ep : p.1 = m
              · rw [List.filter_cons_of_neg (by simp [ep]), ih, List.lookup_cons,
                  show (name == p.1) = false by rw [ep]; simpa using fun h => e h.symm]
              · rw [List.filter_cons_of_pos (by simp [ep]), List.lookup_cons, List.lookup_cons, ih]
          rw [hl, if_neg e, Option.none_or]
  rw [key]
  simp [Registry.find]

example : ([(q%"a", 1), (q%"b", 2), (q%"a", 3)].foldl (fun (r : Registry) w => r.register w.1 w.2) []).find q%"a" = some 3 := by
  decide

/-! ### C58 -/

/-- **C58**: in every state reached by loading documents, every paragraph anywhere in the title, body and partials of any
section has a line, and is not a single block, provided plugins return only such content (when given such). -/
theorem C58_paragraphs (W : World)
    (hW : ∀ {q name f} h i args, W.foreign q name = some f → (∀ c, Raw.content c ∈ args → c.all goodPara = true) →
      (∀ c, f.run h i args = .content c → c.all goodPara = true) ∧
      (∀ c, f.run h i args = .both c none → c.all goodPara = true))
    {s : St} (h : Reach W s) {i : Nat} (hi : i < s.heap.length) :
    (s.heap.get i).title.all goodPara = true ∧ (s.heap.get i).body.all goodPara = true ∧
    ∀ p ∈ (s.heap.get i).partials, p.2.all goodPara = true := by
  refine h.heapOk (contentInv_all W ?_ ?_ ?_ ?_ ?_ ?_ ?_ ?_ ?_ ?_ ?_ ?_ ?_ ?_ ?_ hW) i hi
  case refine_4 =>
    intro xs hne hf
    match xs, hne, hf with
    | [], hne, _ => exact absurd rfl hne
    | [x], _, hf => simp [goodPara, hf x rfl]
    | _ :: _ :: _, _, _ => rfl
  all_goals intros; rfl

example : bodyIs q%"a\n\n\\list{x}\n\n\\italic{b}\n" (fun c => match c with
    | .seq [.para [.str _], .list _ _, .para [.styled _ _ _ _]] => true | _ => false) = true := by decide +kernel

end Booklit.Props
