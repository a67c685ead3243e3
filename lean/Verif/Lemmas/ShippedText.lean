import Verif.Lemmas.ShippedRefine
import Verif.Model.TextEngine

/-!
The plain text templates that come with Booklit make the pages of `Model/TextEngine.lean`.
-/

namespace Booklit.Tmpl

open Booklit Booklit.Templates

set_option maxRecDepth 10000

section
variable {E : Env} (hE : E.isHtml = false)
include hE

/-- Rendered content in plain text. -/
theorem shownT (c : Content) (k : Str → Res Str) :
    (((E.render c).map fun s => if E.isHtml then Val.html s else .str s).bind fun v => Ctx.plain.escape E v).bind k = (E.render c).bind k := by
  rw [hE]
  cases E.render c <;> rfl

theorem execT_lines (sep : Str) (cs : List Content) (root : Val) :
    (resMap (fun p : Nat × Val => execL E root p.2 [(q%"line", p.2), (q%"index", .num p.1)]
      [.ite (.var q%"index") [.text sep] [], .act .plain (.call .render [(.var q%"line")])]) (indexed 0 (cs.map .content))).map List.flatten
      = (resMap E.render cs).map (joinWith sep) := by
  rw [← resMap_join, indexed_map, resMap_map]
  congr 2
  funext p
  simp [execL, exec, eval, evalL, Vars.find, Res.bind, Res.map, Fn.apply, hE, Val.truth]
  by_cases h0 : p.1 = 0 <;> simp [h0] <;> cases E.render p.2 <;> simp [Ctx.escape, Val.print]

theorem execT_paragraph (cs) :
    execL E (.content (.para cs)) (.content (.para cs)) [] t_paragraph =
      (resMap E.render cs).map fun ts => joinWith [' '] ts ++ q%"\n\n" := by
  have := execT_lines hE q%" " cs (.content (.para cs))
  rw [t_paragraph, execL_loop2]
  simp only [eval, Val.items, Res.ok_bind', this]
  simp only [execL_text, execL_act, execL_nil, eval, Res.ok_bind', Res.ok_map', Ctx.escape, Val.print]
  cases resMap E.render cs <;> simp [Res.map, Res.bind]

theorem execT_preformatted (cs) :
    execL E (.content (.pre cs)) (.content (.pre cs)) [] t_preformatted = (resMap E.render cs).map (joinWith ['\n']) := by
  have := execT_lines hE q%"\n" cs (.content (.pre cs))
  simp only [t_preformatted, execL_loop2, execL_nil, eval, Val.items, Res.ok_bind', Res.ok_map', this]
  cases resMap E.render cs <;> simp [Res.map, Res.bind]

theorem execT_each (a z : Str) (cs : List Content) (root : Val) :
    resMap (fun w => execL E root w [] [.text a, .act .plain (.call .render [.dot]), .text z]) (cs.map .content) =
      (resMap E.render cs).map (List.map fun t => a ++ t ++ z) := by
  rw [resMap_map, ← resMap_then]
  congr 1
  funext c
  simp [execL, exec, eval, evalL, Res.bind, Res.map, Fn.apply, hE]
  cases E.render c <;> simp [Ctx.escape, Val.print]

theorem execT_sequence (cs) :
    execL E (.content (.seq cs)) (.content (.seq cs)) [] t_sequence = (resMap E.render cs).map List.flatten := by
  have : resMap (fun w => execL E (.content (.seq cs)) w [] [.act .plain (.call .render [.dot])]) (cs.map .content) = resMap E.render cs := by
    rw [resMap_map]
    congr 1
    funext c
    simp [execL, exec, eval, evalL, Res.bind, Res.map, Fn.apply, hE]
    cases E.render c <;> simp [Ctx.escape, Val.print]
  simp only [t_sequence, execL_loop, execL_nil, eval, evalL, Val.items, Val.field, conField, Res.ok_bind', Res.ok_map', this]
  cases resMap E.render cs <;> simp [Res.map, Res.bind]

omit hE in
theorem execT_string (c : Content) (hf : Val.field E (.content c) .string [] = (E.text c).recover.map .str) :
    execL E (.content c) (.content c) [] t_string = (E.text c).recover := by
  simp only [t_string, execL_act, execL_nil, eval, evalL, Res.ok_bind', Res.ok_map', hf]
  cases (E.text c).recover <;> simp [Res.map, Res.bind, Ctx.escape, Val.print]

theorem execT_inset (st b c ps) :
    execL E (.content (.styled st b c ps)) (.content (.styled st b c ps)) [] t_inset =
      (E.render c).map fun t => q%"    " ++ joinLines q%"    " t := by
  simp only [t_inset, execL_text, execL_act, execL_nil, eval, evalL, Val.field, conField, Res.ok_bind', Res.ok_map', Fn.apply, hE]
  cases E.render c <;> simp [Res.map, Res.bind, Ctx.escape, Val.print, Fn.apply]

theorem execT_section (i : Nat) :
    execL E (.content (.sect i)) (.content (.sect i)) [] t_section =
      (if (E.h.get i).parent.isSome then (E.number i).map fun k => k ++ q%" " else .ok []).bind fun num =>
      (E.render (E.h.get i).title).bind fun title =>
      (E.render (E.h.get i).body).bind fun body =>
      (if (E.h.get i).split then .ok []
       else (resMap (fun c => E.render (.sect c)) (E.h.get i).children).map fun ts =>
        q%"\n" ++ (ts.flatMap fun t => q%"\n" ++ t ++ q%"\n") ++ q%"\n").map fun kids =>
      num ++ title ++ body ++ q%"\n\n" ++ kids := by
  have kids : execL E (.content (.sect i)) (.content (.sect i)) [] [.text q%"\n",
    .loop none none (.field .dot .children []) [.text q%"\n", .act .plain (.call .render [.dot]),
    .text q%"\n"] [], .text q%"\n"] = (resMap (fun c => E.render (.sect c)) (E.h.get i).children).map fun ts =>
        q%"\n" ++ (ts.flatMap fun t => q%"\n" ++ t ++ q%"\n") ++ q%"\n" := by
    have := execT_each hE q%"\n" q%"\n" ((E.h.get i).children.map .sect) (.content (.sect i))
    rw [execL_text, execL_loop]
    simp only [eval, evalL, Val.field, conField, secField, Val.items, Res.ok_bind']
    rw [show ((E.h.get i).children.map fun c => Val.content (.sect c)) = ((E.h.get i).children.map Content.sect).map .content by
      rw [List.map_map]; rfl, this, resMap_map]
    simp only [execL_text, execL_nil, Res.ok_map']
    cases resMap (fun c => E.render (.sect c)) (E.h.get i).children <;> simp [Res.map, Res.bind, List.flatMap]
  have num : execL E (.content (.sect i)) (.content (.sect i)) [] [.act .plain (.field .dot .number []), .text q%" "] =
      (E.number i).map fun k => k ++ q%" " := by
    simp only [execL_text, execL_act, execL_nil, eval, evalL, Val.field, conField, secField, Res.ok_bind']
    cases E.number i <;> simp [Res.map, Res.bind, Ctx.escape, Val.print]
  rw [t_section]
  generalize hk : [TNode.text q%"\n", .loop none none (.field .dot .children []) [.text q%"\n", .act .plain (.call .render [.dot]),
    .text q%"\n"] [], .text q%"\n"] = K at kids ⊢
  generalize hn : [TNode.act .plain (.field .dot .number []), .text q%" "] = N at num ⊢
  simp only [execL_text, execL_act, execL_ite, execL_nil, eval, evalL, Val.field, conField, secField, Res.ok_bind', Res.ok_map', Fn.apply, kids, num,
    shownT hE]
  have hN : ((if (Val.ofSec (E.h.get i).parent).truth then (E.number i).map fun k => k ++ q%" " else .ok [])) =
      (if (E.h.get i).parent.isSome then (E.number i).map fun k => k ++ q%" " else .ok []) := by
    cases (E.h.get i).parent <;> rfl
  rw [hN]
  generalize (if (E.h.get i).parent.isSome then (E.number i).map fun k => k ++ q%" " else Res.ok []) = num
  cases num with
  | ok num =>
    cases E.render (E.h.get i).title with
    | ok title =>
      cases E.render (E.h.get i).body with
      | ok body =>
        cases (E.h.get i).split with
        | true => simp [Res.map, Res.bind, Val.truth]
        | false =>
          cases resMap (fun c => E.render (.sect c)) (E.h.get i).children <;> simp [Res.map, Res.bind, Val.truth]
      | _ => rfl
    | _ => rfl
  | _ => rfl

theorem execT_tocEntry (root : Val) (c : Nat) :
    execL E root (.content (.sect c)) [] [.text q%"\n", .act .plain (.field .dot .number []), .text q%" ",
    .act .plain (.call .render [(.call .stripAux [(.field .dot .title [])])]), .text q%"\n\n",
    .call q%"toc.tmpl" (some .dot), .text q%"\n"] =
      (E.number c).bind fun k =>
      match stripAux (E.h.get c).title with
      | none => tmplErr
      | some d =>
        (E.render d).bind fun title =>
        (E.call q%"toc.tmpl" (.content (.sect c))).map fun below => q%"\n" ++ k ++ q%" " ++ title ++ q%"\n\n" ++ below ++ q%"\n" := by
  simp only [execL_text, execL_act, execL_call, execL_nil, eval, evalL, Val.field, conField, secField, Res.ok_bind', Res.ok_map', Fn.apply]
  cases E.number c with
  | ok k =>
    cases stripAux (E.h.get c).title with
    | none => rfl
    | some d =>
      simp only [Res.ok_bind', Res.ok_map', shownT hE, Fn.apply]
      cases E.render d with
      | ok t => cases E.call q%"toc.tmpl" (.content (.sect c)) <;> simp [Res.map, Res.bind, Ctx.escape, Val.print]
      | _ => rfl
  | _ => rfl

theorem execT_toc (i : Nat) :
    execL E (.content (.sect i)) (.content (.sect i)) [] t_toc =
      if (E.h.get i).children = [] ∨ (E.h.get i).omitToc then .ok []
      else (resMap (fun c =>
        (E.number c).bind fun k =>
        match stripAux (E.h.get c).title with
        | none => tmplErr
        | some d =>
          (E.render d).bind fun title =>
          (E.call q%"toc.tmpl" (.content (.sect c))).map fun below => q%"\n" ++ k ++ q%" " ++ title ++ q%"\n\n" ++ below ++ q%"\n")
        (E.h.get i).children).map fun ts => q%"\n" ++ ts.flatten ++ q%"\n" := by
  rw [t_toc, execL_ite]
  obtain ⟨v, ev, hv⟩ := eval_toc (E := E) (.content (.sect i)) i
  rw [ev, Res.ok_bind']
  by_cases hc : (E.h.get i).children = [] ∨ (E.h.get i).omitToc
  · rw [if_neg (fun h => hv.mp h hc), if_pos hc]
    simp [execL_nil, Res.bind, Res.map]
  · rw [if_pos (hv.mpr hc), if_neg hc, execL_text, execL_loop]
    simp only [eval, evalL, Val.field, conField, secField, Val.items, Res.ok_bind', resMap_map, execT_tocEntry hE]
    simp only [execL_text, execL_nil, Res.ok_map']
    generalize resMap _ (E.h.get i).children = x
    cases x <;> simp [Res.map, Res.bind]

theorem execT_page (i : Nat) (hn : E.text .nil = .panic) :
    execL E (.content (.sect i)) (.content (.sect i)) [] t_page =
      (E.text (E.h.get i).title).recover.bind fun title =>
      (E.render (.sect i)).map fun t => title ++ q%"\n\n" ++ t := by
  have hs : Val.field E (.content (E.h.get i).title) .string [] = (E.text (E.h.get i).title).recover.map .str := by
    cases (E.h.get i).title with
    | nil => simp only [Val.field, conField, hn]; rfl
    | _ => rfl
  simp only [t_page, execL_text, execL_act, execL_nil, eval, evalL, Res.ok_bind', Res.ok_map', Fn.apply, shownT hE]
  rw [show Val.field E (.content (.sect i)) .title [] = .ok (.content (E.h.get i).title) from rfl]
  simp only [Res.ok_bind', hs]
  cases (E.text (E.h.get i).title).recover with
  | ok a => cases E.render (.sect i) <;> simp [Res.map, Res.bind, Ctx.escape, Val.print]
  | _ => rfl

end

/-! ### Running them -/

theorem text_names (st : Str) : (∃ p ∈ builtinTextFiles, p.1 = st) ↔
    st ∈ [q%"inset", q%"page", q%"paragraph", q%"preformatted", q%"section", q%"sequence", q%"string", q%"toc"] := by
  exact (List.mem_map (f := Prod.fst) (l := builtinTextFiles)).symm

abbrev T1 (ext : Str) : Compiled := (textMode ext).compile builtinText

section
variable {ext : Str} {S : Site} {h : Heap}

abbrev E1 (ext : Str) (S : Site) (h : Heap) (m : Nat) : Env := envOf (textMode ext) S h m (run (textMode ext) (T1 ext) S h m)
abbrev R1 (ext : Str) (S : Site) (h : Heap) (m : Nat) (c : Content) : Res Str := run (textMode ext) (T1 ext) S h m (.content c)
abbrev K1 (ext : Str) (S : Site) (h : Heap) (m i : Nat) : Res Str :=
  run (textMode ext) (T1 ext) S h m (.template q%"toc.tmpl" (.content (.sect i)))

theorem runT_template {m : Nat} {file : Str} {v : Val} {ns : List TNode} (e : T1 ext file = some ns) :
    run (textMode ext) (T1 ext) S h (m + 1) (.template file v) = execL (E1 ext S h m) v v [] ns := by
  simp only [run, e]

theorem runT_visit {m : Nat} {c : Content} {name : Str} {v : Val} (e : Content.visit h c = .template name v) {file : Str}
    (hf : name ++ q%".tmpl" = file) :
    R1 ext S h (m + 1) c = run (textMode ext) (T1 ext) S h m (.template file v) := by
  simp only [R1, run, e, hf]

theorem runT_visit2 {m : Nat} {c : Content} {name : Str} {v : Val} (e : Content.visit h c = .template name v) {file : Str}
    (hf : name ++ q%".tmpl" = file) {ns : List TNode} (eT : T1 ext file = some ns) :
    R1 ext S h (m + 2) c = execL (E1 ext S h m) v v [] ns := by
  rw [runT_visit e hf, runT_template eT]

theorem runT_none {m : Nat} {c : Content} {name : Str} {v : Val} (e : Content.visit h c = .template name v)
    (eT : ¬ ∃ p ∈ builtinTextFiles, p.1 = name) : R1 ext S h (m + 2) c = tmplErr := by
  rw [runT_visit e rfl]
  have : T1 ext (name ++ q%".tmpl") = none := by
    simp only [T1, Mode.compile, builtinText, builtinSet_none _ _ (fun p hp e => eT ⟨p, hp, e⟩), Option.bind_none]
  simp only [run, this]

theorem runT_styled (m : Nat) (st b c ps) : R1 ext S h (m + 2) (.styled st b c ps) =
    if st = q%"inset" then (R1 ext S h m c).map fun t => q%"    " ++ joinLines q%"    " t
    else if st = q%"string" then (h.text S.brokenOk m c).recover
    else tmplErr := by
  have hv : Content.visit h (.styled st b c ps) = .template st (.content (.styled st b c ps)) := rfl
  by_cases hn : ∃ p ∈ builtinTextFiles, p.1 = st
  · rw [text_names] at hn
    simp only [List.mem_cons, List.not_mem_nil, or_false] at hn
    rcases hn with rfl | rfl | rfl | rfl | rfl | rfl | rfl | rfl
    · rw [runT_visit2 hv rfl (t_inset_is ext)]; exact execT_inset rfl _ _ _ _
    · rw [runT_visit2 hv rfl (t_page_is ext)]; rfl
    · rw [runT_visit2 hv rfl (t_paragraph_is ext)]; rfl
    · rw [runT_visit2 hv rfl (t_preformatted_is ext)]; rfl
    · rw [runT_visit2 hv rfl (t_section_is ext)]; rfl
    · rw [runT_visit2 hv rfl (t_sequence_is ext)]; rfl
    · rw [runT_visit2 hv rfl (t_string_is ext), execT_string _ rfl, show (E1 ext S h m).text = h.text S.brokenOk m from rfl, text_styled]; rfl
    · rw [runT_visit2 hv rfl (t_toc_is ext)]; rfl
  · rw [runT_none hv hn]
    rw [text_names] at hn
    simp only [List.mem_cons, List.not_mem_nil, or_false, not_or] at hn
    rw [if_neg hn.1, if_neg hn.2.2.2.2.2.2.1]

theorem runT_tocTemplate (m i : Nat) : K1 ext S h (m + 1) i =
    if (h.get i).children = [] ∨ (h.get i).omitToc then .ok []
    else (resMap (h.tocLine m (R1 ext S h m) (K1 ext S h m)) (h.get i).children).map fun ts => q%"\n" ++ ts.flatten ++ q%"\n" := by
  rw [K1, runT_template (t_toc_is ext), execT_toc rfl]
  rfl

theorem runT_toc (m i : Nat) : R1 ext S h (m + 1) (.toc i) = K1 ext S h m i := by
  rw [runT_visit (name := q%"toc") (v := .content (.sect i)) rfl rfl]; rfl

theorem runT_page (m i : Nat) : run (textMode ext) (T1 ext) S h (m + 1) (.template q%"page.tmpl" (.content (.sect i))) =
    h.pageTmpl S m (R1 ext S h m) i := by
  rw [runT_template (t_page_is ext), execT_page rfl i text_nil]; rfl

theorem runT_sect (m i : Nat) : R1 ext S h (m + 2) (.sect i) = h.sectTxt S m (R1 ext S h m) (K1 ext S h (m + 1)) i := by
  by_cases h0 : (h.get i).style = []
  · have hv : Content.visit h (.sect i) = .template q%"section" (.content (.sect i)) := by
      simp only [Content.visit, h0, if_true]
    rw [runT_visit2 hv rfl (t_section_is ext), execT_section rfl, Heap.sectTxt]
    simp only [h0, true_or, if_true]
    rfl
  · have hv : Content.visit h (.sect i) = .template (h.get i).style (.content (.sect i)) := by
      simp only [Content.visit, h0, if_false]
    rw [Heap.sectTxt]
    by_cases hn : ∃ p ∈ builtinTextFiles, p.1 = (h.get i).style
    · rw [text_names] at hn
      simp only [List.mem_cons, List.not_mem_nil, or_false] at hn
      rcases hn with e | e | e | e | e | e | e | e <;> rw [e] at hv <;> simp only [e]
      · rw [runT_visit2 hv rfl (t_inset_is ext)]; rfl
      · rw [runT_visit2 hv rfl (t_page_is ext), execT_page rfl i text_nil]; rfl
      · rw [runT_visit2 hv rfl (t_paragraph_is ext)]; rfl
      · rw [runT_visit2 hv rfl (t_preformatted_is ext)]; rfl
      · rw [runT_visit2 hv rfl (t_section_is ext), execT_section rfl]; rfl
      · rw [runT_visit2 hv rfl (t_sequence_is ext)]; rfl
      · rw [runT_visit2 hv rfl (t_string_is ext), execT_string _ rfl]; rfl
      · rw [runT_visit hv rfl]; rfl
    · rw [runT_none hv hn]
      rw [text_names] at hn
      simp only [List.mem_cons, List.not_mem_nil, or_false, not_or] at hn
      simp only [h0, hn, or_self, if_false]

theorem runT_str (m s) : R1 ext S h (m + 2) (.str s) = .ok s := by
  rw [runT_visit2 (name := q%"string") (v := .content (.str s)) rfl rfl (t_string_is ext), execT_string _ rfl,
    show (E1 ext S h m).text = h.text S.brokenOk m from rfl, text_str]; rfl

theorem runT_seq (m cs) : R1 ext S h (m + 2) (.seq cs) = (resMap (R1 ext S h m) cs).map List.flatten := by
  rw [runT_visit2 (name := q%"sequence") (v := .content (.seq cs)) rfl rfl (t_sequence_is ext), execT_sequence rfl]; rfl

theorem runT_para (m cs) : R1 ext S h (m + 2) (.para cs) = (resMap (R1 ext S h m) cs).map fun ts => joinWith [' '] ts ++ q%"\n\n" := by
  rw [runT_visit2 (name := q%"paragraph") (v := .content (.para cs)) rfl rfl (t_paragraph_is ext), execT_paragraph rfl]; rfl

theorem runT_pre (m cs) : R1 ext S h (m + 2) (.pre cs) = (resMap (R1 ext S h m) cs).map (joinWith ['\n']) := by
  rw [runT_visit2 (name := q%"preformatted") (v := .content (.pre cs)) rfl rfl (t_preformatted_is ext), execT_preformatted rfl]; rfl

theorem runT_lazy (m b i) : R1 ext S h (m + 1) (.lazy b i) = match S.force i with
    | none => tmplErr
    | some d => R1 ext S h m d := rfl

theorem runT_aux (m c) : R1 ext S h (m + 1) (.aux c) = R1 ext S h (m + 1) c := rfl

theorem runT_ref (m s t c o l) : R1 ext S h (m + 2) (.ref s t c o l) = tmplErr :=
  runT_none (name := q%"reference") rfl (by rw [text_names]; decide)
theorem runT_target (m t l ti c) : R1 ext S h (m + 2) (.target t l ti c) = tmplErr :=
  runT_none (name := q%"target") rfl (by rw [text_names]; decide)
theorem runT_image (m p d) : R1 ext S h (m + 2) (.image p d) = tmplErr :=
  runT_none (name := q%"image") rfl (by rw [text_names]; decide)
theorem runT_list (m cs o) : R1 ext S h (m + 2) (.list cs o) = tmplErr :=
  runT_none (name := q%"list") rfl (by rw [text_names]; decide)
theorem runT_link (m c u) : R1 ext S h (m + 2) (.link c u) = tmplErr :=
  runT_none (name := q%"link") rfl (by rw [text_names]; decide)
theorem runT_table (m rs) : R1 ext S h (m + 2) (.table rs) = tmplErr :=
  runT_none (name := q%"table") rfl (by rw [text_names]; decide)
theorem runT_defs (m ds) : R1 ext S h (m + 2) (.defs ds) = tmplErr :=
  runT_none (name := q%"definitions") rfl (by rw [text_names]; decide)

end
end Booklit.Tmpl
