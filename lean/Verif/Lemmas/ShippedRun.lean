import Verif.Lemmas.ShippedHtml
import Verif.Lemmas.ShippedL
import Verif.Lemmas.ClosedL
import Verif.Lemmas.UnstyledL

/-!
The pages that the HTML templates that come with Booklit make are those of `Model/Html.lean`.
-/

namespace Booklit.Tmpl

open Booklit Booklit.Templates

set_option maxRecDepth 10000

/-- There is no template under another name. -/
theorem builtinSet_none (files : List (Str × Str)) (st : Str) (hst : ∀ p ∈ files, p.1 ≠ st) : builtinSet files (st ++ q%".tmpl") = none := by
  have : files.find? (fun p => p.1 ++ q%".tmpl" == st ++ q%".tmpl") = none := by
    rw [List.find?_eq_none]
    intro p hp h
    have h := eq_of_beq h
    exact hst p hp (List.append_cancel_right h)
  simp only [builtinSet, this, Option.map_none]

/-- The names of the HTML templates that come with Booklit. -/
theorem html_names (st : Str) : (∃ p ∈ builtinHtmlFiles, p.1 = st) ↔
    st ∈ [q%"aside", q%"bold", q%"definitions", q%"image", q%"inset", q%"italic", q%"larger", q%"link", q%"list", q%"page", q%"paragraph",
      q%"preformatted", q%"raw-html", q%"reference", q%"section", q%"sequence", q%"smaller", q%"strike", q%"string", q%"subscript",
      q%"superscript", q%"table", q%"target", q%"toc", q%"verbatim"] := by
  exact (List.mem_map (f := Prod.fst) (l := builtinHtmlFiles)).symm

abbrev T0 : Compiled := htmlMode.compile builtinHtml

section
variable {S : Site} {h : Heap}

/-- What a template finds out, when the shipped templates are used. -/
abbrev E0 (S : Site) (h : Heap) (m : Nat) : Env := envOf htmlMode S h m (run htmlMode T0 S h m)

theorem run_template {m : Nat} {file : Str} {v : Val} {ns : List TNode} (e : T0 file = some ns) :
    run htmlMode T0 S h (m + 1) (.template file v) = execL (E0 S h m) v v [] ns := by
  simp only [run, e]

theorem run_visit {m : Nat} {c : Content} {name : Str} {v : Val} (e : Content.visit h c = .template name v) {file : Str}
    (hf : name ++ q%".tmpl" = file) :
    run htmlMode T0 S h (m + 1) (.content c) = run htmlMode T0 S h m (.template file v) := by
  simp only [run, e, hf]

theorem run_visit2 {m : Nat} {c : Content} {name : Str} {v : Val} (e : Content.visit h c = .template name v) {file : Str}
    (hf : name ++ q%".tmpl" = file) {ns : List TNode} (eT : T0 file = some ns) :
    run htmlMode T0 S h (m + 2) (.content c) = execL (E0 S h m) v v [] ns := by
  rw [run_visit e hf, run_template eT]

theorem run_none {m : Nat} {c : Content} {name : Str} {v : Val} (e : Content.visit h c = .template name v)
    (eT : ∀ p ∈ builtinHtmlFiles, p.1 ≠ name) :
    run htmlMode T0 S h (m + 2) (.content c) = tmplErr := by
  rw [run_visit e rfl]
  have : T0 (name ++ q%".tmpl") = none := by
    simp only [T0, Mode.compile, builtinHtml, builtinSet_none _ _ eT, Option.bind_none]
  simp only [run, this]

theorem text_str {b : Bool} {m : Nat} {s : Str} : h.text b m (.str s) = .ok s := by
  cases m <;> rfl

theorem text_nil {b : Bool} {m : Nat} : h.text b m .nil = .panic := by
  cases m <;> rfl

theorem text_styled {b : Bool} {m : Nat} {st bl c ps} : h.text b m (.styled st bl c ps) = h.text b m c := by
  cases m <;> simp only [Heap.text, Content.text]

theorem run_styled (m : Nat) (st b c ps) (hst : st ≠ q%"string") :
    run htmlMode T0 S h (m + 2) (.content (.styled st b c ps)) =
      if st = q%"verbatim" then
        match if b then some false else isFlow c with
        | none => tmplErr
        | some true => (run htmlMode T0 S h m (.content c)).map fun t => q%"<code>" ++ t ++ q%"</code>"
        | some false => (run htmlMode T0 S h m (.content c)).map fun t => q%"<pre>" ++ t ++ q%"</pre>"
      else if st = q%"raw-html" then (h.text S.brokenOk m c).recover
      else match styleTags st with
        | none => tmplErr
        | some (a, z) => (run htmlMode T0 S h m (.content c)).map fun t => a ++ t ++ z := by
  by_cases hn : ∃ p ∈ builtinHtmlFiles, p.1 = st
  · have hv : Content.visit h (.styled st b c ps) = .template st (.content (.styled st b c ps)) := rfl
    rw [html_names] at hn
    simp only [List.mem_cons, List.not_mem_nil, or_false] at hn
    rcases hn with rfl | rfl | rfl | rfl | rfl | rfl | rfl | rfl | rfl | rfl | rfl | rfl | rfl | rfl | rfl | rfl | rfl | rfl | rfl | rfl |
      rfl | rfl | rfl | rfl | rfl
    · rw [run_visit2 hv rfl h_aside_is]; exact exec_wrap rfl _ _ _ _ _ _
    · rw [run_visit2 hv rfl h_bold_is]; exact exec_wrap rfl _ _ _ _ _ _
    · rw [run_visit2 hv rfl h_definitions_is]; rfl
    · rw [run_visit2 hv rfl h_image_is]; rfl
    · rw [run_visit2 hv rfl h_inset_is]; exact exec_wrap rfl _ _ _ _ _ _
    · rw [run_visit2 hv rfl h_italic_is]; exact exec_wrap rfl _ _ _ _ _ _
    · rw [run_visit2 hv rfl h_larger_is]; exact exec_wrap rfl _ _ _ _ _ _
    · rw [run_visit2 hv rfl h_link_is]; rfl
    · rw [run_visit2 hv rfl h_list_is]; rfl
    · rw [run_visit2 hv rfl h_page_is]; rfl
    · rw [run_visit2 hv rfl h_paragraph_is]; rfl
    · rw [run_visit2 hv rfl h_preformatted_is]; rfl
    · rw [run_visit2 hv rfl h_rawhtml_is, exec_rawhtml, show (E0 S h m).text = h.text S.brokenOk m from rfl, text_styled]; rfl
    · rw [run_visit2 hv rfl h_reference_is]; rfl
    · rw [run_visit2 hv rfl h_section_is]; rfl
    · rw [run_visit2 hv rfl h_sequence_is]; rfl
    · rw [run_visit2 hv rfl h_smaller_is]; exact exec_wrap rfl _ _ _ _ _ _
    · rw [run_visit2 hv rfl h_strike_is]; exact exec_wrap rfl _ _ _ _ _ _
    · exact absurd rfl hst
    · rw [run_visit2 hv rfl h_subscript_is]; exact exec_wrap rfl _ _ _ _ _ _
    · rw [run_visit2 hv rfl h_superscript_is]; exact exec_wrap rfl _ _ _ _ _ _
    · rw [run_visit2 hv rfl h_table_is]; rfl
    · rw [run_visit2 hv rfl h_target_is]; rfl
    · rw [run_visit2 hv rfl h_toc_is]; rfl
    · rw [run_visit2 hv rfl h_verbatim_is]; exact exec_verbatim rfl _ _ _ _
  · have hn' : ∀ p ∈ builtinHtmlFiles, p.1 ≠ st := fun p hp e => hn ⟨p, hp, e⟩
    rw [run_none rfl hn']
    rw [html_names] at hn
    simp only [List.mem_cons, List.not_mem_nil, or_false, not_or] at hn
    rw [if_neg (by simp [hn]), if_neg (by simp [hn])]
    simp only [styleTags, hn, if_false]

/-- Rendering of content, by the shipped templates. -/
abbrev R0 (S : Site) (h : Heap) (m : Nat) (c : Content) : Res Str := run htmlMode T0 S h m (.content c)

theorem header_small {m i d : Nat} (e : (E0 S h m).header i = .ok d) : d ≤ 6 := by
  have e : Res.ofFuel (h.headerDepth m i) = .ok d := e
  rw [Heap.headerDepth] at e
  cases hp : h.pageDepth m i with
  | none => rw [hp] at e; cases e
  | some k =>
    rw [hp] at e
    simp only [Option.map_some, Res.ofFuel, Res.ok.injEq] at e
    split at e <;> omega

theorem run_sect (m i : Nat) (hst : (h.get i).style ∉ [q%"string", q%"toc", q%"page", q%"raw-html"]) :
    R0 S h (m + 2) (.sect i) = h.sectHtml m (R0 S h m) i := by
  simp only [List.mem_cons, List.not_mem_nil, or_false, not_or] at hst
  by_cases h0 : (h.get i).style = []
  · have hv : Content.visit h (.sect i) = .template q%"section" (.content (.sect i)) := by
      simp only [Content.visit, h0, if_true]
    rw [R0, run_visit2 hv rfl h_section_is, exec_section rfl (fun i d e => header_small e)]
    rw [Heap.sectHtml]
    simp only [h0, ne_eq, not_true, false_and, if_false]
    rfl
  · have hv : Content.visit h (.sect i) = .template (h.get i).style (.content (.sect i)) := by
      simp only [Content.visit, h0, if_false]
    by_cases h1 : (h.get i).style = q%"section"
    · rw [h1] at hv
      rw [R0, run_visit2 hv rfl h_section_is, exec_section rfl (fun i d e => header_small e)]
      rw [Heap.sectHtml]
      simp only [h1, ne_eq, not_true, and_false, if_false]
      rfl
    · have hr : h.sectHtml m (R0 S h m) i = tmplErr := by
        rw [Heap.sectHtml]
        simp only [h0, h1, ne_eq, not_false_eq_true, and_self, if_true]
      rw [hr]
      by_cases hn : ∃ p ∈ builtinHtmlFiles, p.1 = (h.get i).style
      · rw [html_names] at hn
        simp only [List.mem_cons, List.not_mem_nil, or_false] at hn
        rcases hn with e | e | e | e | e | e | e | e | e | e | e | e | e | e | e | e | e | e | e | e | e | e | e | e | e <;>
          rw [e] at hv
        · rw [R0, run_visit2 hv rfl h_aside_is]; rfl
        · rw [R0, run_visit2 hv rfl h_bold_is]; rfl
        · rw [R0, run_visit2 hv rfl h_definitions_is]; rfl
        · rw [R0, run_visit2 hv rfl h_image_is]; rfl
        · rw [R0, run_visit2 hv rfl h_inset_is]; rfl
        · rw [R0, run_visit2 hv rfl h_italic_is]; rfl
        · rw [R0, run_visit2 hv rfl h_larger_is]; rfl
        · rw [R0, run_visit2 hv rfl h_link_is]; rfl
        · rw [R0, run_visit2 hv rfl h_list_is]; rfl
        · exact absurd e hst.2.2.1
        · rw [R0, run_visit2 hv rfl h_paragraph_is]; rfl
        · rw [R0, run_visit2 hv rfl h_preformatted_is]; rfl
        · exact absurd e hst.2.2.2
        · rw [R0, run_visit2 hv rfl h_reference_is]; rfl
        · exact absurd e h1
        · rw [R0, run_visit2 hv rfl h_sequence_is]; rfl
        · rw [R0, run_visit2 hv rfl h_smaller_is]; rfl
        · rw [R0, run_visit2 hv rfl h_strike_is]; rfl
        · exact absurd e hst.1
        · rw [R0, run_visit2 hv rfl h_subscript_is]; rfl
        · rw [R0, run_visit2 hv rfl h_superscript_is]; rfl
        · rw [R0, run_visit2 hv rfl h_table_is]; rfl
        · rw [R0, run_visit2 hv rfl h_target_is]; rfl
        · exact absurd e hst.2.1
        · rw [R0, run_visit2 hv rfl h_verbatim_is]; rfl
      · exact run_none hv fun p hp e => hn ⟨p, hp, e⟩

theorem run_ref (m s t c o l) : R0 S h (m + 2) (.ref s t c o l) = h.refHtml S m (R0 S h m) s t c o l := by
  have hv : Content.visit h (.ref s t c o l) = .template q%"reference" (.content (.ref s t c o l)) := rfl
  rw [R0, run_visit2 hv rfl h_reference_is, exec_reference rfl, Heap.refHtml]
  show (Heap.tagOf S h m s t o l).bind _ = _
  rw [Heap.tagOf]
  cases h.refTag m S.brokenOk s t o l with
  | none => rfl
  | some r =>
    cases r with
    | tag g =>
      dsimp only
      rw [Res.ok_bind']
      show (Heap.tagURL h htmlExt m g).bind _ = _
      rw [Heap.tagURL]
      cases g.sec <;> rfl
    | nothing => rfl
    | unknown =>
      dsimp only
      rw [Heap.unknownTag, Heap.unknownTag]
      cases Res.ofFuel (h.filePath m s) with
      | ok a => cases Res.ofFuel (h.tagsUp (fun _ => true) m none s) <;> rfl
      | _ => rfl
    | ambiguous ls =>
      dsimp only
      rw [Heap.ambiguousTag, Heap.ambiguousTag]
      generalize resMap _ ls = x
      cases x with
      | ok a => cases Res.ofFuel (h.filePath m s) <;> rfl
      | _ => rfl

/-- The table of contents, by the shipped template. -/
abbrev K0 (S : Site) (h : Heap) (m i : Nat) : Res Str := run htmlMode T0 S h m (.template q%"toc.tmpl" (.content (.sect i)))

theorem run_toc (m i : Nat) : R0 S h (m + 1) (.toc i) = K0 S h m i := by
  rw [R0, run_visit (name := q%"toc") (v := .content (.sect i)) rfl rfl]; rfl

theorem run_tocTemplate (m i : Nat) : K0 S h (m + 1) i =
    if (h.get i).children = [] ∨ (h.get i).omitToc then .ok []
    else (resMap (h.tocEntry m (R0 S h m) (K0 S h m)) (h.get i).children).map fun ts =>
      q%"\n<nav>\n  <ul>\n  " ++ ts.flatten ++ q%"\n  </ul>\n</nav>\n" := by
  rw [K0, run_template h_toc_is, exec_toc rfl]
  refine ite_congr rfl (fun _ => rfl) fun _ => congrArg (Res.map _) (congrArg (fun f => resMap f _) (funext fun c => ?_))
  show (Heap.tagURL h htmlExt m (h.get c).primaryTag).bind _ = _
  rw [Heap.tagURL, Heap.tocEntry]
  cases (h.get c).primaryTag.sec <;> rfl

theorem run_page (m i : Nat) : run htmlMode T0 S h (m + 1) (.template q%"page.tmpl" (.content (.sect i))) =
      (h.text S.brokenOk m (h.get i).title).recover.bind fun title =>
      (R0 S h m (.sect i)).map fun t =>
      q%"<!DOCTYPE html>\n<html>\n  <head>\n    <meta http-equiv=\"content-type\" content=\"text/html; charset=utf-8\" />\n    <title>"
        ++ escText title ++ q%"</title>\n  </head>\n  <body>\n    " ++ t ++ q%"\n  </body>\n</html>" := by
  rw [run_template h_page_is, exec_page rfl i text_nil]; rfl

theorem run_str (m s) : R0 S h (m + 2) (.str s) = .ok (escText s) := by
  rw [R0, run_visit2 (name := q%"string") (v := .content (.str s)) rfl rfl h_string_is, exec_string]
  exact text_str

theorem run_seq (m cs) : R0 S h (m + 2) (.seq cs) = (resMap (R0 S h m) cs).map List.flatten := by
  rw [R0, run_visit2 (name := q%"sequence") (v := .content (.seq cs)) rfl rfl h_sequence_is, exec_sequence rfl]; rfl

theorem run_para (m cs) : R0 S h (m + 2) (.para cs) = (resMap (R0 S h m) cs).map fun ts => q%"<p>" ++ joinWith [' '] ts ++ q%"</p>" := by
  rw [R0, run_visit2 (name := q%"paragraph") (v := .content (.para cs)) rfl rfl h_paragraph_is, exec_paragraph rfl]; rfl

theorem run_pre (m cs) : R0 S h (m + 2) (.pre cs) = (resMap (R0 S h m) cs).map (joinWith ['\n']) := by
  rw [R0, run_visit2 (name := q%"preformatted") (v := .content (.pre cs)) rfl rfl h_preformatted_is, exec_preformatted rfl]; rfl

theorem run_target (m t l ti c) : R0 S h (m + 2) (.target t l ti c) = .ok (q%"<a id=\"" ++ escAttr t ++ q%"\"></a>") := by
  rw [R0, run_visit2 (name := q%"target") (v := .content (.target t l ti c)) rfl rfl h_target_is, exec_target]

theorem run_image (m p d) : R0 S h (m + 2) (.image p d) = .ok (q%"<img src=\"" ++ escURL p ++ q%"\" alt=\"" ++ escAttr d ++ q%"\" />") := by
  rw [R0, run_visit2 (name := q%"image") (v := .content (.image p d)) rfl rfl h_image_is, exec_image]

theorem run_list (m cs o) : R0 S h (m + 2) (.list cs o) = (resMap (R0 S h m) cs).map fun ts =>
      (if o then q%"<ol>" else q%"<ul>") ++ q%"\n" ++ (ts.flatMap fun t => q%"\n  <li>" ++ t ++ q%"</li>\n") ++ q%"\n"
        ++ (if o then q%"</ol>" else q%"</ul>") := by
  rw [R0, run_visit2 (name := q%"list") (v := .content (.list cs o)) rfl rfl h_list_is, exec_list rfl]; rfl

theorem run_link (m c u) : R0 S h (m + 2) (.link c u) = (R0 S h m c).map fun t => q%"<a href=\"" ++ escURL u ++ q%"\">" ++ t ++ q%"</a>" := by
  rw [R0, run_visit2 (name := q%"link") (v := .content (.link c u)) rfl rfl h_link_is, exec_link rfl]; rfl

theorem run_table (m rs) : R0 S h (m + 2) (.table rs) = (resMap (resMap (R0 S h m)) rs).map fun rows =>
      q%"<table>\n  " ++ (rows.flatMap fun r =>
        q%"\n  <tr>\n    " ++ (r.flatMap fun t => q%"\n    <td>" ++ t ++ q%"</td>\n    ") ++ q%"\n  </tr>\n  ")
        ++ q%"\n</table>" := by
  rw [R0, run_visit2 (name := q%"table") (v := .content (.table rs)) rfl rfl h_table_is, exec_table rfl]; rfl

theorem run_defs (m ds) : R0 S h (m + 2) (.defs ds) =
      (resMap (fun d => (R0 S h m d.1).bind fun a => (R0 S h m d.2).map fun b => (a, b)) ds).map fun prs =>
      q%"<dl>\n  " ++ (prs.flatMap fun p => q%"\n  <dt>" ++ p.1 ++ q%"</dt>\n    <dd>" ++ p.2 ++ q%"</dd>\n  ")
        ++ q%"\n</dl>" := by
  rw [R0, run_visit2 (name := q%"definitions") (v := .content (.defs ds)) rfl rfl h_definitions_is, exec_definitions rfl]; rfl

theorem run_nil (m) : R0 S h (m + 1) .nil = tmplErr := rfl

theorem run_lazy (m b i) : R0 S h (m + 1) (.lazy b i) = match S.force i with
    | none => tmplErr
    | some d => R0 S h m d := rfl

theorem run_aux (m c) : R0 S h (m + 1) (.aux c) = R0 S h (m + 1) c := rfl

/-! ### The lists of `Model/Html.lean` -/

theorem htmlL_eq (I : Inner) (cs) : htmlL I cs = resMap (Content.html I) cs := by
  induction cs with
  | nil => rfl
  | cons c cs ih => rw [htmlL, ih]; rfl

theorem htmlR_eq (I : Inner) (rs) : htmlR I rs = resMap (resMap (Content.html I)) rs := by
  induction rs with
  | nil => rfl
  | cons c cs ih => rw [htmlR, ih, htmlL_eq]; rfl

theorem htmlD_eq (I : Inner) (ds) : htmlD I ds = resMap (fun d : Content × Content => (d.1.html I).bind fun a => (d.2.html I).map fun b => (a, b)) ds := by
  induction ds with
  | nil => rfl
  | cons c cs ih =>
    obtain ⟨a, b⟩ := c
    rw [htmlD, ih]
    simp only [resMap]
    cases a.html I with
    | ok x => cases b.html I <;> rfl
    | _ => rfl

end
end Booklit.Tmpl
