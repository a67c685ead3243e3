import Verif.Lemmas.DocsL
import Verif.Model.DocsPlugin

/-!
The templates for what the plugin of Booklit's documentation makes.
-/

namespace Booklit.Tmpl

open Booklit Booklit.Templates

set_option maxRecDepth 100000

/-- docs/html/output-frame.tmpl. -/
def d_frame : List TNode :=
  [.text q%"<iframe class=\"output-frame\" scrolling=\"no\" src=\"",
    .act (.value none .url '"' .start) (.call .render [.field .dot .partial_ [.str q%"URL"]]), .text q%"\"></iframe>"]

/-- docs/html/columns.tmpl. -/
def d_columns : List TNode :=
  [.text q%"<div class=\"columns\">\n  <div class=\"column title\">", .act .text (.call .render [.field .dot .content []]), .text q%"</div>\n  ",
    .loop none none (.field .dot .partial_ [.str q%"Columns"])
      [.text q%"\n  <div class=\"column\">", .act .text (.call .render [.dot]), .text q%"</div>\n  "] [], .text q%"\n</div>"]

/-- docs/html/column-header.tmpl. -/
def d_header : List TNode :=
  [.text q%"<div class=\"column-header\">", .act .text (.call .render [.field .dot .content []]), .text q%"</div>"]

/-- docs/html/syntax-hl.tmpl. -/
def d_hl : List TNode :=
  [.text q%"<span class=\"syntax-hl\">", .act .text (.call .render [.field .dot .content []]), .text q%"</span>"]

theorem docs_own : ∀ f ∈ [q%"output-frame.tmpl", q%"columns.tmpl", q%"column-header.tmpl", q%"syntax-hl.tmpl"],
    docsHtml f = (docsDir.find? (·.1 == f)).map (trimNewlines ·.2.text) := by
  decide +kernel

theorem docs_builtin : ∀ f ∈ [q%"link.tmpl", q%"verbatim.tmpl", q%"string.tmpl"], docsHtml f = builtinHtml f := by
  decide +kernel

theorem d_frame_is : htmlMode.compile docsHtml q%"output-frame.tmpl" = some d_frame := by
  rw [Mode.compile, docs_own _ (by simp)]
  rfl

theorem d_columns_is : htmlMode.compile docsHtml q%"columns.tmpl" = some d_columns := by
  rw [Mode.compile, docs_own _ (by simp)]
  rfl

theorem d_header_is : htmlMode.compile docsHtml q%"column-header.tmpl" = some d_header := by
  rw [Mode.compile, docs_own _ (by simp)]
  rfl

theorem d_hl_is : htmlMode.compile docsHtml q%"syntax-hl.tmpl" = some d_hl := by
  rw [Mode.compile, docs_own _ (by simp)]
  rfl

theorem d_link_is : htmlMode.compile docsHtml q%"link.tmpl" = some h_link := by
  rw [← h_link_is, Mode.compile, Mode.compile, docs_builtin _ (by simp)]

theorem d_verbatim_is : htmlMode.compile docsHtml q%"verbatim.tmpl" = some h_verbatim := by
  rw [← h_verbatim_is, Mode.compile, Mode.compile, docs_builtin _ (by simp)]

theorem d_string_is : htmlMode.compile docsHtml q%"string.tmpl" = some h_string := by
  rw [← h_string_is, Mode.compile, Mode.compile, docs_builtin _ (by simp)]

section
variable {E : Env} (hE : E.isHtml = true)
include hE

theorem exec_frame (st b c u) :
    execL E (.content (.styled st b c [(q%"URL", u)])) (.content (.styled st b c [(q%"URL", u)])) [] d_frame =
      (E.render u).map fun t => q%"<iframe class=\"output-frame\" scrolling=\"no\" src=\"" ++ escURL t ++ q%"\"></iframe>" := by
  simp [d_frame, execL, exec, eval, evalL, Res.bind, Res.map, Val.field, conField, Fn.apply, hE, partialIn]
  cases E.render u <;> simp [Ctx.escape, Val.print, Res.map]

theorem exec_columns (st b c) (cs : List Content) :
    execL E (.content (.styled st b c [(q%"Columns", .seq cs)])) (.content (.styled st b c [(q%"Columns", .seq cs)])) [] d_columns =
      (E.render c).bind fun t => (resMap E.render cs).map fun ts =>
        q%"<div class=\"columns\">\n  <div class=\"column title\">" ++ t ++ q%"</div>\n  " ++
        ts.flatMap (fun t => q%"\n  <div class=\"column\">" ++ t ++ q%"</div>\n  ") ++ q%"\n</div>" := by
  have hr := exec_each hE q%"\n  <div class=\"column\">" q%"</div>\n  " cs
    (.content (.styled st b c [(q%"Columns", .seq cs)]))
  rw [d_columns, execL_text, execL_act, execL_text, execL_loop, execL_text, execL_nil]
  simp only [eval, evalL, Res.ok_bind', Res.ok_map']
  rw [show Val.field E (.content (.styled st b c [(q%"Columns", .seq cs)])) .content [] = .ok (.content c) from rfl,
    show Val.field E (.content (.styled st b c [(q%"Columns", .seq cs)])) .partial_ [.str q%"Columns"] = .ok (.content (.seq cs)) from rfl]
  simp only [Res.ok_bind', Res.ok_map', Fn.apply, shown hE, Val.items, hr]
  cases E.render c with
  | ok t => cases resMap E.render cs <;> simp [Res.map, Res.bind, List.flatMap_def]
  | _ => rfl

end

end Booklit.Tmpl
