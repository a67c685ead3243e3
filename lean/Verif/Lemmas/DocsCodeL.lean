import Verif.Lemmas.DocsPluginL

/-!
The templates for Booklit code in Booklit's documentation.
-/

namespace Booklit.Tmpl

open Booklit Booklit.Templates

set_option maxRecDepth 100000

/-- docs/html/definition.tmpl. -/
def d_definition : List TNode :=
  [.text q%"<div class=\"definition\">\n  <pre class=\"definition-thumb\">", .act .text (.call .render [.field .dot .partial_ [.str q%"Thumb"]]),
    .text q%"</pre>\n\n  <div class=\"definition-content\">\n    ", .act .text (.call .render [.field .dot .content []]), .text q%"\n  </div>\n</div>"]

/-- docs/html/code-block.tmpl. -/
def d_codeBlock : List TNode :=
  [.text q%"<div class=\"highlight\">", .act .text (.call .render [.field .dot .content []]), .text q%"</div>"]

/-- docs/html/code-flow.tmpl and docs/html/lit-flow.tmpl. -/
def d_codeFlow : List TNode :=
  [.text q%"<code class=\"highlight\">", .act .text (.call .render [.field .dot .content []]), .text q%"</code>"]

/-- docs/html/lit-block.tmpl. -/
def d_litBlock : List TNode :=
  [.text q%"<div class=\"lit-syntax\">", .act .text (.call .render [.field .dot .content []]), .text q%"</div>"]

theorem docs_code : ∀ f ∈ [q%"definition.tmpl", q%"code-block.tmpl", q%"code-flow.tmpl", q%"lit-flow.tmpl", q%"lit-block.tmpl"],
    docsHtml f = (docsDir.find? (·.1 == f)).map (trimNewlines ·.2.text) := by
  decide +kernel

theorem docs_builtin' : ∀ f ∈ [q%"sequence.tmpl", q%"target.tmpl", q%"italic.tmpl", q%"raw-html.tmpl", q%"reference.tmpl"], docsHtml f = builtinHtml f := by
  decide +kernel

theorem d_definition_is : htmlMode.compile docsHtml q%"definition.tmpl" = some d_definition := by
  rw [Mode.compile, docs_code _ (by simp)]
  rfl

theorem d_codeBlock_is : htmlMode.compile docsHtml q%"code-block.tmpl" = some d_codeBlock := by
  rw [Mode.compile, docs_code _ (by simp)]
  rfl

theorem d_codeFlow_is : htmlMode.compile docsHtml q%"code-flow.tmpl" = some d_codeFlow := by
  rw [Mode.compile, docs_code _ (by simp)]
  rfl

theorem d_litFlow_is : htmlMode.compile docsHtml q%"lit-flow.tmpl" = some d_codeFlow := by
  rw [Mode.compile, docs_code _ (by simp)]
  rfl

theorem d_litBlock_is : htmlMode.compile docsHtml q%"lit-block.tmpl" = some d_litBlock := by
  rw [Mode.compile, docs_code _ (by simp)]
  rfl

theorem d_sequence_is : htmlMode.compile docsHtml q%"sequence.tmpl" = some h_sequence := by
  rw [← h_sequence_is, Mode.compile, Mode.compile, docs_builtin' _ (by simp)]

theorem d_target_is : htmlMode.compile docsHtml q%"target.tmpl" = some h_target := by
  rw [← h_target_is, Mode.compile, Mode.compile, docs_builtin' _ (by simp)]

theorem d_italic_is : htmlMode.compile docsHtml q%"italic.tmpl" = some h_italic := by
  rw [← h_italic_is, Mode.compile, Mode.compile, docs_builtin' _ (by simp)]

theorem d_rawhtml_is : htmlMode.compile docsHtml q%"raw-html.tmpl" = some h_rawhtml := by
  rw [← h_rawhtml_is, Mode.compile, Mode.compile, docs_builtin' _ (by simp)]

theorem d_reference_is : htmlMode.compile docsHtml q%"reference.tmpl" = some h_reference := by
  rw [← h_reference_is, Mode.compile, Mode.compile, docs_builtin' _ (by simp)]

theorem exec_definition {E : Env} (hE : E.isHtml = true) (st b c u) :
    execL E (.content (.styled st b c [(q%"Thumb", u)])) (.content (.styled st b c [(q%"Thumb", u)])) [] d_definition =
      (E.render u).bind fun t => (E.render c).map fun s =>
        q%"<div class=\"definition\">\n  <pre class=\"definition-thumb\">" ++ t ++ q%"</pre>\n\n  <div class=\"definition-content\">\n    " ++ s ++
          q%"\n  </div>\n</div>" := by
  rw [d_definition, execL_text, execL_act, execL_text, execL_act, execL_text, execL_nil]
  simp only [eval, evalL, Res.ok_bind', Res.ok_map']
  rw [show Val.field E (.content (.styled st b c [(q%"Thumb", u)])) .content [] = .ok (.content c) from rfl,
    show Val.field E (.content (.styled st b c [(q%"Thumb", u)])) .partial_ [.str q%"Thumb"] = .ok (.content u) from rfl]
  simp only [Res.ok_bind', Res.ok_map', Fn.apply, shown hE]
  cases E.render u with
  | ok t => cases E.render c <;> simp [Res.map, Res.bind]
  | _ => rfl

end Booklit.Tmpl
