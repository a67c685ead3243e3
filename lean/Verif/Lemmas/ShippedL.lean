import Verif.Model.Shipped

/-!
What the texts of the templates that come with Booklit are compiled to.
-/

namespace Booklit.Tmpl

open Booklit Booklit.Templates

set_option maxRecDepth 100000

/-- render/html/aside.tmpl. -/
def h_aside : List TNode :=
  [.text q%"<blockquote class=\"aside\">", .act .text (.call .render [(.field .dot .content [])]),
    .text q%"</blockquote>"]

theorem h_aside_is : htmlMode.compile builtinHtml q%"aside.tmpl" = some h_aside := by
  rfl

/-- render/html/bold.tmpl. -/
def h_bold : List TNode :=
  [.text q%"<strong>", .act .text (.call .render [(.field .dot .content [])]), .text q%"</strong>"]

theorem h_bold_is : htmlMode.compile builtinHtml q%"bold.tmpl" = some h_bold := by
  rfl

/-- render/html/definitions.tmpl. -/
def h_definitions : List TNode :=
  [.text q%"<dl>\n  ", .loop none none .dot [.text q%"\n  <dt>",
    .act .text (.call .render [(.field .dot .subject [])]), .text q%"</dt>\n    <dd>",
    .act .text (.call .render [(.field .dot .definition [])]), .text q%"</dd>\n  "] [], .text q%"\n</dl>"]

theorem h_definitions_is : htmlMode.compile builtinHtml q%"definitions.tmpl" = some h_definitions := by
  rfl

/-- render/html/image.tmpl. -/
def h_image : List TNode :=
  [.text q%"<img src=\"", .act (.value none .url '"' .start) (.field .dot .path []), .text q%"\" alt=\"",
    .act (.value none .plain '"' .start) (.field .dot .description []), .text q%"\" />"]

theorem h_image_is : htmlMode.compile builtinHtml q%"image.tmpl" = some h_image := by
  rfl

/-- render/html/inset.tmpl. -/
def h_inset : List TNode :=
  [.text q%"<div style=\"margin: 0 2em 1em\" class=\"inset\">",
    .act .text (.call .render [(.field .dot .content [])]), .text q%"</div>"]

theorem h_inset_is : htmlMode.compile builtinHtml q%"inset.tmpl" = some h_inset := by
  rfl

/-- render/html/italic.tmpl. -/
def h_italic : List TNode :=
  [.text q%"<em>", .act .text (.call .render [(.field .dot .content [])]), .text q%"</em>"]

theorem h_italic_is : htmlMode.compile builtinHtml q%"italic.tmpl" = some h_italic := by
  rfl

/-- render/html/larger.tmpl. -/
def h_larger : List TNode :=
  [.text q%"<span style=\"font-size: 120%\">", .act .text (.call .render [(.field .dot .content [])]),
    .text q%"</span>"]

theorem h_larger_is : htmlMode.compile builtinHtml q%"larger.tmpl" = some h_larger := by
  rfl

/-- render/html/link.tmpl. -/
def h_link : List TNode :=
  [.text q%"<a href=\"", .act (.value none .url '"' .start) (.field .dot .target []), .text q%"\">",
    .act .text (.call .render [(.field .dot .content [])]), .text q%"</a>"]

theorem h_link_is : htmlMode.compile builtinHtml q%"link.tmpl" = some h_link := by
  rfl

/-- render/html/list.tmpl. -/
def h_list : List TNode :=
  [.ite (.field .dot .ordered []) [.text q%"<ol>"] [.text q%"<ul>"], .text q%"\n",
    .loop none none (.field .dot .items []) [.text q%"\n  <li>", .act .text (.call .render [.dot]),
    .text q%"</li>\n"] [], .text q%"\n", .ite (.field .dot .ordered []) [.text q%"</ol>"] [.text q%"</ul>"]]

theorem h_list_is : htmlMode.compile builtinHtml q%"list.tmpl" = some h_list := by
  rfl

/-- render/html/page.tmpl. -/
def h_page : List TNode :=

    [.text q%"<!DOCTYPE html>\n<html>\n  <head>\n    <meta http-equiv=\"content-type\" content=\"text/html; charset=utf-8\" />\n    <title>",
    .act (.raw .title) (.field (.field .dot .title []) .string []), .text q%"</title>\n  </head>\n  <body>\n    ",
    .act .text (.call .render [.dot]), .text q%"\n  </body>\n</html>"]

theorem h_page_is : htmlMode.compile builtinHtml q%"page.tmpl" = some h_page := by
  rfl

/-- render/html/paragraph.tmpl. -/
def h_paragraph : List TNode :=
  [.text q%"<p>", .loop (some q%"index") (some q%"line") .dot [.ite (.var q%"index") [.text q%" "] [],
    .act .text (.call .render [(.var q%"line")])] [], .text q%"</p>"]

theorem h_paragraph_is : htmlMode.compile builtinHtml q%"paragraph.tmpl" = some h_paragraph := by
  rfl

/-- render/html/preformatted.tmpl. -/
def h_preformatted : List TNode :=
  [.loop (some q%"index") (some q%"line") .dot [.ite (.var q%"index") [.text q%"\n"] [],
    .act .text (.call .render [(.var q%"line")])] []]

theorem h_preformatted_is : htmlMode.compile builtinHtml q%"preformatted.tmpl" = some h_preformatted := by
  rfl

/-- render/html/raw-html.tmpl. -/
def h_rawhtml : List TNode :=
  [.act .text (.call .rawHTML [.dot])]

theorem h_rawhtml_is : htmlMode.compile builtinHtml q%"raw-html.tmpl" = some h_rawhtml := by
  rfl

/-- render/html/reference.tmpl. -/
def h_reference : List TNode :=
  [.ite (.field .dot .tag []) [.text q%"<a href=\"",
    .act (.value none .url '"' .start) (.call .url [(.field .dot .tag [])]), .text q%"\">",
    .act .text (.call .render [(.call .stripAux [(.field .dot .display [])])]),
    .text q%"</a>"] [.act .text (.call .render [(.call .stripAux [(.field .dot .content [])])])]]

theorem h_reference_is : htmlMode.compile builtinHtml q%"reference.tmpl" = some h_reference := by
  rfl

/-- render/html/section.tmpl. -/
def h_section : List TNode :=
  [.text q%"<h", .act (.tagName none) (.call .headerDepth [.dot]), .text q%" class=\"section-header\"><a id=\"",
    .act (.value none .plain '"' .start) (.field (.field .dot .primaryTag []) .name []), .text q%"\"></a>",
    .ite (.field .dot .parent []) [.text q%"<span class=\"section-number\">", .act .text (.field .dot .number []),
    .text q%" </span>"] [], .act .text (.call .render [(.field .dot .title [])]), .text q%"</h",
    .act (.tagName none) (.call .headerDepth [.dot]), .text q%">\n\n",
    .act .text (.call .render [(.field .dot .body [])]), .text q%"\n\n",
    .ite (.call .not [(.field .dot .splitSections [])]) [.text q%"\n  ",
    .loop none none (.field .dot .children []) [.text q%"\n    ", .act .text (.call .render [.dot]),
    .text q%"\n  "] [], .text q%"\n"] []]

theorem h_section_is : htmlMode.compile builtinHtml q%"section.tmpl" = some h_section := by
  rfl

/-- render/html/sequence.tmpl. -/
def h_sequence : List TNode :=
  [.loop none none (.field .dot .contents []) [.act .text (.call .render [.dot])] []]

theorem h_sequence_is : htmlMode.compile builtinHtml q%"sequence.tmpl" = some h_sequence := by
  rfl

/-- render/html/smaller.tmpl. -/
def h_smaller : List TNode :=
  [.text q%"<span style=\"font-size: 80%\">", .act .text (.call .render [(.field .dot .content [])]),
    .text q%"</span>"]

theorem h_smaller_is : htmlMode.compile builtinHtml q%"smaller.tmpl" = some h_smaller := by
  rfl

/-- render/html/strike.tmpl. -/
def h_strike : List TNode :=
  [.text q%"<span style=\"text-decoration: line-through\">",
    .act .text (.call .render [(.field .dot .content [])]), .text q%"</span>"]

theorem h_strike_is : htmlMode.compile builtinHtml q%"strike.tmpl" = some h_strike := by
  rfl

/-- render/html/string.tmpl. -/
def h_string : List TNode :=
  [.act .text (.field .dot .string [])]

theorem h_string_is : htmlMode.compile builtinHtml q%"string.tmpl" = some h_string := by
  rfl

/-- render/html/subscript.tmpl. -/
def h_subscript : List TNode :=
  [.text q%"<sub>", .act .text (.call .render [(.field .dot .content [])]), .text q%"</sub>"]

theorem h_subscript_is : htmlMode.compile builtinHtml q%"subscript.tmpl" = some h_subscript := by
  rfl

/-- render/html/superscript.tmpl. -/
def h_superscript : List TNode :=
  [.text q%"<sup>", .act .text (.call .render [(.field .dot .content [])]), .text q%"</sup>"]

theorem h_superscript_is : htmlMode.compile builtinHtml q%"superscript.tmpl" = some h_superscript := by
  rfl

/-- render/html/table.tmpl. -/
def h_table : List TNode :=
  [.text q%"<table>\n  ", .loop none none (.field .dot .rows []) [.text q%"\n  <tr>\n    ",
    .loop none none .dot [.text q%"\n    <td>", .act .text (.call .render [.dot]), .text q%"</td>\n    "] [],
    .text q%"\n  </tr>\n  "] [], .text q%"\n</table>"]

theorem h_table_is : htmlMode.compile builtinHtml q%"table.tmpl" = some h_table := by
  rfl

/-- render/html/target.tmpl. -/
def h_target : List TNode :=
  [.text q%"<a id=\"", .act (.value none .plain '"' .start) (.field .dot .tagName []), .text q%"\"></a>"]

theorem h_target_is : htmlMode.compile builtinHtml q%"target.tmpl" = some h_target := by
  rfl

/-- render/html/toc.tmpl. -/
def h_toc : List TNode :=

    [.ite (.call .and [(.field .dot .children []), (.call .not [(.field .dot .omitToc [])])]) [.text q%"\n<nav>\n  <ul>\n  ",
    .loop none none (.field .dot .children []) [.text q%"\n    <li>\n      <a href=\"",
    .act (.value none .url '"' .start) (.call .url [(.field .dot .primaryTag [])]), .text q%"\">",
    .act .text (.field .dot .number []), .text q%" ",
    .act .text (.call .render [(.call .stripAux [(.field .dot .title [])])]), .text q%"</a>\n\n      ",
    .call q%"toc.tmpl" (some .dot), .text q%"\n    </li>\n  "] [], .text q%"\n  </ul>\n</nav>\n"] []]

theorem h_toc_is : htmlMode.compile builtinHtml q%"toc.tmpl" = some h_toc := by
  rfl

/-- render/html/verbatim.tmpl. -/
def h_verbatim : List TNode :=
  [.ite (.field .dot .isFlow []) [.text q%"<code>", .act .text (.call .render [(.field .dot .content [])]),
    .text q%"</code>"] [.text q%"<pre>", .act .text (.call .render [(.field .dot .content [])]), .text q%"</pre>"]]

theorem h_verbatim_is : htmlMode.compile builtinHtml q%"verbatim.tmpl" = some h_verbatim := by
  rfl

/-- render/text/inset.tmpl. -/
def t_inset : List TNode :=
  [.text q%"    ", .act .plain (.call .joinLines [(.str q%"    "), (.call .render [(.field .dot .content [])])])]

theorem t_inset_is (ext : Str) : (textMode ext).compile builtinText q%"inset.tmpl" = some t_inset := by
  rfl

/-- render/text/page.tmpl. -/
def t_page : List TNode :=
  [.act .plain (.field (.field .dot .title []) .string []), .text q%"\n\n", .act .plain (.call .render [.dot])]

theorem t_page_is (ext : Str) : (textMode ext).compile builtinText q%"page.tmpl" = some t_page := by
  rfl

/-- render/text/paragraph.tmpl. -/
def t_paragraph : List TNode :=
  [.loop (some q%"index") (some q%"line") .dot [.ite (.var q%"index") [.text q%" "] [],
    .act .plain (.call .render [(.var q%"line")])] [], .text q%"\n\n", .act .plain (.str q%"")]

theorem t_paragraph_is (ext : Str) : (textMode ext).compile builtinText q%"paragraph.tmpl" = some t_paragraph := by
  rfl

/-- render/text/preformatted.tmpl. -/
def t_preformatted : List TNode :=
  [.loop (some q%"index") (some q%"line") .dot [.ite (.var q%"index") [.text q%"\n"] [],
    .act .plain (.call .render [(.var q%"line")])] []]

theorem t_preformatted_is (ext : Str) : (textMode ext).compile builtinText q%"preformatted.tmpl" = some t_preformatted := by
  rfl

/-- render/text/section.tmpl. -/
def t_section : List TNode :=
  [.ite (.field .dot .parent []) [.act .plain (.field .dot .number []), .text q%" "] [],
    .act .plain (.call .render [(.field .dot .title [])]), .act .plain (.call .render [(.field .dot .body [])]),
    .text q%"\n\n", .ite (.call .not [(.field .dot .splitSections [])]) [.text q%"\n",
    .loop none none (.field .dot .children []) [.text q%"\n", .act .plain (.call .render [.dot]), .text q%"\n"] [],
    .text q%"\n"] []]

theorem t_section_is (ext : Str) : (textMode ext).compile builtinText q%"section.tmpl" = some t_section := by
  rfl

/-- render/text/sequence.tmpl. -/
def t_sequence : List TNode :=
  [.loop none none (.field .dot .contents []) [.act .plain (.call .render [.dot])] []]

theorem t_sequence_is (ext : Str) : (textMode ext).compile builtinText q%"sequence.tmpl" = some t_sequence := by
  rfl

/-- render/text/string.tmpl. -/
def t_string : List TNode :=
  [.act .plain (.field .dot .string [])]

theorem t_string_is (ext : Str) : (textMode ext).compile builtinText q%"string.tmpl" = some t_string := by
  rfl

/-- render/text/toc.tmpl. -/
def t_toc : List TNode :=
  [.ite (.call .and [(.field .dot .children []), (.call .not [(.field .dot .omitToc [])])]) [.text q%"\n",
    .loop none none (.field .dot .children []) [.text q%"\n", .act .plain (.field .dot .number []), .text q%" ",
    .act .plain (.call .render [(.call .stripAux [(.field .dot .title [])])]), .text q%"\n\n",
    .call q%"toc.tmpl" (some .dot), .text q%"\n"] [], .text q%"\n"] []]

theorem t_toc_is (ext : Str) : (textMode ext).compile builtinText q%"toc.tmpl" = some t_toc := by
  rfl

end Booklit.Tmpl
