import Verif.Model.Shipped

/-!
The templates of Booklit's own documentation, character by character: the files `/repo/docs/html/*.tmpl`. They are loaded
over those that come with Booklit. `sidebar.tmpl` is left out: it uses `define`, which is not modelled, and no template and
no document uses it.
-/

namespace Booklit.Tmpl

open Booklit Booklit.Templates

/-- The files in `/repo/docs/html`. -/
def docsDir : Dir :=
  [(q%"big-code.tmpl", ⟨1, q%"<code class=\"big\">{{.Content | render}}</code>\n"⟩),
   (q%"code-block.tmpl", ⟨1, q%"<div class=\"highlight\">{{.Content | render}}</div>\n"⟩),
   (q%"code-flow.tmpl", ⟨1, q%"<code class=\"highlight\">{{.Content | render}}</code>\n"⟩),
   (q%"column-header.tmpl", ⟨1, q%"<div class=\"column-header\">{{.Content | render}}</div>\n"⟩),
   (q%"columns.tmpl", ⟨1, q%"<div class=\"columns\">\n  <div class=\"column title\">{{.Content | render}}</div>\n  {{range .Partial \"Columns\"}}\n  <div class=\"column\">{{. | render}}</div>\n  {{end}}\n</div>\n"⟩),
   (q%"definition.tmpl", ⟨1, q%"<div class=\"definition\">\n  <pre class=\"definition-thumb\">{{.Partial \"Thumb\" | render}}</pre>\n\n  <div class=\"definition-content\">\n    {{.Content | render}}\n  </div>\n</div>\n"⟩),
   (q%"lit-block.tmpl", ⟨1, q%"<div class=\"lit-syntax\">{{.Content | render}}</div>\n"⟩),
   (q%"lit-flow.tmpl", ⟨1, q%"<code class=\"highlight\">{{.Content | render}}</code>\n"⟩),
   (q%"output-frame.tmpl", ⟨1, q%"<iframe class=\"output-frame\" scrolling=\"no\" src=\"{{.Partial \"URL\" | render}}\"></iframe>\n"⟩),
   (q%"page.tmpl", ⟨1, q%"<!DOCTYPE html>\n<html>\n  <head>\n    <meta http-equiv=\"content-type\" content=\"text/html; charset=utf-8\" />\n    <meta name=\"viewport\" content=\"width=device-width\" />\n    <title>{{.Title.String}}</title>\n    <link rel=\"stylesheet\" type=\"text/css\" href=\"css/iosevka.css\" />\n    <link rel=\"stylesheet\" type=\"text/css\" href=\"css/booklit.css\" />\n    <link rel=\"shortcut icon\" type=\"image/x-icon\" href=\"favicon.ico\" />\n  </head>\n  <body>\n    <div class=\"page{{if not .Parent}} top{{end}}\">\n      <div class=\"page-header\">\n        <a href=\"{{.Top.PrimaryTag | url}}\">Booklit</a>\n        <p class=\"tagline\">the little static site engine that could</p>\n      </div>\n\n      <nav class=\"top-nav\">\n        <ul>\n        {{range .Top.Children}}\n          <li{{if .Contains $}} class=\"current\"{{end}}><a href=\"{{.PrimaryTag | url}}\">{{.Title | stripAux | render}}</a></li>\n        {{end}}\n        </ul>\n      </nav>\n\n      {{. | render}}\n    </div>\n    <script data-goatcounter=\"https://booklit.goatcounter.com/count\" async src=\"//gc.zgo.at/count.js\"></script>\n  </body>\n</html>\n"⟩),
   (q%"section.tmpl", ⟨1, q%"<h{{headerDepth .}} class=\"section-header\"><a id=\"{{.PrimaryTag.Name}}\"></a>\n  {{- if .Parent -}}\n    <span class=\"section-number\"><a href=\"{{.PrimaryTag | url}}\">{{.Number}}</a> </span>\n  {{- end -}}\n  {{.Title | render -}}\n</h{{headerDepth .}}>\n\n{{.Body | render}}\n\n{{if not .SplitSections}}\n  {{range .Children}}\n    {{. | render}}\n  {{end}}\n{{end}}\n"⟩),
   (q%"splash.tmpl", ⟨1, q%"{{.Body | render}}\n"⟩),
   (q%"syntax-hl.tmpl", ⟨1, q%"<span class=\"syntax-hl\">{{.Content | render}}</span>\n"⟩),
   (q%"tagline.tmpl", ⟨1, q%"<blockquote class=\"tagline\">{{.Content | render}}</blockquote>\n"⟩)]


/-- The templates of the documentation: `--html-templates docs/html` (`LoadTemplates`, html.go:109-153). -/
def docsHtml : TSet := ((langOf htmlMode).loadTemplates builtinHtml docsDir (.new builtinHtml)).2.tmpl

end Booklit.Tmpl
