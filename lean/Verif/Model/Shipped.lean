import Verif.Model.Engine

/-!
The templates that come with Booklit, character by character: what `/repo/render/html/bindata.go` and
`/repo/render/text/bindata.go` hold (compressed). These are the texts of the files `/repo/render/html/*.tmpl` and
`/repo/render/text/*.tmpl`, but for `reference.tmpl`, of which `bindata.go` holds an older text.
-/

namespace Booklit.Tmpl

open Booklit Booklit.Templates

/-- The text of the file `/repo/render/html/reference.tmpl`. -/
def referenceFile : Str :=
  q%"{{- if .Tag -}}\n<a href=\"{{.Tag | url}}\">\n  {{- .Display | stripAux | render -}}\n</a>\n{{- else -}}\n  {{- .Content | stripAux | render -}}\n{{- end -}}\n"

/-- The files in `/repo/render/html/bindata.go`: their names without `.tmpl`, and their texts. -/
def builtinHtmlFiles : List (Str × Str) :=
  [(q%"aside", q%"<blockquote class=\"aside\">{{.Content | render}}</blockquote>\n"),
   (q%"bold", q%"<strong>{{.Content | render}}</strong>\n"),
   (q%"definitions", q%"<dl>\n  {{range .}}\n  <dt>{{.Subject | render}}</dt>\n    <dd>{{.Definition | render}}</dd>\n  {{end}}\n</dl>\n"),
   (q%"image", q%"<img src=\"{{.Path}}\" alt=\"{{.Description}}\" />\n"),
   (q%"inset", q%"<div style=\"margin: 0 2em 1em\" class=\"inset\">{{.Content | render}}</div>\n"),
   (q%"italic", q%"<em>{{.Content | render}}</em>\n"),
   (q%"larger", q%"<span style=\"font-size: 120%\">{{.Content | render}}</span>\n"),
   (q%"link", q%"<a href=\"{{.Target}}\">{{.Content | render}}</a>\n"),
   (q%"list", q%"{{if .Ordered}}<ol>{{else}}<ul>{{end}}\n{{range .Items}}\n  <li>{{. | render}}</li>\n{{end}}\n{{if .Ordered}}</ol>{{else}}</ul>{{end}}\n"),
   (q%"page", q%"<!DOCTYPE html>\n<html>\n  <head>\n    <meta http-equiv=\"content-type\" content=\"text/html; charset=utf-8\" />\n    <title>{{.Title.String}}</title>\n  </head>\n  <body>\n    {{. | render}}\n  </body>\n</html>\n"),
   (q%"paragraph", q%"<p>{{range $index, $line := .}}{{if $index}} {{end}}{{$line | render}}{{end}}</p>\n"),
   (q%"preformatted", q%"{{range $index, $line := .}}{{if $index}}\n{{end}}{{$line | render}}{{end}}\n"),
   (q%"raw-html", q%"{{. | rawHTML}}\n"),
   (q%"reference", q%"{{if .Tag}}<a href=\"{{.Tag | url}}\">{{.Display | stripAux | render}}</a>{{else}}{{.Content | stripAux | render}}{{end}}\n"),
   (q%"section", q%"<h{{headerDepth .}} class=\"section-header\"><a id=\"{{.PrimaryTag.Name}}\"></a>\n  {{- if .Parent -}}\n    <span class=\"section-number\">{{.Number}} </span>\n  {{- end -}}\n  {{.Title | render -}}\n</h{{headerDepth .}}>\n\n{{.Body | render}}\n\n{{if not .SplitSections}}\n  {{range .Children}}\n    {{. | render}}\n  {{end}}\n{{end}}\n"),
   (q%"sequence", q%"{{range .Contents}}{{. | render}}{{end}}\n"),
   (q%"smaller", q%"<span style=\"font-size: 80%\">{{.Content | render}}</span>\n"),
   (q%"strike", q%"<span style=\"text-decoration: line-through\">{{.Content | render}}</span>\n"),
   (q%"string", q%"{{.String}}\n"),
   (q%"subscript", q%"<sub>{{.Content | render}}</sub>\n"),
   (q%"superscript", q%"<sup>{{.Content | render}}</sup>\n"),
   (q%"table", q%"<table>\n  {{range .Rows}}\n  <tr>\n    {{range .}}\n    <td>{{. | render}}</td>\n    {{end}}\n  </tr>\n  {{end}}\n</table>\n"),
   (q%"target", q%"<a id=\"{{.TagName}}\"></a>\n"),
   (q%"toc", q%"{{if and .Children (not .OmitChildrenFromTableOfContents)}}\n<nav>\n  <ul>\n  {{range .Children}}\n    <li>\n      <a href=\"{{.PrimaryTag | url}}\">{{.Number}} {{.Title | stripAux | render}}</a>\n\n      {{template \"toc.tmpl\" .}}\n    </li>\n  {{end}}\n  </ul>\n</nav>\n{{end}}\n"),
   (q%"verbatim", q%"{{if .IsFlow}}<code>{{.Content | render}}</code>{{else}}<pre>{{.Content | render}}</pre>{{end}}\n")]

/-- The files in `/repo/render/text/bindata.go`: their names without `.tmpl`, and their texts. -/
def builtinTextFiles : List (Str × Str) :=
  [(q%"inset", q%"    {{.Content | render | joinLines \"    \"}}\n"),
   (q%"page", q%"{{.Title.String}}\n\n{{. | render}}"),
   (q%"paragraph", q%"{{range $index, $line := .}}{{if $index}} {{end}}{{$line | render}}{{end}}\n\n{{\"\"}}\n"),
   (q%"preformatted", q%"{{range $index, $line := .}}{{if $index}}\n{{end}}{{$line | render}}{{end}}\n"),
   (q%"section", q%"{{if .Parent}}{{.Number}} {{end}}{{.Title | render -}}\n\n{{.Body | render}}\n\n{{if not .SplitSections}}\n{{range .Children}}\n{{. | render}}\n{{end}}\n{{end}}\n"),
   (q%"sequence", q%"{{range .Contents}}{{. | render}}{{end}}\n"),
   (q%"string", q%"{{.String}}\n"),
   (q%"toc", q%"{{if and .Children (not .OmitChildrenFromTableOfContents)}}\n{{range .Children}}\n{{.Number}} {{.Title | stripAux | render}}\n\n{{template \"toc.tmpl\" .}}\n{{end}}\n{{end}}\n")]

/-- The set of templates an engine starts with: `init` (html.go:60-76, text.go:43-59) parses every file under its name, without
the newlines at its end. -/
def builtinSet (files : List (Str × Str)) : TSet := fun f =>
  (files.find? fun p => p.1 ++ q%".tmpl" == f).map fun p => trimNewlines p.2

/-- `initHTMLTmpl` (html.go:18, 60-76). -/
def builtinHtml : TSet := builtinSet builtinHtmlFiles

/-- `initTextTmpl` (text.go:19, 43-59). -/
def builtinText : TSet := builtinSet builtinTextFiles

end Booklit.Tmpl
