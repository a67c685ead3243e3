import Verif.Model.Eval

/-!
The plugin of Booklit's documentation: `/repo/docs/go/plugin.go`. `LitSyntax` and `Define`, which call the highlighter, and `Godoc`, which
panics when there is no dot in its argument (the model's foreign methods do not panic), are in `Model/DocsLit.lean`.
-/

namespace Booklit

/-- `OutputFrame` (docs/go/plugin.go:57-68). -/
def outputFrame : Foreign where
  params := [.string]
  variadic := none
  run _ _ args := match args with
    | [.str url] => .content (.styled q%"output-frame" false (.link (.str url) url) [(q%"URL", .str url)])
    | _ => .other

/-- `SyntaxHl` (docs/go/plugin.go:70-75). -/
def syntaxHl : Foreign where
  params := [.content]
  variadic := none
  run _ _ args := match args with
    | [.content c] => .content (.styled q%"syntax-hl" false c [])
    | _ => .other

/-- `ColumnHeader` (docs/go/plugin.go:77-83). -/
def columnHeader : Foreign where
  params := [.content]
  variadic := none
  run _ _ args := match args with
    | [.content c] => .content (.styled q%"column-header" true c [])
    | _ => .other

/-- The contents among arguments. -/
def Raw.contents : List Raw → List Content
  | [] => []
  | .content c :: as => c :: Raw.contents as
  | _ :: as => Raw.contents as

/-- The strings among arguments. -/
def Raw.strings : List Raw → List Str
  | [] => []
  | .str s :: as => s :: Raw.strings as
  | _ :: as => Raw.strings as

/-- `Columns` (docs/go/plugin.go:85-94). -/
def columns : Foreign where
  params := [.content]
  variadic := some .content
  run _ _ args := match args with
    | .content title :: rest => .content (.styled q%"columns" true title [(q%"Columns", .seq (Raw.contents rest))])
    | _ => .other

/-- `TemplateLink` (docs/go/plugin.go:164-172). `Link` is that of baselit (baselit/plugin.go:187-192). -/
def templateLink : Foreign where
  params := [.string]
  variadic := none
  run _ _ args := match args with
    | [.str tmpl] => .both (.link (.styled q%"verbatim" false (.str tmpl) []) (q%"https://github.com/vito/booklit/blob/master/render/html/" ++ tmpl)) none
    | _ => .other

/-- `DescribeFruit` (docs/go/plugin.go:222-257). -/
def describeFruit : Foreign where
  params := [.string, .content]
  variadic := some .string
  run h i args := match args with
    | .str name :: .content definition :: rest =>
      if name = [] then .both .nil (some (.plain q%"name cannot be blank"))
      else
        let tags := if Raw.strings rest = [] then [name] else Raw.strings rest
        .both (.seq (tags.map (fun g => .target g (h.get i).invokeLoc (.str name) definition) ++
          [.para [.styled q%"bold" false (.str name) []], definition])) none
    | _ => .other

/-- The methods of the plugin (docs/go/plugin.go:43-55). -/
def docsMethods : List (Str × Foreign) :=
  [(q%"OutputFrame", outputFrame), (q%"SyntaxHl", syntaxHl), (q%"ColumnHeader", columnHeader), (q%"Columns", columns),
   (q%"TemplateLink", templateLink), (q%"DescribeFruit", describeFruit)]

/-- The program with this plugin (docs/go/plugin.go:17-18): it is number 1. -/
def docsRegistry (name : Str) : Option Nat := if name = q%"booklitdoc" then some 1 else if name = q%"baselit" then some 0 else none

def docsForeign (p : Nat) (name : Str) : Option Foreign := if p = 1 then docsMethods.lookup name else none

end Booklit
