import Verif.Model.Text

/-!
The chroma plugin: `/repo/chroma/plugin.go`. Its lexer (booklit_lexer.go) is in `Model/Lexer.lean`;
the highlighter itself, a dependency, is not modelled.
-/

namespace Booklit

/-- `Transformer` (plugin.go:51-54). `find` is `Pattern.FindAllStringIndex(_, -1)`: the matches as pairs of start and end.
Simplification: positions count characters, not bytes; matches of a regular expression in valid UTF-8 start and end
between characters. -/
structure Transformer where
  find : Str → List (Nat × Nat)
  make : Str → Content

/-- `str[a:b]`. -/
def slice (s : Str) (a b : Nat) : Str := (s.take b).drop a

/-- The loop of `TransformAll` and the rest after it (plugin.go:60-75). -/
def transformLoop (make : Str → Content) (s : Str) : Nat → List (Nat × Nat) → List Content
  | last, [] => if s.length > last then [.str (s.drop last)] else []
  | last, (a, b) :: ms =>
    (if a > last then [.str (slice s last a)] else []) ++ make (slice s a b) :: transformLoop make s b ms

/-- `TransformAll` (plugin.go:56-76). -/
def Transformer.transformAll (t : Transformer) (s : Str) : List Content := transformLoop t.make s 0 (t.find s)

/-- One round of the loop over the transformers (plugin.go:107-117). -/
def Transformer.onAll (t : Transformer) : List Content → List Content
  | [] => []
  | .str s :: cs => t.transformAll s ++ t.onAll cs
  | c :: cs => c :: t.onAll cs

/-- The loop over the transformers (plugin.go:106-118). -/
def onAllOf : List Transformer → List Content → List Content
  | [], cs => cs
  | t :: ts, cs => onAllOf ts (t.onAll cs)

/-- The last loop (plugin.go:120-127). -/
def wrapRaw : List Content → List Content
  | [] => []
  | .str s :: cs => .styled q%"raw-html" false (.str s) [] :: wrapRaw cs
  | c :: cs => c :: wrapRaw cs

/-- `SyntaxTransform` (plugin.go:78-137). `highlight` is the highlighter given the language, the code and whether to leave
out the surrounding `<pre>`; `none` is an error. -/
def syntaxTransform (h : Heap) (brokenOk : Bool) (k : Nat) (highlight : Str → Str → Bool → Option Str) (lang : Str)
    (code : Content) (ts : List Transformer) : Res Content :=
  (h.text brokenOk k code).bind fun t =>
    match isFlow code with
    | none => .panic
    | some flow =>
      match highlight lang t flow with
      | none => .err (.plain q%"highlighter")
      | some html =>
        .ok (.styled (if flow then q%"code-flow" else q%"code-block") (!flow)
          (.seq (wrapRaw (onAllOf ts [.str html]))) [(q%"Language", .str lang)])

end Booklit
