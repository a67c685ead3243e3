import Verif.Model.Chroma

/-!
The methods of the plugin of Booklit's documentation that show Booklit code (`/repo/docs/go/plugin.go`): `LitSyntax`, `Define` and
`Godoc`. Unlike the methods in `Model/DocsPlugin.lean` they may panic, so they are functions of their own.
-/

namespace Booklit

/-- `Pattern.FindAllStringIndex(_, -1)` for a pattern of which `len` tells how long its match at the beginning of a text is, 0 if there is
none: from left to right, going on after each match. `n` is the position in the whole text, `k` how many characters belong to the
last match. -/
def findAll (len : Str → Nat) : Nat → Nat → Str → List (Nat × Nat)
  | _, _, [] => []
  | n, k + 1, _ :: s => findAll len (n + 1) k s
  | n, 0, c :: s =>
    match len (c :: s) with
    | 0 => findAll len (n + 1) 0 s
    | k + 1 => (n, n + (k + 1)) :: findAll len (n + 1) k s

/-- The pattern `\\([a-z-]+)` (docs/go/plugin.go:98). -/
def callLen : Str → Nat
  | [] => 0
  | c :: s =>
    let name := s.takeWhile fun d => d == '-' || (decide ('a' ≤ d) && decide (d ≤ 'z'))
    if c = '\\' ∧ name ≠ [] then name.length + 1 else 0

/-- The pattern `\{[^\}]+\}` (docs/go/plugin.go:116). -/
def argLen : Str → Nat
  | [] => 0
  | c :: s =>
    let arg := s.takeWhile (· ≠ '}')
    if c = '{' ∧ arg ≠ [] ∧ arg.length < s.length then arg.length + 2 else 0

/-- `strings.TrimPrefix` for a prefix of one character. -/
def trimPrefix1 (p : Char) : Str → Str
  | [] => []
  | c :: s => if c = p then s else c :: s

/-- `strings.TrimSuffix` for a suffix of one character. -/
def trimSuffix1 (p : Char) (s : Str) : Str := if s.getLast? = some p then s.dropLast else s

/-- `linkTransformer` (docs/go/plugin.go:96-113) for section `i`. -/
def linkTransformer (i : Nat) : Transformer where
  find := findAll callLen 0 0
  make invoke :=
    .seq [.str ['\\'], .ref i (trimPrefix1 '\\' invoke) (.str (trimPrefix1 '\\' invoke)) true Location.zero]

/-- `argTransformer` (docs/go/plugin.go:115-128). -/
def argTransformer : Transformer where
  find := findAll argLen 0 0
  make farg :=
    .seq [.str ['{'], .styled q%"italic" false (.str (trimPrefix1 '{' (trimSuffix1 '}' farg))) [], .str ['}']]

/-- `LitSyntax` (docs/go/plugin.go:130-145) in section `i`. -/
def litSyntax (h : Heap) (brokenOk : Bool) (k : Nat) (highlight : Str → Str → Bool → Option Str) (i : Nat) (code : Content) :
    Res Content :=
  (syntaxTransform h brokenOk k highlight q%"lit" code [linkTransformer i]).bind fun syn =>
    match isFlow code with
    | none => .panic
    | some flow => .ok (.styled (if flow then q%"lit-flow" else q%"lit-block") false syn [])

/-- `Godoc` (docs/go/plugin.go:147-162). The index `spl[1]` is out of range when there is no dot. -/
def godoc (ref : Str) : Res Content :=
  let first := ref.takeWhile (· ≠ '.')
  match ref.drop first.length with
  | [] => .panic
  | _ :: second => .ok (.link
      (.styled q%"verbatim" false (.seq [.str (first ++ ['.']), .styled q%"bold" false (.str second) []]) [])
      (q%"https://pkg.go.dev/github.com/vito/" ++ first.dropWhile (· == '*') ++ ['#'] ++ second))

/-- `renderInvoke` (docs/go/plugin.go:205-219). `spell` is what `fmt.Sprintf("%s", n)` makes of nodes other than texts. An argument that is
no sequence makes the type assertion panic: `none`. -/
def renderArgs (spell : Node → Str) : List Node → Option Str
  | [] => some []
  | .seq ns :: as => (renderArgs spell as).map fun t =>
      ['{'] ++ (ns.flatMap fun n => match n with
        | .str s => s
        | n => spell n) ++ ['}'] ++ t
  | _ :: _ => none

/-- `Define` (docs/go/plugin.go:174-203) in section `i`. -/
def define (h : Heap) (brokenOk : Bool) (k : Nat) (highlight : Str → Str → Bool → Option Str) (spell : Node → Str) (i : Nat) (node : Node)
    (content : Content) : Res Content :=
  match node with
  | .seq (.invoke fn args _ :: _) =>
    (syntaxTransform h brokenOk k highlight q%"lit" (.str ('\\' :: fn)) []).bind fun title =>
      match renderArgs spell args with
      | none => .panic
      | some t =>
        (syntaxTransform h brokenOk k highlight q%"lit" (.str ('\\' :: fn ++ t)) [linkTransformer i, argTransformer]).bind fun thumb =>
          .ok (.styled q%"definition" false content
            [(q%"Thumb", .seq [.target fn (h.get i).invokeLoc title content, thumb])])
  | _ => .panic

end Booklit
