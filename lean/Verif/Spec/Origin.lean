import Verif.Spec.Outline
import Verif.Spec.Parts
import Verif.Spec.Syntax

/-!
Specification for C63 and C64: where contents, locations and errors come from.
-/

namespace Booklit

/-- The file `p` has the node `n`. -/
def World.Has (W : World) (p : Str) (n : Node) : Prop := ∃ t, W.Wrote p t ∧ n ∈ t.subs

/-- The file `p` has a call at `l`. -/
def World.Place (W : World) (p : Str) (l : Location) : Prop := ∃ fn args, W.Has p (.invoke fn args l)

/-- The text of the file `p` has a call of `fn` at `l`. -/
def World.CallIn (W : World) (p fn : Str) (l : Location) : Prop :=
  ∃ info d, W.fs p = some info ∧ info.data = some d ∧ CallAt d fn l

/-- `Origin W F p i c`: the content `c`, found in section `i` of file `p`, is there because of something written in the
file: texts are texts of the file, references are made by a `\reference` of the file to that tag, and so on. Only the
direct origin is meant; parts have their own. `F` is what plugins other than baselit make. -/
inductive Origin (W : World) (F : Content → Prop) (p : Str) (i : Nat) : Content → Prop
  /-- An optional content that is not given. -/
  | none : Origin W F p i .nil
  /-- The title or body of a section that has none. -/
  | empty : Origin W F p i (.str [])
  | text {s : Str} : W.Has p (.str s) → Origin W F p i (.str s)
  | seq (cs : List Content) : Origin W F p i (.seq cs)
  | para {ls : List (List Node)} {cs : List Content} : W.Has p (.para ls) → Origin W F p i (.para cs)
  | pre {ls : List (List Node)} {cs : List Content} : W.Has p (.pre ls) → Origin W F p i (.pre cs)
  | aux {fn : Str} {args : List Node} {l : Location} {c : Content} : W.Has p (.invoke fn args l) →
      methodName fn = q%"Aux" → Origin W F p i (.aux c)
  | toc {fn : Str} {args : List Node} {l : Location} : W.Has p (.invoke fn args l) →
      methodName fn = q%"TableOfContents" → Origin W F p i (.toc i)
  | styled {fn : Str} {args : List Node} {l : Location} {s : Str} {c : Content} : W.Has p (.invoke fn args l) →
      (methodName fn, Base.style s) ∈ baseMethods → Origin W F p i (.styled s false c [])
  | link {fn : Str} {args : List Node} {l : Location} {c : Content} {u : Str} : W.Has p (.invoke fn args l) →
      methodName fn = q%"Link" → (∃ b, args[1]? = some b ∧ b.gives u) → Origin W F p i (.link c u)
  /-- A reference looks for the tag that is written, from the section it is in. -/
  | ref {fn : Str} {a : Node} {as : List Node} {l l' : Location} {t : Str} {c : Content} : W.Has p (.invoke fn (a :: as) l') →
      methodName fn = q%"Reference" → a.gives t → W.Place p l → Origin W F p i (.ref i t c false l)
  | target {fn : Str} {a : Node} {as : List Node} {l l' : Location} {t : Str} {c d : Content} :
      W.Has p (.invoke fn (a :: as) l') → methodName fn = q%"Target" → a.gives t → W.Place p l →
      Origin W F p i (.target t l c d)
  /-- A target without title is titled by its tag. -/
  | name {fn : Str} {a : Node} {as : List Node} {l : Location} {t : Str} : W.Has p (.invoke fn (a :: as) l) →
      methodName fn = q%"Target" → a.gives t → Origin W F p i (.str t)
  | list {fn : Str} {args : List Node} {l : Location} {cs : List Content} : W.Has p (.invoke fn args l) →
      methodName fn ∈ [q%"List", q%"TableRow", q%"Definition"] → Origin W F p i (.list cs false)
  | orderedList {fn : Str} {args : List Node} {l : Location} {cs : List Content} : W.Has p (.invoke fn args l) →
      methodName fn = q%"OrderedList" → Origin W F p i (.list cs true)
  | image {fn : Str} {a : Node} {as : List Node} {l : Location} {u d : Str} : W.Has p (.invoke fn (a :: as) l) →
      methodName fn = q%"Image" → a.gives u → (d = [] ∨ ∃ b ∈ as, b.gives d) → Origin W F p i (.image u d)
  | table {fn : Str} {args : List Node} {l : Location} {rs : List (List Content)} : W.Has p (.invoke fn args l) →
      methodName fn = q%"Table" → Origin W F p i (.table rs)
  | defs {fn : Str} {args : List Node} {l : Location} {ds : List (Content × Content)} : W.Has p (.invoke fn args l) →
      methodName fn = q%"Definitions" → Origin W F p i (.defs ds)
  | plugin {c : Content} : F c → Origin W F p i c

/-- Every part has an origin. -/
def Origins (W : World) (F : Content → Prop) (p : Str) (i : Nat) (c : Content) : Prop :=
  ∀ d ∈ c.parts true, Origin W F p i d

/-- What other plugins make: parts of what they are given, or parts that satisfy `F`. -/
def World.Makes (W : World) (F : Content → Prop) : Prop :=
  ∀ q name f, W.foreign q name = some f → ∀ h i args c, (f.run h i args = .content c ∨ f.run h i args = .both c none) →
    ∀ d ∈ c.parts true, F d ∨ ∃ a, Raw.content a ∈ args ∧ d ∈ a.parts true

/-- The errors other plugins return. -/
def World.Fails (W : World) (G : Err → Prop) : Prop :=
  ∀ q name f, W.foreign q name = some f → ∀ h i args e,
    (f.run h i args = .error (some e) ∨ ∃ c, f.run h i args = .both c (some e)) → G e

/-- `ErrorFrom W G e`: the error `e` tells the truth about the file and place it comes from. `G` are errors made by other
plugins. -/
inductive ErrorFrom (W : World) (G : Err → Prop) : Err → Prop
  | plain (what : Str) : ErrorFrom W G (.plain what)
  /-- The file really does not parse, and this is where. -/
  | parse {p d : Str} {l : Location} {info : FileInfo} : W.fs p = some info → info.data = some d →
      Peg.parseDoc d = some (.err l) → ErrorFrom W G (.parse p l)
  /-- There is a call of the function at this place of the file. -/
  | undefined {p fn : Str} {l : Location} {args : List Node} : W.Has p (.invoke fn args l) →
      ErrorFrom W G (.undefined fn p l)
  | failed {p fn : Str} {l : Location} {args : List Node} {e : Err} : W.Has p (.invoke fn args l) → ErrorFrom W G e →
      e.pretty = false → ErrorFrom W G (.failed fn e p l)
  /-- Both places are calls in the file. -/
  | titleTwice {p : Str} {l l' : Location} : W.Place p l → W.Place p l' → ErrorFrom W G (.titleTwice p l l')
  | plugin {e : Err} : G e → ErrorFrom W G e

/-- The file a section belongs to. -/
inductive FileOf (h : Heap) : Nat → Str → Prop
  | own {i : Nat} : (h.get i).path ≠ [] → FileOf h i (h.get i).path
  | up {i j : Nat} {p : Str} : (h.get i).path = [] → (h.get i).parent = some j → FileOf h j p → FileOf h i p
  | top {i : Nat} : (h.get i).path = [] → (h.get i).parent = none → FileOf h i []

end Booklit
