import Verif.Spec.Tame
import Verif.Spec.Calls
import Verif.Spec.AuxText

/-!
Specification for C30 and C34: what the calls written in a document do to the sections, in source order.
-/

namespace Booklit

/-- What the calls of a document do to the section they are in, apart from its text. -/
structure Face where
  plugins : List Nat
  children : List Nat
  style : Str
  titleLoc : Location
  single : Bool
  resets : Bool
  splits : Bool
  omits : Bool
  parts : Str → Content

/-- The face of a section. -/
def Sec.face (x : Sec) : Face :=
  ⟨x.plugins, x.children, x.style, x.titleLoc, x.preventSplit, x.resetDepth, x.split, x.omitToc, x.partialOf⟩

/-- A section to which nothing has been done yet, with the plugins it starts with. -/
def Face.start (ps : List Nat) : Face := ⟨ps, [], [], Location.zero, false, false, false, false, fun _ => .nil⟩

/-- The methods that do something to the section they are called in. -/
def actions : List Str :=
  [q%"Section", q%"IncludeSection", q%"UsePlugin", q%"Styled", q%"Title", q%"SinglePage", q%"SplitSections",
   q%"OmitChildrenFromTableOfContents", q%"SetPartial"]

/-- A text given by a node: what is written, if the node is plain text. -/
def Node.gives (n : Node) (t : Str) : Prop := ∀ x, n.literal = some x → t = x

/-- `Runs W h lo up file ns f g`: the nodes `ns`, one after the other, in a section of the file `file` that looks like `f`,
make it look like `g`. The sections made on the way are in the heap `h`, from `lo` on; `up` says whether a section above has
been declared to be a single page. -/
inductive Runs (W : World) (h : Heap) (lo : Nat) : Bool → Str → List Node → Face → Face → Prop
  /-- Nothing. -/
  | nil {up : Bool} {file : Str} {f : Face} : Runs W h lo up file [] f f
  /-- Text does nothing. -/
  | str {up : Bool} {file : Str} {s : Str} {ns : List Node} {f g : Face} : Runs W h lo up file ns f g → Runs W h lo up file (.str s :: ns) f g
  /-- The nodes of a sequence, paragraph or preformatted text are in order. -/
  | seq {up : Bool} {file : Str} {ms ns : List Node} {f g k : Face} : Runs W h lo up file ms f g → Runs W h lo up file ns g k →
      Runs W h lo up file (.seq ms :: ns) f k
  | para {up : Bool} {file : Str} {ls : List (List Node)} {ns : List Node} {f g k : Face} : Runs W h lo up file ls.flatten f g →
      Runs W h lo up file ns g k → Runs W h lo up file (.para ls :: ns) f k
  | pre {up : Bool} {file : Str} {ls : List (List Node)} {ns : List Node} {f g k : Face} : Runs W h lo up file ls.flatten f g →
      Runs W h lo up file ns g k → Runs W h lo up file (.pre ls :: ns) f k
  /-- `\section` makes a child of the same file, with the plugins in use at this point, in which its argument is run. -/
  | inline {up : Bool} {file fn : Str} {n : Node} {loc : Location} {ns : List Node} {f k : Face} {c : Nat} :
      methodName fn = q%"Section" → lo ≤ c → c < h.length → (h.get c).path = [] → (h.get c).loc = loc →
      Runs W h lo (up || f.single) file [n] (Face.start f.plugins) (h.get c).face →
      Runs W h lo up file ns { f with children := f.children ++ [c] } k → Runs W h lo up file (.invoke fn [n] loc :: ns) f k
  /-- `\include-section` makes a child from the file it names, relative to the directory of this file; it starts with
  baselit only. -/
  | incl {up : Bool} {file fn : Str} {a n : Node} {p : Str} {loc : Location} {ns : List Node} {f g k : Face} {c : Nat} :
      methodName fn = q%"IncludeSection" → Runs W h lo up file [a] f g → a.gives p → lo ≤ c → c < h.length →
      (h.get c).path = joinPath (dirPath file) p → (h.get c).loc = Location.zero →
      W.Wrote (joinPath (dirPath file) p) n → Runs W h lo (up || g.single) (joinPath (dirPath file) p) [n] (Face.start [0]) (h.get c).face →
      Runs W h lo up file ns { g with children := g.children ++ [c] } k → Runs W h lo up file (.invoke fn [a] loc :: ns) f k
  /-- `\use-plugin` adds the plugin registered under the name. -/
  | use {up : Bool} {file fn : Str} {a : Node} {t : Str} {p : Nat} {loc : Location} {ns : List Node} {f g k : Face} :
      methodName fn = q%"UsePlugin" → Runs W h lo up file [a] f g → a.gives t → W.registry t = some p →
      Runs W h lo up file ns { g with plugins := g.plugins ++ [p] } k → Runs W h lo up file (.invoke fn [a] loc :: ns) f k
  /-- `\styled` sets the style. -/
  | styled {up : Bool} {file fn : Str} {a : Node} {t : Str} {loc : Location} {ns : List Node} {f g k : Face} :
      methodName fn = q%"Styled" → Runs W h lo up file [a] f g → a.gives t →
      Runs W h lo up file ns { g with style := t } k → Runs W h lo up file (.invoke fn [a] loc :: ns) f k
  /-- `\title` notes where it is, at least if there are no calls in its arguments (see `C38_false`). -/
  | title {up : Bool} {file fn : Str} {as : List Node} {l loc : Location} {ns : List Node} {f g k : Face} :
      methodName fn = q%"Title" → as ≠ [] → Runs W h lo up file as f g → ((∀ a ∈ as, a.callFree = true) → l = loc) →
      Runs W h lo up file ns { g with titleLoc := l } k → Runs W h lo up file (.invoke fn as loc :: ns) f k
  /-- `\single-page`, `\split-sections` and `\omit-children-from-table-of-contents` set a flag. `\split-sections` splits the
  section only if neither it nor one above it has been declared to be a single page. -/
  | single {up : Bool} {file fn : Str} {loc : Location} {ns : List Node} {f k : Face} : methodName fn = q%"SinglePage" →
      Runs W h lo up file ns { f with single := true } k → Runs W h lo up file (.invoke fn [] loc :: ns) f k
  | splits {up : Bool} {file fn : Str} {loc : Location} {ns : List Node} {f k : Face} : methodName fn = q%"SplitSections" →
      Runs W h lo up file ns { f with resets := true, splits := f.splits || !(up || f.single) } k → Runs W h lo up file (.invoke fn [] loc :: ns) f k
  | omits {up : Bool} {file fn : Str} {loc : Location} {ns : List Node} {f k : Face} :
      methodName fn = q%"OmitChildrenFromTableOfContents" →
      Runs W h lo up file ns { f with omits := true } k → Runs W h lo up file (.invoke fn [] loc :: ns) f k
  /-- `\set-partial` sets one partial; plain text is kept as it is. -/
  | part {up : Bool} {file fn : Str} {a b : Node} {t : Str} {c : Content} {loc : Location} {ns : List Node} {f g k : Face} :
      methodName fn = q%"SetPartial" → Runs W h lo up file [a, b] f g → a.gives t → b.gives (c.texts true).flatten →
      Runs W h lo up file ns { g with parts := fun x => if x = t then c else g.parts x } k →
      Runs W h lo up file (.invoke fn [a, b] loc :: ns) f k
  /-- Other calls do nothing themselves. -/
  | other {up : Bool} {file fn : Str} {as : List Node} {loc : Location} {ns : List Node} {f g k : Face} :
      methodName fn ∉ actions → Runs W h lo up file as f g → Runs W h lo up file ns g k →
      Runs W h lo up file (.invoke fn as loc :: ns) f k

/-- No plugin but baselit asks for unevaluated arguments. -/
def World.noNodes (W : World) : Prop :=
  ∀ p name f, W.foreign p name = some f → Ty.node ∉ f.params ∧ f.variadic ≠ some .node

/-- Section `i` of file `file`, which started with the plugins `ps`, below a section declared to be a single page if `up`, is
what running `n` makes of it. -/
def Follows (W : World) (h : Heap) (up : Bool) (file : Str) (ps : List Nat) (i : Nat) (n : Node) : Prop :=
  Runs W h 0 up file [n] (Face.start ps) (h.get i).face

/-- A call of `\section` or `\include-section`. -/
def Node.isKid : Node → Bool
  | .invoke fn _ _ => decide (methodName fn = q%"Section") || decide (methodName fn = q%"IncludeSection")
  | _ => false

/-- A call of `\single-page`. -/
def Node.isSingle : Node → Bool
  | .invoke fn _ _ => decide (methodName fn = q%"SinglePage")
  | _ => false

/-- A call of `\use-plugin`. -/
def Node.isUse : Node → Bool
  | .invoke fn _ _ => decide (methodName fn = q%"UsePlugin")
  | _ => false

mutual
/-- The calls that make children, add plugins and declare single pages, in the order in which they are run; what is in the argument of
`\section` is run in the child. -/
def Node.steps : Node → List Node
  | .str _ => []
  | .seq ns => stepsAll ns
  | .para ls => stepsLines ls
  | .pre ls => stepsLines ls
  | .invoke fn args loc =>
    if methodName fn = q%"Section" then [.invoke fn args loc]
    else stepsAll args ++
      if methodName fn = q%"IncludeSection" ∨ methodName fn = q%"UsePlugin" ∨ methodName fn = q%"SinglePage" then [.invoke fn args loc] else []
def stepsAll : List Node → List Node
  | [] => []
  | n :: ns => n.steps ++ stepsAll ns
def stepsLines : List (List Node) → List Node
  | [] => []
  | l :: ls => stepsAll l ++ stepsLines ls
end

/-- The calls of `\use-plugin` name these plugins. -/
def Uses (W : World) : List Node → List Nat → Prop
  | [], ps => ps = []
  | c :: cs, ps => ∃ fn a loc t p qs, c = .invoke fn [a] loc ∧ a.gives t ∧ W.registry t = some p ∧ ps = p :: qs ∧ Uses W cs qs

/-- Section `c` is what the call makes in a section of file `file` that has the plugins `ps` at that point, if `up` says
whether it or one above it has been declared to be a single page. -/
def IsChild (W : World) (h : Heap) (up : Bool) (file : Str) (ps : List Nat) (call : Node) (c : Nat) : Prop :=
  c < h.length ∧ ∃ fn a loc, call = .invoke fn [a] loc ∧
    ((methodName fn = q%"Section" ∧ (h.get c).path = [] ∧ (h.get c).loc = loc ∧ Follows W h up file ps c a) ∨
     (methodName fn = q%"IncludeSection" ∧ ∃ p n, a.gives p ∧ (h.get c).path = joinPath (dirPath file) p ∧
        (h.get c).loc = Location.zero ∧ W.Wrote (joinPath (dirPath file) p) n ∧
        Follows W h up (joinPath (dirPath file) p) [0] c n))

mutual
/-- The names of the methods that are called in the section itself, in order. -/
def Node.ran : Node → List Str
  | .str _ => []
  | .seq ns => ranAll ns
  | .para ls => ranLines ls
  | .pre ls => ranLines ls
  | .invoke fn args _ => (if methodName fn = q%"Section" then [] else ranAll args) ++ [methodName fn]
def ranAll : List Node → List Str
  | [] => []
  | n :: ns => n.ran ++ ranAll ns
def ranLines : List (List Node) → List Str
  | [] => []
  | l :: ls => ranAll l ++ ranLines ls
end

end Booklit
