import Verif.Model.Tmpl

/-!
Executing templates: `text/template/exec.go` (of the Go standard library, not part of /repo) on the values that the engines
of `/repo/render/html.go` and `/repo/render/text.go` pass to templates, for any set of templates.

Simplifications: `and` and `or` evaluate all their arguments. Printing nil, a tag or a list, and printing the HTML of
`render` or `rawHTML` anywhere but between tags, is counted as an error. What is written before an error occurs is left out. An
error in a template is `Err.plain` whatever its cause, except that of a reference that does not resolve.
-/

namespace Booklit.Tmpl

open Booklit Booklit.Templates

/-- Values in templates. `null` is a nil pointer, `html` is a `template.HTML` and `url` a `template.URL`. A section is
the content `sect`, a nil `Content` the content `nil`. -/
inductive Val where
  | null
  | bool (b : Bool)
  | num (n : Nat)
  | str (s : Str)
  | html (s : Str)
  | url (s : Str)
  | content (c : Content)
  | tag (g : Tag)
  | defn (a b : Content)
  /-- a `WalkContext` (common.go:5-10) -/
  | walk (current section_ : Option Nat)
  | list (vs : List Val)
deriving Inhabited

/-- What a template can find out: the book, and the functions and methods that need fuel. -/
structure Env where
  h : Heap
  /-- whether this is the HTML engine -/
  isHtml : Bool
  /-- `render` (html.go:325-344, text.go:300-317) -/
  render : Content → Res Str
  /-- another template (`{{template}}`) -/
  call : Str → Val → Res Str
  /-- `String()` of content -/
  text : Content → Res Str
  /-- `Section.Number` (section.go:207-228) -/
  number : Nat → Res Str
  /-- `headerDepth` (html.go:50-57) -/
  header : Nat → Res Nat
  /-- `Section.PageDepth` (section.go:410-416) -/
  depth : Nat → Res Nat
  /-- `url` (html.go:30-32, text.go:95-97) -/
  url : Tag → Res Str
  /-- `htmlURL` (text.go:31-33) -/
  htmlURL : Tag → Res Str
  /-- `Reference.Tag` (reference.go:86-112) of a reference in a section -/
  tagOf : Nat → Str → Bool → Location → Res (Option Tag)
  /-- `Section.Top` (section.go:267-273) -/
  top : Nat → Res Nat
  /-- `Section.Contains` (section.go:277-289) -/
  contains : Nat → Nat → Res Bool
  /-- `Section.HasAnchors` (section.go:231-249) -/
  hasAnchors : Nat → Res Bool
  /-- `Section.Next` (section.go:330-338) -/
  next : Nat → Res (Option Nat)

/-- A pointer to a section. -/
def Val.ofSec : Option Nat → Val
  | none => .null
  | some i => .content (.sect i)

/-- A pointer to a tag. -/
def Val.ofTag : Option Tag → Val
  | none => .null
  | some g => .tag g

/-- `Partials[name]` (styled.go:64-66, section.go:389-391). -/
def partialIn (ps : List (Str × Content)) (name : Str) : Content :=
  match ps.find? (·.1 == name) with
  | some p => p.2
  | none => .nil

/-- Fields and methods of sections (section.go). -/
def secField (E : Env) (i : Nat) : Field → List Val → Res Val
  | .title, [] => .ok (.content (E.h.get i).title)
  | .body, [] => .ok (.content (E.h.get i).body)
  | .primaryTag, [] => .ok (.tag (E.h.get i).primaryTag)
  | .tags, [] => .ok (.list ((E.h.get i).tags.map .tag))
  | .parent, [] => .ok (.ofSec (E.h.get i).parent)
  | .children, [] => .ok (.list ((E.h.get i).children.map fun c => .content (.sect c)))
  | .style, [] => .ok (.str (E.h.get i).style)
  | .path, [] => .ok (.str (E.h.get i).path)
  | .splitSections, [] => .ok (.bool (E.h.get i).split)
  | .omitToc, [] => .ok (.bool (E.h.get i).omitToc)
  | .number, [] => (E.number i).map .str
  | .pageDepth, [] => (E.depth i).map .num
  | .top, [] => (E.top i).map fun t => .content (.sect t)
  | .prev, [] => .ok (.ofSec (E.h.prev i))
  | .next, [] => (E.next i).map .ofSec
  | .hasAnchors, [] => (E.hasAnchors i).map .bool
  | .anchorTags, [] => .ok (.list ((E.h.anchorTags i).map .tag))
  | .contains, [.content (.sect j)] => (E.contains i j).map .bool
  | .isOrHasChild, [.content (.sect j)] => .ok (.bool (E.h.isOrHasChild i j))
  | .partial_, [.str name] => .ok (.content ((E.h.get i).partialOf name))
  | .isFlow, [] => .ok (.bool false)
  | .string, [] => (E.text (.sect i)).recover.map .str
  | _, _ => tmplErr

/-- Fields of tags (section.go:103-128). -/
def tagField (g : Tag) : Field → List Val → Res Val
  | .name, [] => .ok (.str g.name)
  | .title, [] => .ok (.content g.title)
  | .section_, [] => .ok (.ofSec g.sec)
  | .anchor, [] => .ok (.str g.anchor)
  | .content, [] => .ok (.content g.content)
  | _, _ => tmplErr

/-- `IsFlow` and `String`, which all contents have. -/
def anyField (E : Env) (c : Content) : Field → List Val → Res Val
  | .isFlow, [] =>
    match isFlow c with
    | none => tmplErr
    | some b => .ok (.bool b)
  | .string, [] => (E.text c).recover.map .str
  | _, _ => tmplErr

/-- Fields and methods of contents (the content types of /repo/*.go). -/
def conField (E : Env) (c : Content) (f : Field) (args : List Val) : Res Val :=
  match c, f, args with
  | .nil, _, _ => tmplErr
  | .sect i, f, args => secField E i f args
  | .seq cs, .contents, [] => .ok (.list (cs.map .content))                          -- sequence.go:29-31
  | .ref s t _ o l, .tag, [] => (E.tagOf s t o l).map .ofTag                         -- reference.go:86-112
  | .ref s t c o l, .display, [] =>                                                  -- reference.go:66-77
    if c.isNil then
      (E.tagOf s t o l).bind fun
        | none => tmplErr
        | some g => .ok (.content g.title)
    else .ok (.content c)
  | .ref _ _ c _ _, .content, [] => .ok (.content c)
  | .ref _ t _ _ _, .tagName, [] => .ok (.str t)
  | .ref _ _ _ o _, .optional, [] => .ok (.bool o)
  | .ref s _ _ _ _, .section_, [] => .ok (.content (.sect s))
  | .toc i, .section_, [] => .ok (.content (.sect i))
  | .styled _ _ c _, .content, [] => .ok (.content c)
  | .styled st _ _ _, .style, [] => .ok (.str st)
  | .styled _ b _ _, .block, [] => .ok (.bool b)
  | .styled _ _ _ ps, .partial_, [.str name] => .ok (.content (partialIn ps name))
  | .target t _ _ _, .tagName, [] => .ok (.str t)
  | .target _ _ ti _, .title, [] => .ok (.content ti)
  | .target _ _ _ c, .content, [] => .ok (.content c)
  | .image p _, .path, [] => .ok (.str p)
  | .image _ d, .description, [] => .ok (.str d)
  | .list cs _, .items, [] => .ok (.list (cs.map .content))
  | .list _ o, .ordered, [] => .ok (.bool o)
  | .link _ u, .target, [] => .ok (.str u)
  | .link c _, .content, [] => .ok (.content c)
  | .table rs, .rows, [] => .ok (.list (rs.map fun r => .list (r.map .content)))
  | .aux c, .content, [] => .ok (.content c)
  | c, f, args => anyField E c f args

/-- `evalField` (text/template/exec.go): a field or method of a value. -/
def Val.field (E : Env) (v : Val) (f : Field) (args : List Val) : Res Val :=
  match v with
  | .content c => conField E c f args
  | .tag g => tagField g f args
  | .defn a b =>                                                                     -- definitions.go:9-12
    match f, args with
    | .subject, [] => .ok (.content a)
    | .definition, [] => .ok (.content b)
    | _, _ => tmplErr
  | .walk a b =>                                                                     -- common.go:5-10
    match f, args with
    | .current, [] => .ok (.ofSec a)
    | .section_, [] => .ok (.ofSec b)
    | _, _ => tmplErr
  | _ => tmplErr

/-- `IsTrue` (text/template/exec.go). Contents are strings, slices, pointers and structs; the last two are never empty. -/
def Val.truth : Val → Bool
  | .null => false
  | .bool b => b
  | .num n => n != 0
  | .str s | .html s | .url s => s != []
  | .content .nil => false
  | .content (.str s) => s != []
  | .content (.seq cs) | .content (.para cs) | .content (.pre cs) => !cs.isEmpty
  | .content (.defs ds) => !ds.isEmpty
  | .content _ => true
  | .tag _ => true
  | .defn _ _ => true
  | .walk _ _ => true
  | .list vs => !vs.isEmpty

/-- What `range` goes over (`walkRange` in text/template/exec.go). -/
def Val.items : Val → Option (List Val)
  | .list vs => some vs
  | .content (.seq cs) | .content (.para cs) | .content (.pre cs) => some (cs.map .content)
  | .content (.defs ds) => some (ds.map fun d => .defn d.1 d.2)
  | .content .nil => some []
  | _ => none

/-- A pointer to a section as an argument: nil is one, too. -/
def Val.toSec : Val → Option (Option Nat)
  | .content (.sect i) => some (some i)
  | .null => some none
  | _ => none

/-- `eq` (text/template/funcs.go) on strings, numbers and truth values. -/
def Val.same : Val → Val → Res Val
  | .str a, .str b => .ok (.bool (a = b))
  | .num a, .num b => .ok (.bool (a = b))
  | .bool a, .bool b => .ok (.bool (a = b))
  | _, _ => tmplErr

/-- The functions (html.go:25-58, text.go:22-41, text/template/funcs.go). -/
def Fn.apply (E : Env) : Fn → List Val → Res Val
  | .render, [.content c] => (E.render c).map fun s => if E.isHtml then .html s else .str s
  | .url, [.tag g] => (E.url g).map .str
  | .htmlURL, [.tag g] => (E.htmlURL g).map .str
  | .stripAux, [.content c] =>
    match Booklit.stripAux c with
    | none => tmplErr
    | some d => .ok (.content d)
  | .rawHTML, [.content c] => (E.text c).recover.map .html
  | .rawURL, [.content c] => (E.text c).recover.map .url
  | .walkContext, [a, b] =>                                                          -- html.go:44-49
    match a.toSec, b.toSec with
    | some i, some j => .ok (.walk i j)
    | _, _ => tmplErr
  | .headerDepth, [.content (.sect i)] => (E.header i).map .num
  | .joinLines, [.str p, .str s] => .ok (.str (Booklit.joinLines p s))
  | .and, v :: vs => .ok (vs.foldl (fun a b => if a.truth then b else a) v)
  | .or, v :: vs => .ok (vs.foldl (fun a b => if a.truth then a else b) v)
  | .not, [v] => .ok (.bool (!v.truth))
  | .eq, [a, b] => a.same b
  | _, _ => tmplErr

/-- Variables, the innermost first. -/
abbrev Vars := List (Str × Val)

/-- The value of a variable. -/
def Vars.find (vars : Vars) (x : Str) : Res Val :=
  match vars.find? (·.1 == x) with
  | some p => .ok p.2
  | none => tmplErr

mutual
/-- `evalPipeline` and below (text/template/exec.go). Of the arguments of `and` and `or` those after the deciding one are not evaluated
(`evalCall`, Go 1.18). Simplification: this holds also for an argument that comes from a pipeline, `a | and b`; Go evaluates it in any case, which makes
a difference only if it fails. -/
def eval (E : Env) (root dot : Val) (vars : Vars) : Expr → Res Val
  | .dot => .ok dot
  | .root => .ok root
  | .var x => vars.find x
  | .str s => .ok (.str s)
  | .num n => .ok (.num n)
  | .field e f args =>
    (eval E root dot vars e).bind fun v => (evalL E root dot vars args).bind fun vs => v.field E f vs
  | .call .and args => (evalTo E root dot vars false args).bind fun vs => Fn.and.apply E vs
  | .call .or args => (evalTo E root dot vars true args).bind fun vs => Fn.or.apply E vs
  | .call f args => (evalL E root dot vars args).bind fun vs => f.apply E vs
/-- Arguments up to the first that is true (or false). -/
def evalTo (E : Env) (root dot : Val) (vars : Vars) (b : Bool) : List Expr → Res (List Val)
  | [] => .ok []
  | e :: es => (eval E root dot vars e).bind fun v => if v.truth = b then .ok [v] else (evalTo E root dot vars b es).map (v :: ·)
/-- Arguments. -/
def evalL (E : Env) (root dot : Val) (vars : Vars) : List Expr → Res (List Val)
  | [] => .ok []
  | e :: es => (eval E root dot vars e).bind fun v => (evalL E root dot vars es).map (v :: ·)
end

/-- `printValue` (text/template/exec.go) and `stringify` (html/template/content.go). -/
def Val.print (E : Env) : Val → Res Str
  | .bool b => .ok (if b then q%"true" else q%"false")
  | .num n => .ok (decimal n)
  | .str s | .html s | .url s => .ok s
  | .content .nil => tmplErr
  | .content c => (E.text c).recover
  | _ => tmplErr

/-- Attributes that change what others mean (`contentTypeUnsafe` in html/template/attr.go). -/
def unsafeAttrs : List Str :=
  [q%"accept-charset", q%"async", q%"challenge", q%"charset", q%"content", q%"crossorigin", q%"defer", q%"enctype", q%"form",
   q%"formenctype", q%"formmethod", q%"formnovalidate", q%"http-equiv", q%"keytype", q%"language", q%"method", q%"novalidate",
   q%"pattern", q%"rel", q%"sandbox", q%"type", q%"value"]

/-- `htmlNameFilter` (html/template/html.go): only letters and digits, and no attribute with a meaning of its own. -/
def nameFilter (s : Str) : Str :=
  let t := s.map lowChar
  if t ≠ [] ∧ t.all (fun c => ('a' ≤ c && c ≤ 'z') || isDigit c) ∧ kindOf t = .plain ∧ t ∉ unsafeAttrs then t else q%"ZgotmplZ"

/-- The bytes that `processURLOnto` leaves alone when escaping (html/template/url.go): `-._~`, letters and digits. -/
def urlPlain (b : Byte) : Bool :=
  [45, 46, 95, 126].contains b || (97 ≤ b && b ≤ 122) || (65 ≤ b && b ≤ 90) || (48 ≤ b && b ≤ 57)

/-- `processURLOnto` without `norm` (html/template/url.go) on bytes. -/
def urlEscape (bs : List Byte) : Str :=
  bs.flatMap fun b => if urlPlain b then [Char.ofNat b] else ['%', hexDigit (b / 16 % 16), hexDigit (b % 16)]

/-- What is printed for a value (`escapeAction` in html/template/escape.go and the escapers it chooses). Markup that is put into an address is
escaped like any text (`urlFilter`, html/template/url.go). Simplification: markup put into an attribute that is no address or into a title is an
error; html/template takes the tags out of it or escapes it. -/
def Ctx.escape (E : Env) (c : Ctx) (v : Val) : Res Str :=
  match c, v with
  | .plain, v => v.print E
  | .text, .html s => .ok s
  | .value _ .plain _ _, .html _ => tmplErr
  | .raw _, .html _ => tmplErr
  | .text, v => (v.print E).map escText
  | .tagName _, v => (v.print E).map nameFilter
  | .value _ .plain _ _, v => (v.print E).map escAttr
  | .value _ .url _ .start, .url s => .ok (escAttr (normBytes (utf8 s)))
  | .value _ .url _ .start, v => (v.print E).map escURL
  | .value _ .url _ .query, .url s => .ok (escAttr (normBytes (utf8 s)))
  | .value _ .url _ .query, v => (v.print E).map fun s => escAttr (urlEscape (utf8 s))
  | .value _ .url _ _, v => (v.print E).map fun s => escAttr (normBytes (utf8 s))
  | .raw _, v => (v.print E).map escText
  | _, _ => tmplErr

/-- The elements of a list with their indices. -/
def indexed {α : Type} : Nat → List α → List (Nat × α)
  | _, [] => []
  | k, a :: as => (k, a) :: indexed (k + 1) as

/-- A variable declared by `range`. -/
def Vars.with (vars : Vars) : Option Str → Val → Vars
  | none, _ => vars
  | some x, v => (x, v) :: vars

mutual
/-- `walk` of a list of nodes (text/template/exec.go). A variable is known up to the end of the list. -/
def execL (E : Env) (root dot : Val) (vars : Vars) : List TNode → Res Str
  | [] => .ok []
  | .decl x e :: ns => (eval E root dot vars e).bind fun v => execL E root dot ((x, v) :: vars) ns
  | n :: ns => (exec E root dot vars n).bind fun s => (execL E root dot vars ns).map (s ++ ·)
/-- `walk` (text/template/exec.go). `range` binds the element to the dot in any case. -/
def exec (E : Env) (root dot : Val) (vars : Vars) : TNode → Res Str
  | .text s => .ok s
  | .act c e => (eval E root dot vars e).bind fun v => c.escape E v
  | .decl _ _ => .ok []
  | .ite e a b =>
    (eval E root dot vars e).bind fun v => if v.truth then execL E root dot vars a else execL E root dot vars b
  | .with_ e a b =>
    (eval E root dot vars e).bind fun v => if v.truth then execL E root v vars a else execL E root dot vars b
  | .loop i x e a b =>
    (eval E root dot vars e).bind fun v =>
      match v.items with
      | none => tmplErr
      | some [] => execL E root dot vars b
      | some vs => (resMap (fun p => execL E root p.2 ((vars.with i (.num p.1)).with x p.2) a) (indexed 0 vs)).map List.flatten
  | .call name none => E.call name .null
  | .call name (some e) => (eval E root dot vars e).bind fun v => E.call name v
end

/-! ### The engines -/

/-- Which template a content is rendered with, and the data passed to it: the `Visit...` methods (html.go:196-305,
text.go:179-278). -/
inductive Visit where
  | fail
  | force (i : Nat)
  | template (name : Str) (data : Val)

/-- `Visit` of the content types. `Aux` has that of its content. -/
def Content.visit (h : Heap) : Content → Visit
  | .nil => .fail
  | .str s => .template q%"string" (.content (.str s))
  | .seq cs => .template q%"sequence" (.content (.seq cs))
  | .para cs => .template q%"paragraph" (.content (.para cs))
  | .pre cs => .template q%"preformatted" (.content (.pre cs))
  | .ref s t c o l => .template q%"reference" (.content (.ref s t c o l))
  | .sect i => .template (if (h.get i).style = [] then q%"section" else (h.get i).style) (.content (.sect i))
  | .toc i => .template q%"toc" (.content (.sect i))
  | .styled st b c ps => .template st (.content (.styled st b c ps))
  | .target t l ti c => .template q%"target" (.content (.target t l ti c))
  | .image p d => .template q%"image" (.content (.image p d))
  | .list cs o => .template q%"list" (.content (.list cs o))
  | .link c u => .template q%"link" (.content (.link c u))
  | .table rs => .template q%"table" (.content (.table rs))
  | .defs ds => .template q%"definitions" (.content (.defs ds))
  | .lazy _ i => .force i
  | .aux c => Content.visit h c

/-- What an engine is asked to do: render content, or execute a template. -/
inductive Task where
  | content (c : Content)
  | template (file : Str) (data : Val)

/-- An engine: the extension of its files, and whether it is the HTML engine. -/
structure Mode where
  isHtml : Bool
  ext : Str

/-- Templates by file name, ready to be executed. `none`: there is none of that name, or it cannot be executed. -/
abbrev Compiled := Str → Option (List TNode)

/-- The templates of a set for an engine. -/
def Mode.compile (M : Mode) (ts : TSet) : Compiled := fun f => (ts f).bind (if M.isHtml then compileHtml else compileText)

/-- `url` (html.go:30-32, text.go:95-97): a tag without section is a nil dereference. -/
def Heap.tagURL (h : Heap) (ext : Str) (n : Nat) (g : Tag) : Res Str :=
  match g.sec with
  | none => tmplErr
  | some i => Res.ofFuel (h.sectionURL ext n i g.anchor)

/-- `Reference.Tag` (reference.go:86-112), with the errors of reference.go:128-159. -/
def Heap.tagOf (S : Site) (h : Heap) (n : Nat) (s : Nat) (t : Str) (o : Bool) (l : Location) : Res (Option Tag) :=
  match h.refTag n S.brokenOk s t o l with
  | none => .more
  | some (.tag g) => .ok (some g)
  | some .nothing => .ok none
  | some .unknown => h.unknownTag n s t l
  | some (.ambiguous ls) => h.ambiguousTag n s t l ls

/-- What templates find out with fuel `n`, when `run` does the tasks inside. -/
def envOf (M : Mode) (S : Site) (h : Heap) (n : Nat) (run : Task → Res Str) : Env where
  h := h
  isHtml := M.isHtml
  render c := run (.content c)
  call name v := run (.template name v)
  text := h.text S.brokenOk n
  number i := .ofFuel (h.number n i)
  header i := .ofFuel (h.headerDepth n i)
  depth i := .ofFuel (h.pageDepth n i)
  url := Heap.tagURL h M.ext n
  htmlURL := Heap.tagURL h htmlExt n
  tagOf := Heap.tagOf S h n
  top i := .ofFuel (h.top n i)
  contains i j := .ofFuel (h.contains n i j)
  hasAnchors i := .ofFuel (h.hasAnchors n i)
  next i := .ofFuel (h.next n i)

/-- `subRender` (html.go:325-344, text.go:300-317) and `render` (html.go:317-323): execute the template that the content asks for,
`setTmpl` (html.go:307-315) having found it. -/
def run (M : Mode) (T : Compiled) (S : Site) (h : Heap) : Nat → Task → Res Str
  | 0, _ => .more
  | n + 1, .content c =>
    match Content.visit h c with
    | .fail => tmplErr
    | .force i =>
      match S.force i with
      | none => tmplErr
      | some d => run M T S h n (.content d)
    | .template name v => run M T S h n (.template (name ++ q%".tmpl") v)
  | n + 1, .template file v =>
    match T file with
    | none => tmplErr
    | some ns => execL (envOf M S h n (run M T S h n)) v v [] ns

/-- The HTML engine (html.go:155-157). -/
def htmlMode : Mode := ⟨true, htmlExt⟩

/-- The text engine with an extension (text.go:78-98, 148-150). -/
def textMode (ext : Str) : Mode := ⟨false, ext⟩

/-- `RenderSection` (html.go:171-194, text.go:162-176) with a set of templates: the page of a section. -/
def pageWith (M : Mode) (ts : TSet) (S : Site) (h : Heap) (n : Nat) (i : Nat) : Res Str :=
  match if M.isHtml then ts.htmlPage (h.get i).style else ts.textPage (h.get i).style with
  | none => tmplErr
  | some name => run M (M.compile ts) S h n (.template (name ++ q%".tmpl") (.content (.sect i)))

/-- An engine with a set of templates. -/
def engineWith (M : Mode) (ts : TSet) (S : Site) : Engine := ⟨M.ext, fun h n i => pageWith M ts S h n i⟩

/-- The template language, as far as `LoadTemplates` needs to know it (html.go:137-150). -/
def langOf (M : Mode) : Lang where
  parses s := (parse (if M.isHtml then htmlFns else textFns) s).isSome
  blank s := s.all isSpace

end Booklit.Tmpl
