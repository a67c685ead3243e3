import Verif.Model.Text
import Verif.Model.Path
import Verif.Model.Grammar

/-!
Evaluation: `/repo/stages/evaluate.go`, `/repo/baselit/plugin.go` and `/repo/load/processor.go`.
-/

namespace Booklit

/-- A file: modification time and contents, `none` when it cannot be read. -/
structure FileInfo where
  mtime : Nat
  data : Option Str

/-- Types of method parameters that `convert` (evaluate.go:291-317) tells apart. -/
inductive Ty where
  | string | content | node | other
deriving DecidableEq

/-- An argument as a plugin method receives it. -/
inductive Raw where
  | str (s : Str)
  | content (c : Content)
  | node (n : Node)

/-- What a method returns: nothing, a content, an error or nil, both, or something else. -/
inductive Ret where
  | nothing
  | content (c : Content)
  | error (e : Option Err)
  | both (c : Content) (e : Option Err)
  | other

/-- A method of a plugin other than baselit: its parameter types, the type of the variadic parameter if any, and
what it returns. Simplification: such methods may look at the sections but not change them, and they end without
panicking. -/
structure Foreign where
  params : List Ty
  variadic : Option Ty
  run : Heap → Nat → List Raw → Ret

/-- Everything around the evaluator: the files, the registered plugins by name (`LookupPlugin`, plugin.go:31-34;
number 0 is baselit), the methods of the other plugins, and `AllowBrokenReferences` (reference.go:13). -/
structure World where
  fs : Str → Option FileInfo
  registry : Str → Option Nat
  foreign : Nat → Str → Option Foreign
  brokenOk : Bool

/-- The changing state: the sections, and the cache of parsed files (processor.go:26, 30-33). -/
structure St where
  heap : Heap
  cache : List (Str × Node × Nat)

/-- Computations. -/
abbrev M (α : Type) := St → Res α × St

namespace M

def pure {α : Type} (a : α) : M α := fun s => (.ok a, s)

def bind {α β : Type} (m : M α) (f : α → M β) : M β := fun s =>
  match m s with
  | (.ok a, s') => f a s'
  | (.err e, s') => (.err e, s')
  | (.panic, s') => (.panic, s')
  | (.more, s') => (.more, s')

instance : Monad M where
  pure := M.pure
  bind := M.bind

def lift {α : Type} (r : Res α) : M α := fun s => (r, s)

def get : M St := fun s => (.ok s, s)

/-- Write through a section pointer. -/
def upd (i : Nat) (f : Sec → Sec) : M Unit := fun s => (.ok (), { s with heap := s.heap.upd i f })

/-- Allocate a section. -/
def alloc (x : Sec) : M Nat := fun s => (.ok s.heap.length, { s with heap := s.heap ++ [x] })

/-- Hand over the error a call returned. -/
def attempt {α : Type} (m : M α) : M (Option Err) := fun s =>
  match m s with
  | (.ok _, s') => (.ok none, s')
  | (.err e, s') => (.ok (some e), s')
  | (.panic, s') => (.panic, s')
  | (.more, s') => (.more, s')

end M

/-- Evaluating a node in a section, appending to the result so far. -/
abbrev Ev := Nat → Content → M Content

/-- Including a file as a child of a section. -/
abbrev Inc := Nat → Str → M Unit

/-- A converted argument. `zero` is the zero `reflect.Value` made from nil content (evaluate.go:306). -/
inductive ArgV where
  | str (s : Str)
  | content (c : Content)
  | node (n : Node) (ev : Ev)
  | zero

/-- The methods of baselit (baselit/plugin.go). -/
inductive Base where
  | usePlugin | styled | title | aux | section | includeSection | singlePage | splitSections | omitChildren
  | tableOfContents | style (s : Str) | link | reference | target | list | orderedList | image | setPartial
  | table | tableRow | definitions | definition
deriving DecidableEq

/-- Method names (baselit/plugin.go) and style names (styled.go:23-34). -/
def baseMethods : List (Str × Base) :=
  [(q%"UsePlugin", .usePlugin), (q%"Styled", .styled), (q%"Title", .title), (q%"Aux", .aux),
   (q%"Section", .section), (q%"IncludeSection", .includeSection), (q%"SinglePage", .singlePage),
   (q%"SplitSections", .splitSections), (q%"OmitChildrenFromTableOfContents", .omitChildren),
   (q%"TableOfContents", .tableOfContents), (q%"Code", .style q%"verbatim"), (q%"Italic", .style q%"italic"),
   (q%"Bold", .style q%"bold"), (q%"Larger", .style q%"larger"), (q%"Smaller", .style q%"smaller"),
   (q%"Strike", .style q%"strike"), (q%"Superscript", .style q%"superscript"),
   (q%"Subscript", .style q%"subscript"), (q%"Inset", .style q%"inset"), (q%"Aside", .style q%"aside"),
   (q%"Link", .link), (q%"Reference", .reference), (q%"Target", .target), (q%"List", .list),
   (q%"OrderedList", .orderedList), (q%"Image", .image), (q%"SetPartial", .setPartial), (q%"Table", .table),
   (q%"TableRow", .tableRow), (q%"Definitions", .definitions), (q%"Definition", .definition)]

/-- Parameter types of the methods (baselit/plugin.go). -/
def Base.sig : Base → List Ty × Option Ty
  | .usePlugin => ([.string], none)                        -- plugin.go:28
  | .styled => ([.string], none)                           -- plugin.go:39
  | .title => ([.content], some .string)                   -- plugin.go:43
  | .aux => ([.content], none)                             -- plugin.go:63
  | .section => ([.node], none)                            -- plugin.go:69
  | .includeSection => ([.string], none)                   -- plugin.go:82
  | .singlePage => ([], none)                              -- plugin.go:95
  | .splitSections => ([], none)                           -- plugin.go:99
  | .omitChildren => ([], none)                            -- plugin.go:107
  | .tableOfContents => ([], none)                         -- plugin.go:111
  | .style _ => ([.content], none)                         -- plugin.go:117-185
  | .link => ([.content, .string], none)                   -- plugin.go:187
  | .reference => ([.string], some .content)               -- plugin.go:194
  | .target => ([.string], some .content)                  -- plugin.go:210
  | .list => ([], some .content)                           -- plugin.go:229
  | .orderedList => ([], some .content)                    -- plugin.go:235
  | .image => ([.string], some .string)                    -- plugin.go:242
  | .setPartial => ([.string, .content], none)             -- plugin.go:254
  | .table => ([], some .content)                          -- plugin.go:258
  | .tableRow => ([], some .content)                       -- plugin.go:273
  | .definitions => ([], some .content)                    -- plugin.go:277
  | .definition => ([.content, .content], none)            -- plugin.go:298

/-- A method of some plugin. -/
inductive Method where
  | base (b : Base)
  | foreign (f : Foreign)

/-- Parameter types. -/
def Method.sig : Method → List Ty × Option Ty
  | .base b => b.sig
  | .foreign f => (f.params, f.variadic)

/-- `reflect.Value.MethodByName` (evaluate.go:146) on plugin number `p`. -/
def methodOf (W : World) (p : Nat) (name : Str) : Option Method :=
  match p with
  | 0 => (baseMethods.lookup name).map .base
  | p => (W.foreign p name).map .foreign

/-- The loop over the plugins (evaluate.go:143-150): the first one that has the method. -/
def findMethod (W : World) (name : Str) : List Nat → Option Method
  | [] => none
  | p :: ps =>
    match methodOf W p name with
    | some m => some m
    | none => findMethod W name ps

/-- `strings.Split(s, "-")`. -/
def splitDash (cur : Str) : Str → List Str
  | [] => [cur]
  | c :: s => if c = '-' then cur :: splitDash [] s else splitDash (cur ++ [c]) s

/-- Upper case of an ASCII letter. -/
def upper (c : Char) : Char := if 'a' ≤ c ∧ c ≤ 'z' then Char.ofNat (c.toNat - 32) else c

/-- `cases.Title` of a word of letters a-z, the only ones in function names (booklit.peg:109-118): the first letter
becomes upper case. -/
def titleCase : Str → Str
  | [] => []
  | c :: s => upper c :: s

/-- `Invoke.Method` (ast/node.go:57-63). -/
def methodName (fn : Str) : Str := (splitDash [] fn).flatMap titleCase

/-- `\s` in a Go regular expression. -/
def isSpaceRe (c : Char) : Bool := c == '\t' || c == '\n' || c == '\x0c' || c == '\r' || c == ' '

/-- `strings.ReplaceAll(s, " & ", " and ")`. -/
def replaceAnd : Str → Str
  | [] => []
  | ' ' :: '&' :: ' ' :: s => q%" and " ++ replaceAnd s
  | c :: s => c :: replaceAnd s

/-- `whitespaceRegexp.ReplaceAllString(s, "-")`: every run of white space becomes one dash. `inRun` says that the
previous rune was white space. -/
def dashSpaces (inRun : Bool) : Str → Str
  | [] => []
  | c :: s =>
    if isSpaceRe c then (if inRun then dashSpaces true s else '-' :: dashSpaces true s)
    else c :: dashSpaces false s

/-- Not matched by `[^[:alnum:]_\-]`. -/
def isTagChar (c : Char) : Bool :=
  (decide ('a' ≤ c) && decide (c ≤ 'z')) || (decide ('A' ≤ c) && decide (c ≤ 'Z')) ||
  (decide ('0' ≤ c) && decide (c ≤ '9')) || c == '_' || c == '-'

/-- `strings.ToLower` of an ASCII character. -/
def lower (c : Char) : Char := if 'A' ≤ c ∧ c ≤ 'Z' then Char.ofNat (c.toNat + 32) else c

/-- The text operations of `defaultTag` (section.go:457-471). -/
def slug (s : Str) : Str := ((dashSpaces false (replaceAnd s)).filter isTagChar).map lower

/-- `defaultTag` (section.go:457-471). -/
def defaultTag (W : World) (k : Nat) (title : Content) : M Str := fun s =>
  match stripAux title with
  | none => (.panic, s)
  | some c => ((s.heap.text W.brokenOk k c).map slug, s)

/-- The tags given to `SetTitle`, or the automatic one (section.go:159-161). -/
def titleNames (W : World) (k : Nat) (title : Content) (tags : List Str) : M (List Str) :=
  if tags = [] then do
    let t ← defaultTag W k title
    pure [t]
  else pure tags

/-- The comparison with `booklit.Empty`, the empty string (plugin.go:44). -/
def Content.isEmpty : Content → Bool
  | .str [] => true
  | _ => false

/-- The rest of `SetTitle` (section.go:163-170). -/
def setTitle (i : Nat) (title : Content) (loc : Location) (names : List Str) : M Unit :=
  let tags : List Tag := names.map fun n => ⟨n, title, some i, [], .nil, loc⟩
  M.upd i fun x => { x with title := title, titleLoc := loc, tags := tags, primaryTag := tags.headD Tag.zero }

/-- `section.FilePath()` of a section in the state. Following parents takes at most one step for each section. -/
def filePathM (i : Nat) : M Str := fun s => (Res.ofFuel (s.heap.filePath (s.heap.length + 1) i), s)

/-- The string arguments. -/
def strArgs : List ArgV → List Str
  | [] => []
  | .str s :: vs => s :: strArgs vs
  | _ :: vs => strArgs vs

/-- The content arguments. -/
def contentArgs : List ArgV → List Content
  | [] => []
  | .content c :: vs => c :: contentArgs vs
  | _ :: vs => contentArgs vs

/-- The loop of `Table` (plugin.go:261-268): the items of each row, `none` when a row is not a list. -/
def tableRows : List Content → Option (List (List Content))
  | [] => some []
  | .list items _ :: rs => (tableRows rs).map (items :: ·)
  | _ :: _ => none

/-- The loop of `Definitions` (plugin.go:279-293). -/
def definitionItems : List Content → Option (List (Content × Content))
  | [] => some []
  | .list [a, b] _ :: ds => (definitionItems ds).map ((a, b) :: ·)
  | _ :: _ => none

/-- Evaluation of the node of a section and taking over its body: `evaluateSection` (processor.go:163-183) after
the plugins have been added. -/
def evalBody (ev : Ev) (i : Nat) : M Unit := do
  let r ← ev i .nil
  if r.isNil then pure () else M.upd i fun x => { x with body := r }

/-- `Plugin.Section` (plugin.go:69-80) with `EvaluateNode` (processor.go:145-161). -/
def evalInline (i : Nat) (ev : Ev) : M Unit := do
  let st ← M.get
  let c ← M.alloc { Sec.fresh (some i) [] with plugins := (st.heap.get i).plugins }
  evalBody ev c
  let st ← M.get
  M.upd c fun x => { x with loc := (st.heap.get i).invokeLoc }
  M.upd i fun x => { x with children := x.children ++ [c] }

/-- The methods of baselit (baselit/plugin.go), called in section `i`. The last case is never reached: arguments
have been converted to the parameter types. -/
def callBase (W : World) (k : Nat) (inc : Inc) (i : Nat) : Base → List ArgV → M Ret
  | .usePlugin, [.str name] =>                                               -- plugin.go:28-37
    match W.registry name with
    | none => pure (.error (some (.plain q%"unknown plugin")))
    | some p => do
      M.upd i fun x => x.usePlugin p
      pure (.error none)
  | .styled, [.str name] => do                                               -- plugin.go:39-41
    M.upd i fun x => { x with style := name }
    pure .nothing
  | .title, .content title :: tags => do                                     -- plugin.go:43-61
    let st ← M.get
    let sec := st.heap.get i
    if sec.title.isEmpty then do
      let names ← titleNames W k title (strArgs tags)
      setTitle i title sec.invokeLoc names
      pure (.error none)
    else do
      let path ← filePathM i
      pure (.error (some (.titleTwice path sec.titleLoc sec.invokeLoc)))
  | .aux, [.content c] => pure (.content (.aux c))                           -- plugin.go:63-67
  | .section, [.node _ ev] => do                                             -- plugin.go:69-80
    let e ← M.attempt (evalInline i ev)
    pure (.error e)
  | .includeSection, [.str path] => do                                       -- plugin.go:82-93
    let file ← filePathM i
    let e ← M.attempt (inc i (joinPath (dirPath file) path))
    pure (.error e)
  | .singlePage, [] => do                                                    -- plugin.go:95-97
    M.upd i fun x => { x with preventSplit := true }
    pure .nothing
  | .splitSections, [] => do                                                 -- plugin.go:99-105
    M.upd i fun x => { x with resetDepth := true }
    let st ← M.get
    let prevented ← M.lift (Res.ofFuel (st.heap.splitPrevented (st.heap.length + 1) i))
    if prevented then pure .nothing
    else do
      M.upd i fun x => { x with split := true }
      pure .nothing
  | .omitChildren, [] => do                                                  -- plugin.go:107-109
    M.upd i fun x => { x with omitToc := true }
    pure .nothing
  | .tableOfContents, [] => pure (.content (.toc i))                         -- plugin.go:111-115
  | .style s, [.content c] => pure (.content (.styled s false c []))         -- plugin.go:117-185
  | .link, [.content c, .str url] => pure (.content (.link c url))           -- plugin.go:187-192
  | .reference, .str tag :: cs => do                                         -- plugin.go:194-208
    let st ← M.get
    pure (.content (.ref i tag ((contentArgs cs).headD .nil) false (st.heap.get i).invokeLoc))
  | .target, .str tag :: cs => do                                            -- plugin.go:210-227
    let st ← M.get
    let loc := (st.heap.get i).invokeLoc
    pure (.content (match contentArgs cs with
      | [title, c] => .target tag loc title c
      | [title] => .target tag loc title .nil
      | _ => .target tag loc (.str tag) .nil))
  | .list, cs => pure (.content (.list (contentArgs cs) false))              -- plugin.go:229-233
  | .orderedList, cs => pure (.content (.list (contentArgs cs) true))        -- plugin.go:235-240
  | .image, .str path :: ds => pure (.content (.image path ((strArgs ds).headD [])))  -- plugin.go:242-252
  | .setPartial, [.str name, .content c] => do                               -- plugin.go:254-256
    M.upd i fun x => x.setPartial name c
    pure .nothing
  | .table, cs =>                                                            -- plugin.go:258-271
    match tableRows (contentArgs cs) with
    | some rows => pure (.both (.table rows) none)
    | none => pure (.both .nil (some (.plain q%"table row is not a list")))
  | .tableRow, cs => pure (.content (.list (contentArgs cs) false))          -- plugin.go:273-275
  | .definitions, cs =>                                                      -- plugin.go:277-296
    match definitionItems (contentArgs cs) with
    | some ds => pure (.both (.defs ds) none)
    | none => pure (.both .nil (some (.plain q%"definition item")))
  | .definition, [.content a, .content b] => pure (.content (.list [a, b] false))  -- plugin.go:298-300
  | _, _ => M.lift .panic

/-- `evalArg` and `convert` (evaluate.go:291-331) in section `i`. -/
def convert (W : World) (k : Nat) (i : Nat) : Ty → Node × Ev → M ArgV
  | .string, (_, ev) => do
    let c ← ev i .nil
    let st ← M.get
    let t ← M.lift (st.heap.text W.brokenOk k c)
    pure (.str t)
  | .content, (_, ev) => do
    let c ← ev i .nil
    pure (if c.isNil then .zero else .content c)
  | .node, (n, ev) => pure (.node n ev)
  | .other, _ => M.lift (.err (.plain q%"unsupported argument type"))

/-- The conversion loops (evaluate.go:203-227): the types of the fixed parameters, then the variadic one for the
rest. -/
def convertAll (W : World) (k : Nat) (i : Nat) : List Ty → Option Ty → List (Node × Ev) → M (List ArgV)
  | _, _, [] => pure []
  | t :: ts, v, a :: as => do
    let x ← convert W k i t a
    let xs ← convertAll W k i ts v as
    pure (x :: xs)
  | [], some v, a :: as => do
    let x ← convert W k i v a
    let xs ← convertAll W k i [] (some v) as
    pure (x :: xs)
  | [], none, _ :: _ => pure []

/-- A zero `reflect.Value`, on which `Call` panics. -/
def ArgV.isZero : ArgV → Bool
  | .zero => true
  | _ => false

/-- An argument as a foreign method sees it. -/
def ArgV.raw : ArgV → Raw
  | .str s => .str s
  | .content c => .content c
  | .node n _ => .node n
  | .zero => .content .nil

/-- `method.Call(argv)` (evaluate.go:229). -/
def callMethod (W : World) (k : Nat) (inc : Inc) (i : Nat) (m : Method) (args : List ArgV) : M Ret :=
  if args.any ArgV.isZero then M.lift .panic
  else match m with
    | .base b => callBase W k inc i b args
    | .foreign f => fun s => (.ok (f.run s.heap i (args.map ArgV.raw)), s)

/-- An error returned by a method (evaluate.go:239-250, 260-271). -/
def returnedError (fn : Str) (path : Str) (loc : Location) (e : Err) : Err :=
  if e.pretty then e else .failed fn e path loc

/-- What `VisitInvoke` does with the values returned (evaluate.go:231-288). Asserting that a nil content is a
`Content` panics. -/
def finish (fn : Str) (path : Str) (loc : Location) (r : Content) : Ret → M Content
  | .nothing => pure r
  | .error none => pure r
  | .error (some e) => M.lift (.err (returnedError fn path loc e))
  | .content c => if c.isNil then M.lift .panic else pure (append r [c])
  | .both _ (some e) => M.lift (.err (returnedError fn path loc e))
  | .both c none => if c.isNil then M.lift .panic else pure (append r [c])
  | .other => M.lift (.err (.plain q%"unknown return type"))

/-- The comparison of argument counts (evaluate.go:192-201). -/
def arityOk (sig : List Ty × Option Ty) (n : Nat) : Bool :=
  match sig.2 with
  | some _ => decide (sig.1.length ≤ n)
  | none => sig.1.length == n

/-- `VisitInvoke` (evaluate.go:138-289). The warning about slow calls (165-186) is left out. -/
def invokeFn (W : World) (k : Nat) (inc : Inc) (fn : Str) (loc : Location) (args : List (Node × Ev)) : Ev := fun i r => do
  M.upd i fun x => { x with invokeLoc := loc }
  let path ← filePathM i
  let st ← M.get
  match findMethod W (methodName fn) (st.heap.get i).plugins with
  | none => M.lift (.err (.undefined fn path loc))
  | some m =>
    if arityOk m.sig args.length then do
      let vals ← convertAll W k i m.sig.1 m.sig.2 args
      let ret ← callMethod W k inc i m vals
      finish fn path loc r ret
    else M.lift (.err (.plain q%"argument count mismatch"))

/-- The end of `VisitParagraph` (evaluate.go:76-93) given the non-nil lines. -/
def finishPara (r : Content) : List Content → M Content
  | [] => pure r
  | [x] =>
    match isFlow x with
    | none => M.lift .panic
    | some false => pure (append r [x])
    | some true => pure (append r [.para [x]])
  | xs => pure (append r [.para xs])

mutual
/-- `Visit` of a node by `Evaluate` (evaluate.go:29-289): appends to the result so far. `k` is the fuel for
`String()`, `inc` evaluates included files. -/
def evalNode (W : World) (k : Nat) (inc : Inc) : Node → Ev
  | .str s => fun _ r => pure (append r [.str s])                            -- evaluate.go:30-33
  | .seq ns => evalSeq W k inc ns                                            -- evaluate.go:36-45
  | .para ls => fun i r => do                                                -- evaluate.go:59-93
    let items ← evalLines W k inc ls i
    finishPara r items
  | .pre ls => fun i r => do                                                 -- evaluate.go:98-118
    let items ← evalLines W k inc ls i
    pure (append r [.pre items])
  | .invoke fn args loc => invokeFn W k inc fn loc (evalArgs W k inc args)   -- evaluate.go:138-289
/-- `VisitSequence` (evaluate.go:36-45). -/
def evalSeq (W : World) (k : Nat) (inc : Inc) : List Node → Ev
  | [] => fun _ r => pure r
  | n :: ns => fun i r => do
    let r' ← evalNode W k inc n i r
    evalSeq W k inc ns i r'
/-- The loops over lines (evaluate.go:63-74, 102-113): nil results are left out. -/
def evalLines (W : World) (k : Nat) (inc : Inc) : List (List Node) → Nat → M (List Content)
  | [] => fun _ => pure []
  | l :: ls => fun i => do
    let x ← evalSeq W k inc l i .nil
    let xs ← evalLines W k inc ls i
    pure (if x.isNil then xs else x :: xs)
/-- Arguments together with their evaluation. -/
def evalArgs (W : World) (k : Nat) (inc : Inc) : List Node → List (Node × Ev)
  | [] => []
  | n :: ns => (n, evalNode W k inc n) :: evalArgs W k inc ns
end

/-- Reading and parsing a file (processor.go:85-112). The last case is a failed type assertion, see
`C09_no_internal_failure`. -/
def parseFile (path : Str) (info : FileInfo) : Res Node :=
  match info.data with
  | none => .err (.plain q%"read error")
  | some d =>
    match Peg.parseDoc d with
    | none => .more
    | some (.err p) => .err (.parse path p)
    | some (.panic p) => .err (.parse path p)
    | some (.ok (.node n)) => .ok n
    | some (.ok _) => .panic

/-- Whether the cached node is used (processor.go:67-81), `none` otherwise. -/
def cached (cache : List (Str × Node × Nat)) (path : Str) (mtime : Nat) : Option Node :=
  match cache.lookup path with
  | some (n, t) => if mtime ≤ t then some n else none
  | none => none

/-- Storing into the cache (processor.go:131-136). -/
def remember (path : Str) (n : Node) (mtime : Nat) : M Unit := fun s =>
  (.ok (), { s with cache := (path, n, mtime) :: s.cache.filter fun e => e.1 ≠ path })

/-- `EvaluateFile` (processor.go:59-139) and, for nested files, `IncludeSection` (plugin.go:82-93) adding the new
section to the children of its parent. The recursion is bounded by fuel, used by each nesting of included files,
and also given to `String()`. -/
def evalFile (W : World) : Nat → Option Nat → Str → List Nat → M Nat
  | 0, _, _, _ => M.lift .more
  | n + 1, parent, path, plugins => do
    let st ← M.get
    match W.fs path with
    | none => M.lift (.err (.plain q%"stat error"))
    | some info =>
      let node ← match cached st.cache path info.mtime with
        | some node => pure node
        | none => M.lift (parseFile path info)
      let i ← M.alloc { Sec.fresh parent path with plugins := plugins }
      evalBody (evalNode W n (fun p q => do
        let c ← evalFile W n (some p) q [0]
        M.upd p fun x => { x with children := x.children ++ [c] }) node) i
      remember path node info.mtime
      pure i

end Booklit
