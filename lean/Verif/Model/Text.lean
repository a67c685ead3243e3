import Verif.Model.Pages

/-!
Results of operations that may fail, and `String()` of content (the `String` methods of `/repo/*.go`).
-/

namespace Booklit

/-- Errors. `pretty` ones implement `PrettyError` (errors.go:72-83). -/
inductive Err where
  /-- any other error: a message of `fmt.Errorf` or of the operating system, told apart by a keyword -/
  | plain (what : Str)
  /-- `ParseError` (errors.go:86-90) -/
  | parse (path : Str) (loc : Location)
  /-- `UndefinedFunctionError` (errors.go:201-205); the marked length is that of the backslash and the name -/
  | undefined (fn : Str) (path : Str) (loc : Location)
  /-- `FailedFunctionError` (errors.go:232-237) -/
  | failed (fn : Str) (err : Err) (path : Str) (loc : Location)
  /-- `TitleTwiceError` (errors.go:281-285): where the title was set first, and the new place -/
  | titleTwice (path : Str) (first : Location) (loc : Location)
  /-- `UnknownTagError` (errors.go:111-118). Instead of the similar tags (section.go:373-377) it has the names of all tags
  they are chosen from; the choice is made when the error is shown. -/
  | unknownTag (tag : Str) (known : List Str) (path : Str) (loc : Location)
  /-- `AmbiguousReferenceError` (errors.go:153-160), with the files and places of the tags -/
  | ambiguous (tag : Str) (defined : List (Str × Location)) (path : Str) (loc : Location)
deriving Inhabited

/-- Whether the error implements `PrettyError`. -/
def Err.pretty : Err → Bool
  | .plain _ => false
  | _ => true

/-- How an operation ends: a value, an error, a panic, or not within the given fuel. -/
inductive Res (α : Type) where
  | ok (a : α)
  | err (e : Err)
  | panic
  | more
deriving Inhabited

/-- Sequencing. -/
def Res.bind {α β : Type} : Res α → (α → Res β) → Res β
  | .ok a, f => f a
  | .err e, _ => .err e
  | .panic, _ => .panic
  | .more, _ => .more

/-- Apply a function to the value. -/
def Res.map {α β : Type} (f : α → β) : Res α → Res β
  | .ok a => .ok (f a)
  | .err e => .err e
  | .panic => .panic
  | .more => .more

/-- A recursion on fuel that ran out. -/
def Res.ofFuel {α : Type} : Option α → Res α
  | some a => .ok a
  | none => .more

/-- A dereferenced nil. -/
def Res.ofNil {α : Type} : Option α → Res α
  | some a => .ok a
  | none => .panic

/-- The loop of `Paragraph.String` (paragraph.go:12-21). -/
def joinPara : Str → List Str → Str
  | acc, [] => acc
  | acc, t :: ts => joinPara ((if acc.length > 0 then acc ++ [' '] else acc) ++ t) ts

/-- `Paragraph.String` (paragraph.go:11-28) from the texts of the lines. -/
def paraText (ts : List Str) : Str :=
  let s := joinPara [] ts
  if s.length > 0 then s ++ q%"\n\n" else s

/-- `strings.TrimRight(s, "\n")`. -/
def trimNl (s : Str) : Str := (s.reverse.dropWhile (· == '\n')).reverse

/-- `strings.Split(s, "\n")`; `cur` is the current line. -/
def splitNl (cur : Str) : Str → List Str
  | [] => [cur]
  | c :: s => if c = '\n' then cur :: splitNl [] s else splitNl (cur ++ [c]) s

/-- The inner loop of `List.String` (list.go:27-36). -/
def itemText (acc : Str) : List Str → Str
  | [] => acc
  | l :: ls =>
    itemText (if acc = [] then l else if l = [] then acc ++ ['\n'] else acc ++ q%"\n  " ++ l) ls

/-- `List.String` (list.go:23-46) from the texts of the items; `i` is the index of the first of them. -/
def listText (ordered : Bool) (i : Nat) : List Str → Str
  | [] => []
  | t :: ts =>
    let text := itemText [] (splitNl [] (trimNl t))
    (if ordered then decimal (i + 1) ++ q%". " ++ text else q%"* " ++ text) ++ q%"\n\n" ++ listText ordered (i + 1) ts

/-- The inner loop of `Table.String` (table.go:16-20). -/
def rowText (ts : List Str) : Str := '|' :: ts.flatMap fun t => ' ' :: t ++ q%" |"

mutual
/-- `String()` of content, given how references without content and sections are shown.

* string.go, sequence.go:19-26, paragraph.go:11-28, preformatted.go:10-19, reference.go:46-57,
  section.go:129-131, toc.go:17-19, styled.go:42-44, target.go:20-22, image.go:20-22, list.go:23-46, link.go (promoted
  from the embedded content, as for `Aux`), table.go:13-26, definitions.go:20-29, lazy.go:38-44.
* Calling it on nil panics. In definitions `%s` is applied to the contents, which prints a nil one as
  `%!s(<nil>)`. A panic inside `%s` is turned into text by `fmt`; here it stays a panic. -/
def Content.text (ref : Nat → Str → Bool → Location → Res Str) (sect : Nat → Res Str) : Content → Res Str
  | .nil => .panic
  | .str s => .ok s
  | .seq cs => (textL ref sect cs).map List.flatten
  | .para cs => (textL ref sect cs).map paraText
  | .pre cs => (textL ref sect cs).map fun ts => ts.flatMap (· ++ ['\n'])
  | .ref s t c o l => if c.isNil then ref s t o l else c.text ref sect
  | .sect i => sect i
  | .toc _ => .ok []
  | .styled _ _ c _ => c.text ref sect
  | .target _ _ _ _ => .ok []
  | .image p _ => .ok (q%"{image: " ++ p ++ q%"}")
  | .list cs o => (textL ref sect cs).map (listText o 0)
  | .link c _ => c.text ref sect
  | .table rs => (textR ref sect rs).map fun rows => (rows.flatMap fun r => rowText r ++ ['\n']) ++ ['\n']
  | .defs ds => (textD ref sect ds).map fun ts => ts.flatten ++ ['\n']
  | .lazy b _ => .ok (if b then q%"<lazy block>" else q%"<lazy flow>")
  | .aux c => c.text ref sect
/-- The texts of several contents, in order. -/
def textL (ref : Nat → Str → Bool → Location → Res Str) (sect : Nat → Res Str) : List Content → Res (List Str)
  | [] => .ok []
  | c :: cs => (c.text ref sect).bind fun t => (textL ref sect cs).map (t :: ·)
/-- The texts of the rows of a table. -/
def textR (ref : Nat → Str → Bool → Location → Res Str) (sect : Nat → Res Str) : List (List Content) → Res (List (List Str))
  | [] => .ok []
  | r :: rs => (textL ref sect r).bind fun t => (textR ref sect rs).map (t :: ·)
/-- The lines for definitions (definitions.go:23). -/
def textD (ref : Nat → Str → Bool → Location → Res Str) (sect : Nat → Res Str) : List (Content × Content) → Res (List Str)
  | [] => .ok []
  | (a, b) :: ds =>
    (if a.isNil then .ok q%"%!s(<nil>)" else a.text ref sect).bind fun ta =>
    (if b.isNil then .ok q%"%!s(<nil>)" else b.text ref sect).bind fun tb =>
    (textD ref sect ds).map ((ta ++ q%": " ++ tb ++ ['\n']) :: ·)
end

/-- `String()` of content in a heap of sections: references without content show the title of their tag, or a
message (reference.go:46-57; the messages are those of errors.go:118 and 165-168). `brokenOk` is the variable
`AllowBrokenReferences`. Titles may refer to each other, so this recurses with fuel. -/
def Heap.text (brokenOk : Bool) (h : Heap) : Nat → Content → Res Str
  | 0, c => c.text (fun _ _ _ _ => .more) (fun _ => .more)
  | n + 1, c => c.text
    (fun s t o l =>
      match h.refTag n brokenOk s t o l with
      | none => .more
      | some (.tag g) => h.text brokenOk n g.title
      | some .nothing => .panic
      | some .unknown => .ok (q%"{broken reference: " ++ t ++ q%": unknown tag '" ++ t ++ q%"'}")
      | some (.ambiguous _) =>
        .ok (q%"{broken reference: " ++ t ++ q%": ambiguous target for tag '" ++ t ++ q%"'}"))
    (fun i => (h.text brokenOk n (h.get i).title).map fun t =>
      q%"{section (" ++ (h.get i).path ++ q%"): " ++ t ++ q%"}")

end Booklit
