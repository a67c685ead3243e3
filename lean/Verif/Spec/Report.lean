import Verif.Spec.Harmless
import Verif.Model.ErrorPage
import Verif.Spec.Origin
import Verif.Spec.Tree

/-!
Specification for error pages and reports (C75 to C77): what can be asked of a page, and what an error has to tell.
-/

namespace Booklit

mutual
/-- The elements with a property, in the order of the page, an element before those inside it: their text. -/
def Dom.texts (P : Str → List (Str × Str) → Bool) : Dom → List Str
  | .char _ => []
  | .elem n as ks => (if P n as then [domText ks] else []) ++ domTexts P ks
/-- The same, of several nodes. -/
def domTexts (P : Str → List (Str × Str) → Bool) : List Dom → List Str
  | [] => []
  | d :: ds => d.texts P ++ domTexts P ds
end

/-- The texts of the elements of a class. -/
def ofClass (c : Str) (ds : List Dom) : List Str := domTexts (fun _ as => as.contains (q%"class", c)) ds

/-- The texts of the elements with a name. -/
def ofName (n : Str) (ds : List Dom) : List Str := domTexts (fun m _ => m == n) ds

/-- The attributes of error pages; none of them runs or fetches anything. -/
def reportAttrs : List (Str × Str) :=
  [(q%"http-equiv", q%"content-type"), (q%"content", q%"text/html; charset=utf-8"), (q%"name", q%"viewport"),
    (q%"content", q%"width=device-width"), (q%"type", q%"text/css"), (q%"class", q%"error-panel"),
    (q%"class", q%"title-header"), (q%"class", q%"error"), (q%"class", q%"error-message"), (q%"class", q%"code-location"),
    (q%"class", q%"file-snippet"), (q%"class", q%"file-path"), (q%"class", q%"annotated-line"), (q%"class", q%"lineno"),
    (q%"class", q%"line"), (q%"class", q%"annotated"), (q%"class", q%"eof"), (q%"class", q%"raw-error")]

/-- Nothing in these nodes does more than show an error: no scripts, no links, no images. -/
def ReportOnly (ds : List Dom) : Prop :=
  ∀ n as ks, Within (.elem n as ks) ds →
    n ∈ [q%"html", q%"head", q%"meta", q%"title", q%"style", q%"body", q%"h1", q%"div", q%"pre", q%"span", q%"p", q%"ul", q%"li",
      q%"code"] ∧ ∀ a ∈ as, a ∈ reportAttrs

/-- Bytes as they arrive on a page, one character for each: HTML has no character zero, a replacement character stands
for it. -/
def arrivingBytes (bs : List Byte) : Str :=
  bs.flatMap fun b => if Char.ofNat b = '\x00' then (utf8 ['�']).map Char.ofNat else [Char.ofNat b]

/-- The places an error tells, in order: its own, then those it points to or those of the error it wraps. The length is
that of what is marked there. -/
def Err.places : Err → List Spot
  | .plain _ => []
  | .parse p l => [⟨p, l, 1⟩]
  | .undefined fn p l => [⟨p, l, (utf8 ('\\' :: fn)).length⟩]
  | .failed fn e p l => ⟨p, l, (utf8 ('\\' :: fn)).length⟩ :: e.places
  | .titleTwice p first l => [⟨p, l, (utf8 q%"\\title").length⟩, ⟨p, first, (utf8 q%"\\title").length⟩]
  | .unknownTag _ _ p l => [⟨p, l, (utf8 q%"\\reference").length⟩]
  | .ambiguous _ defined p l => ⟨p, l, (utf8 q%"\\reference").length⟩ :: defined.map fun d => ⟨d.1, d.2, 0⟩

/-- The headlines of an error: what happened, and what happened inside. -/
def Err.headlines : Err → List Str
  | .plain _ => []
  | .parse _ _ => [q%"parse error"]
  | .undefined fn _ _ => [q%"undefined function: \\" ++ fn]
  | .failed fn e _ _ => (q%"function \\" ++ fn ++ q%" returned an error") :: e.headlines
  | .titleTwice _ _ _ => [q%"cannot set title twice"]
  | .unknownTag t _ _ _ => [q%"reference to unknown tag: " ++ t]
  | .ambiguous t _ _ _ => [q%"ambiguous reference tag: " ++ t]

/-- The innermost error. -/
def Err.cause : Err → Err
  | .failed _ e _ _ => e.cause
  | e => e

/-- The text of the line that a snippet shows. -/
def Snippet.line : Snippet → Str
  | .shown true _ _ _ => q%"(end of file)"
  | .shown false a b c => arrivingBytes (a ++ b ++ c)
  | _ => []

/-- The marked part, if there is a line. -/
def Snippet.marks : Snippet → List Str
  | .shown false _ b _ => [arrivingBytes b]
  | _ => []

/-- The places an error tells that have a line: a section that is not written inside a file has none. -/
def Err.lines (e : Err) : List Spot := e.places.filter fun sp => sp.loc.line != 0

/-- The message that has no place: what the innermost error says if it is none of booklit's own. -/
def Err.raws (M : Wording) (e : Err) : List (List Byte) :=
  match e.cause with
  | .plain w => [M.plain w]
  | _ => []

/-- The tags that are suggested. -/
def Err.suggestions (M : Wording) (e : Err) : List Str :=
  match e.cause with
  | .unknownTag t known _ _ => known.filter fun g => M.similar t g
  | _ => []

/-- The other things said about an error, in paragraphs. -/
def Err.notes (M : Wording) (e : Err) : List (List Byte) :=
  match e.cause with
  | .parse p l => [M.parse p l]
  | .titleTwice _ _ _ =>
    [utf8 q%"The section's title was first set here:", utf8 q%"Maybe the second \\title should be in a \\section{...}?"]
  | .unknownTag t known _ _ =>
    if known.filter (fun g => M.similar t g) = [] then [utf8 q%"I couldn't find any similar tags. :("]
    else [utf8 q%"These tags seem similar:"] ++ (known.filter fun g => M.similar t g).map utf8
      ++ [utf8 q%"Did you mean one of these?"]
  | .ambiguous _ _ _ _ =>
    [utf8 q%"The same tag was defined in the following locations:", utf8 q%"One of these tags must be changed."]
  | _ => []

/-- The file `p` has a `\reference` to the tag `t`, and a call at `l`. It need not be the same call: a reference that has
calls in its arguments gets the place of the last of them (C38). -/
def World.RefIn (W : World) (p t : Str) (l : Location) : Prop :=
  (∃ fn, W.CallIn p fn l) ∧ ∃ fn a as l', W.Has p (.invoke fn (a :: as) l') ∧ methodName fn = q%"Reference" ∧ a.gives t

/-- Content that is neither a reference nor a target nor stands for a section. -/
def Content.placeless : Content → Bool
  | .ref .. | .target .. | .sect _ | .toc _ => false
  | _ => true

/-- The names of all tags of a book. -/
def Tree.tagNames (h : Heap) (t : Tree) : List Str := t.ids.flatMap fun i => (h.get i).tags.map Tag.name

/-- What is in the files. -/
def World.bytes (W : World) : Disk8 := fun p => ((W.fs p).bind FileInfo.data).map utf8

/-- Each place an error tells is that of a call in that file, or that file does not parse and this is where. -/
def World.Places (W : World) (e : Err) : Prop :=
  ∀ sp ∈ e.places, (∃ fn, W.CallIn sp.path fn sp.loc) ∨
    ∃ info d, e = .parse sp.path sp.loc ∧ W.fs sp.path = some info ∧ info.data = some d ∧ Peg.parseDoc d = some (.err sp.loc)

/-- Bytes that end with a line feed, if there are any. -/
def Ended (bs : List Byte) : Prop := bs = [] ∨ bs.getLast? = some 10

/-- A report has the line `line`, and the line `below` directly below it, both indented by `k` blanks. -/
def PrintsBelow (report : List Byte) (k : Nat) (line below : List Byte) : Prop :=
  ∃ pre post, report = pre ++ (List.replicate k 32 ++ line ++ [10]) ++ (List.replicate k 32 ++ below ++ [10]) ++ post ∧ Ended pre

/-- The line of carets: red, `n` of them after `pad` blanks. -/
def caretLine (pad n : Nat) : List Byte := List.replicate pad 32 ++ utf8 q%"\x1b[31m" ++ List.replicate n 94 ++ utf8 q%"\x1b[0m"

/-- A report has this text, from the beginning of a line on. -/
def PrintsText (report text : List Byte) : Prop := ∃ pre post, report = pre ++ text ++ post ∧ Ended pre

/-- What the first line of a report says, after the place. -/
def Err.says (M : Wording) : Err → List Byte
  | .plain w => M.plain w
  | .parse p l => utf8 q%"parse error: " ++ M.parse p l
  | .undefined fn _ _ => utf8 (q%"undefined function \\" ++ fn)
  | .failed fn _ _ _ => utf8 (q%"function \\" ++ fn ++ q%" returned an error")
  | .titleTwice _ _ _ => utf8 q%"cannot set title twice"
  | .unknownTag t _ _ _ => utf8 (q%"unknown tag '" ++ t ++ q%"'")
  | .ambiguous t _ _ _ => utf8 (q%"ambiguous target for tag '" ++ t ++ q%"'")

end Booklit
