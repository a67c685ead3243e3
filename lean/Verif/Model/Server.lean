import Verif.Model.Pages

/-!
The development server: `/repo/booklitcmd/server.go`.
-/

namespace Booklit

/-- `strings.HasSuffix`. -/
def hasSuffix (s suf : Str) : Bool := suf.isSuffixOf s

/-- `strings.TrimSuffix`. -/
def trimSuffix (s suf : Str) : Str := if hasSuffix s suf then s.take (s.length - suf.length) else s

/-- `strings.TrimPrefix(s, "/")`. -/
def trimSlash : Str → Str
  | '/' :: s => s
  | s => s

/-- The tag name asked for by a request (server.go:84-94); `none`: the request goes to the file server. -/
def requestTag (ext path : Str) : Option Str :=
  let path := if path = ['/'] then q%"/index." ++ ext else path
  if hasSuffix path ('.' :: ext) then some (trimSuffix (trimSlash path) ('.' :: ext)) else none

/-- `loadRequestedSection` after the book has been loaded (server.go:96-111): the section to render. The outer
`none` is missing fuel, the inner one "not found", for which the request goes to the file server. A tag whose section
is nil does not occur in a loaded book; here it counts as not found. -/
def Heap.requested (h : Heap) (ext : Str) (n root : Nat) (path : Str) : Option (Option Nat) :=
  match requestTag ext path with
  | none => some none
  | some name =>
    match h.findTag n root name with
    | none => none
    | some [] => some none
    | some (g :: _) => some g.sec

end Booklit
