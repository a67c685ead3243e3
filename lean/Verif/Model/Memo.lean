import Verif.Model.Pages

/-!
References remember the tag that they have been resolved to (`/repo/reference.go:37,86-112`).
-/

namespace Booklit

/-- A `Reference` as an object (reference.go:15-38), without its content, which has no part in resolving it. `memo` is the field `tag`,
`none` is nil. -/
structure RefObj where
  sec : Nat
  name : Str
  optional : Bool
  loc : Location
  memo : Option Tag

/-- `Reference.resolve` (reference.go:116-158): the only tag of the name is remembered, otherwise the object stays as it is. What is returned is what
`con.tag` is afterwards, or the error. -/
def RefObj.resolve (r : RefObj) (h : Heap) (n : Nat) : Option (Resolved × RefObj) :=
  (h.findTag n r.sec r.name).map fun
    | [t] => (.tag t, { r with memo := some t })
    | [] => if r.optional then (match r.memo with | some t => .tag t | none => .nothing, r) else (.unknown, r)
    | ts => (.ambiguous (ts.map fun t => (t.sec, t.loc)), r)

/-- `Reference.Tag` (reference.go:86-112). -/
def RefObj.tag (r : RefObj) (h : Heap) (n : Nat) (allowBroken : Bool) : Option (Resolved × RefObj) :=
  match r.memo with
  | some t => some (.tag t, r)
  | none =>
    match r.resolve h n with
    | none => none
    | some (x, r') =>
      match x, allowBroken with
      | .unknown, true | .ambiguous _, true =>
        some (.tag ⟨r.name, .str (q%"{broken reference: " ++ r.name ++ q%"}"), some r.sec, q%"broken", .nil, r.loc⟩, r')
      | x, _ => some (x, r')

/-- What `Tag` returns when it is called again and again (`none`: the fuel of that call was not enough, the object is then as before). -/
def RefObj.calls (r : RefObj) (h : Heap) : List (Nat × Bool) → List (Option Resolved)
  | [] => []
  | (n, b) :: cs =>
    match r.tag h n b with
    | none => none :: r.calls h cs
    | some (x, r') => some x :: r'.calls h cs

end Booklit
