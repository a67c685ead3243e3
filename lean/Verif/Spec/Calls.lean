import Verif.Lemmas.InvokeL

/-!
Specification vocabulary for calls: C31, C33, C37, C38, C40, C41.
-/

namespace Booklit

/-- The type of parameter number `j` of a signature; the variadic parameter stands for all further ones. -/
def typeAt : List Ty × Option Ty → Nat → Option Ty
  | (t :: _, _), 0 => some t
  | (_ :: ts, v), j + 1 => typeAt (ts, v) j
  | ([], v), _ => v

/-- A signature accepts `n` arguments. -/
def Accepts (sig : List Ty × Option Ty) (n : Nat) : Prop :=
  (sig.2 = none ∧ n = sig.1.length) ∨ (sig.2 ≠ none ∧ sig.1.length ≤ n)

/-- A value handed to a method has the declared type: a string, a content that is not nil, or the unevaluated
node that was written. -/
def HasType (written : Node) : Ty → Raw → Prop
  | .string, .str _ => True
  | .content, .content c => c.isNil = false
  | .node, .node n => n = written
  | _, _ => False

/-- The values a method with this signature may be handed for these arguments: as many, each of its type. -/
def WellTyped (sig : List Ty × Option Ty) (args : List Node) (vals : List Raw) : Prop :=
  Accepts sig vals.length ∧ vals.length = args.length ∧
    ∀ (j : Nat) (n : Node) (v : Raw), args[j]? = some n → vals[j]? = some v → ∃ t, typeAt sig j = some t ∧ HasType n t v

/-- The nodes evaluate, one after the other, to these contents. -/
inductive EvalsAll (W : World) (k : Nat) (inc : Inc) (i : Nat) : List Node → St → List Content → St → Prop
  | nil (s : St) : EvalsAll W k inc i [] s [] s
  | cons {n : Node} {ns : List Node} {s s1 s2 : St} {c : Content} {cs : List Content} :
      evalNode W k inc n i .nil s = (.ok c, s1) → EvalsAll W k inc i ns s1 cs s2 →
      EvalsAll W k inc i (n :: ns) s (c :: cs) s2

mutual
/-- No calls in the node. -/
def Node.callFree : Node → Bool
  | .str _ => true
  | .seq ns => callFreeL ns
  | .para ls => callFreeLL ls
  | .pre ls => callFreeLL ls
  | .invoke _ _ _ => false
def callFreeL : List Node → Bool
  | [] => true
  | n :: ns => n.callFree && callFreeL ns
def callFreeLL : List (List Node) → Bool
  | [] => true
  | l :: ls => callFreeL l && callFreeLL ls
end

/-- The error carries at most one layer of "function failed" around an error without a location. -/
def Err.onceWrapped : Err → Bool
  | .failed _ e _ _ => !e.pretty
  | _ => true

/-- Words of letters a-z. -/
def IsWord (w : Str) : Prop := w ≠ [] ∧ ∀ c ∈ w, 'a' ≤ c ∧ c ≤ 'z'

/-- Words separated by single dashes. -/
def dashed : List Str → Str
  | [] => []
  | [w] => w
  | w :: ws => w ++ '-' :: dashed ws

/-- The canonical function names. -/
def Canonical (fn : Str) : Prop := ∃ ws, ws ≠ [] ∧ (∀ w ∈ ws, IsWord w) ∧ fn = dashed ws

/-- A point of an evaluation: a node about to be evaluated in a section, the content collected so far, the state, and
the fuel. -/
structure Point where
  fuel : Nat
  node : Node
  sec : Nat
  acc : Content
  st : St

/-- What evaluation does from there. -/
def Point.run (W : World) (c : Point) : Res Content × St :=
  evalNode W c.fuel (incl W c.fuel) c.node c.sec c.acc c.st

/-- `Inside W p q`: evaluating from `p` comes to evaluate from `q`, in some nesting of sequences, paragraphs,
preformatted blocks, arguments, inline sections and included files. -/
inductive Inside (W : World) : Point → Point → Prop
  | here (p : Point) : Inside W p p
  | seq {k i : Nat} {pre post : List Node} {n : Node} {r r1 : Content} {s s1 : St} {q : Point} :
      evalSeq W k (incl W k) pre i r s = (.ok r1, s1) → Inside W ⟨k, n, i, r1, s1⟩ q →
      Inside W ⟨k, .seq (pre ++ n :: post), i, r, s⟩ q
  | para {k i : Nat} {pre post : List (List Node)} {l : List Node} {r : Content} {xs : List Content} {s s1 : St} {q : Point} :
      evalLines W k (incl W k) pre i s = (.ok xs, s1) → Inside W ⟨k, .seq l, i, .nil, s1⟩ q →
      Inside W ⟨k, .para (pre ++ l :: post), i, r, s⟩ q
  | pre {k i : Nat} {pre post : List (List Node)} {l : List Node} {r : Content} {xs : List Content} {s s1 : St} {q : Point} :
      evalLines W k (incl W k) pre i s = (.ok xs, s1) → Inside W ⟨k, .seq l, i, .nil, s1⟩ q →
      Inside W ⟨k, .pre (pre ++ l :: post), i, r, s⟩ q
  | arg {k i : Nat} {fn : Str} {pre post : List Node} {a : Node} {loc : Location} {r : Content} {s s1 : St} {path : Str}
      {m : Method} {t : Ty} {vs : List ArgV} {q : Point} :
      s.heap.filePath (s.heap.length + 1) i = some path →
      findMethod W (methodName fn) (s.heap.get i).plugins = some m →
      Accepts m.sig (pre ++ a :: post).length → typeAt m.sig pre.length = some t → t = .string ∨ t = .content →
      convertAll W k i m.sig.1 m.sig.2 (evalArgs W k (incl W k) pre) (s.calling i loc) = (.ok vs, s1) →
      Inside W ⟨k, a, i, .nil, s1⟩ q → Inside W ⟨k, .invoke fn (pre ++ a :: post) loc, i, r, s⟩ q
  | sect {k i : Nat} {n : Node} {loc : Location} {r : Content} {s : St} {path : Str} {q : Point} :
      s.heap.filePath (s.heap.length + 1) i = some path → (s.heap.get i).plugins.head? = some 0 →
      Inside W ⟨k, n, s.heap.length, .nil, (s.calling i loc).inline i⟩ q →
      Inside W ⟨k, .invoke q%"section" [n] loc, i, r, s⟩ q
  | file {k i : Nat} {a node : Node} {loc : Location} {r c : Content} {s s1 : St} {path path1 name full : Str}
      {info : FileInfo} {q : Point} :
      s.heap.filePath (s.heap.length + 1) i = some path → (s.heap.get i).plugins.head? = some 0 →
      evalNode W (k + 1) (incl W (k + 1)) a i .nil (s.calling i loc) = (.ok c, s1) →
      s1.heap.text W.brokenOk (k + 1) c = .ok name →
      s1.heap.filePath (s1.heap.length + 1) i = some path1 → full = joinPath (dirPath path1) name →
      W.fs full = some info → nodeOf s1 full info = .ok node →
      Inside W ⟨k, node, s1.heap.length, .nil, s1.file (some i) full [0]⟩ q →
      Inside W ⟨k + 1, .invoke q%"include-section" [a] loc, i, r, s⟩ q

end Booklit
