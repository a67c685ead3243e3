import Verif.Model.Engine

/-!
Specification vocabulary for C105: the laws by which the author of a template may rewrite it.
-/

namespace Booklit.Tmpl

/-- Nothing in the list declares a variable for what comes after it. -/
def NoDecl (ns : List TNode) : Prop := ∀ x e, TNode.decl x e ∉ ns

/-- Places where words are shown as they are: the text engine, text between tags, attributes that are no addresses, titles and text areas. -/
inductive Ctx.Wordy : Ctx → Prop
  | plain : Ctx.Wordy .plain
  | text : Ctx.Wordy .text
  | attr (e q p) : Ctx.Wordy (.value e .plain q p)
  | raw (e) : Ctx.Wordy (.raw e)

/-- An expression that is a question: `not X` or `eq X Y`. -/
inductive Question : Expr → Prop
  | not (x) : Question (.call .not [x])
  | eq (x y) : Question (.call .eq [x, y])

/-- The second list of nodes is the first one, rewritten. -/
inductive Rewritten : List TNode → List TNode → Prop
  | refl (a) : Rewritten a a
  | symm {a b} : Rewritten a b → Rewritten b a
  | trans {a b c} : Rewritten a b → Rewritten b c → Rewritten a c
  /-- in the middle of a template, -/
  | after (n) {a b} : Rewritten a b → Rewritten (n :: a) (n :: b)
  /-- and inside of `if`, `with` and `range` -/
  | ite (e) {a a' b b' ns} : Rewritten a a' → Rewritten b b' → Rewritten (.ite e a b :: ns) (.ite e a' b' :: ns)
  | with_ (e) {a a' b b' ns} : Rewritten a a' → Rewritten b b' → Rewritten (.with_ e a b :: ns) (.with_ e a' b' :: ns)
  | loop (i x e) {a a' b b' ns} : Rewritten a a' → Rewritten b b' → Rewritten (.loop i x e a b :: ns) (.loop i x e a' b' :: ns)
  /-- texts can be cut and put together -/
  | texts (s t ns) : Rewritten (.text s :: .text t :: ns) (.text (s ++ t) :: ns)
  | empty (ns) : Rewritten (.text [] :: ns) ns
  /-- `{{if not X}}A{{else}}B{{end}}` is `{{if X}}B{{else}}A{{end}}` -/
  | ifNot (e a b ns) : Rewritten (.ite (.call .not [e]) a b :: ns) (.ite e b a :: ns)
  /-- `{{if and X Y}}A{{else}}B{{end}}` is `{{if X}}{{if Y}}A{{else}}B{{end}}{{else}}B{{end}}` -/
  | ifAnd (x y a b ns) : Rewritten (.ite (.call .and [x, y]) a b :: ns) (.ite x [.ite y a b] b :: ns)
  /-- `{{if or X Y}}A{{else}}B{{end}}` is `{{if X}}A{{else}}{{if Y}}A{{else}}B{{end}}{{end}}` -/
  | ifOr (x y a b ns) : Rewritten (.ite (.call .or [x, y]) a b :: ns) (.ite x a [.ite y a b] :: ns)
  /-- what comes after an `if` can be put into both of its branches -/
  | ifThen (e a b ns) : NoDecl a → NoDecl b → Rewritten (.ite e a b :: ns) [.ite e (a ++ ns) (b ++ ns)]
  /-- text before an `if`, too -/
  | ifBefore (s e a b ns) : Rewritten (.text s :: .ite e a b :: ns) (.ite e (.text s :: a) (.text s :: b) :: ns)
  /-- `{{with X}}A{{else}}B{{end}}` is `{{if X}}{{with X}}A{{end}}{{else}}B{{end}}` -/
  | withElse (e a b ns) : Rewritten (.with_ e a b :: ns) (.ite e [.with_ e a []] b :: ns)
  /-- `{{with X}}{{.}}{{else}}B{{end}}` is `{{if X}}{{X}}{{else}}B{{end}}` -/
  | withDot (c e b ns) : Rewritten (.with_ e [.act c .dot] b :: ns) (.ite e [.act c e] b :: ns)
  /-- `{{with X}}{{template "name" .}}{{end}}` is `{{if X}}{{template "name" X}}{{end}}` -/
  | withCall (f e b ns) : Rewritten (.with_ e [.call f (some .dot)] b :: ns) (.ite e [.call f (some e)] b :: ns)
  /-- `{{$x := X}}{{$x}}` is `{{X}}` where `$x` is not used any more -/
  | inline (x c e) : Rewritten [.decl x e, .act c (.var x)] [.act c e]
  /-- an answer is printed as `{{if X}}true{{else}}false{{end}}` -/
  | answer {c e} (ns) : c.Wordy → Question e →
      Rewritten (.act c e :: ns) (.ite e [.text q%"true"] [.text q%"false"] :: ns)

/-- The same for templates as they are written, for the rewritings that do not depend on where in a page they are done: with the HTML engine, what
an action prints depends on the text around it. -/
inductive Turned : List TNode → List TNode → Prop
  | refl (a) : Turned a a
  | symm {a b} : Turned a b → Turned b a
  | trans {a b c} : Turned a b → Turned b c → Turned a c
  | after (n) {a b} : Turned a b → Turned (n :: a) (n :: b)
  | ite (e) {a a' b b' ns} : Turned a a' → Turned b b' → Turned (.ite e a b :: ns) (.ite e a' b' :: ns)
  | with_ (e) {a a' b b' ns} : Turned a a' → Turned b b' → Turned (.with_ e a b :: ns) (.with_ e a' b' :: ns)
  | loop (i x e) {a a' b b' ns} : Turned a a' → Turned b b' → Turned (.loop i x e a b :: ns) (.loop i x e a' b' :: ns)
  | ifNot (e a b ns) : Turned (.ite (.call .not [e]) a b :: ns) (.ite e b a :: ns)
  | ifAnd (x y a b ns) : Turned (.ite (.call .and [x, y]) a b :: ns) (.ite x [.ite y a b] b :: ns)
  | ifOr (x y a b ns) : Turned (.ite (.call .or [x, y]) a b :: ns) (.ite x a [.ite y a b] :: ns)
  | withDot (c e b ns) : Turned (.with_ e [.act c .dot] b :: ns) (.ite e [.act c e] b :: ns)
  | withCall (f e b ns) : Turned (.with_ e [.call f (some .dot)] b :: ns) (.ite e [.call f (some e)] b :: ns)
  | inline (x c e) : Turned [.decl x e, .act c (.var x)] [.act c e]

/-- The templates of a set are those of another one, rewritten. -/
def RewrittenAll (T T' : Compiled) : Prop :=
  ∀ f, (T f = none ∧ T' f = none) ∨ ∃ ns ns', T f = some ns ∧ T' f = some ns' ∧ Rewritten ns ns'

end Booklit.Tmpl
