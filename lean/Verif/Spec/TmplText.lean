import Verif.Model.Engine

/-!
How templates are written (C100): expressions, actions and templates as texts, and what they stand for.
-/

namespace Booklit.Tmpl

open Booklit

/-! ### Tokens -/

/-- A token as it is written. -/
def Tok.text : Tok → Str
  | .ident s => s
  | .dot => q%"."
  | .fields fs => fs.flatMap ('.' :: ·)
  | .var x fs => '$' :: x ++ fs.flatMap ('.' :: ·)
  | .str s => '"' :: s.flatMap quoted ++ q%"\""
  | .num n => Nat.toDigits 10 n
  | .lparen => q%"("
  | .rparen fs => ')' :: fs.flatMap ('.' :: ·)
  | .pipe => q%"|"
  | .comma => q%","
  | .declare => q%":="
where
  /-- A character of a string. -/
  quoted (c : Char) : Str := if c = '\n' then q%"\\n" else if c = '"' then q%"\\\"" else if c = '\\' then q%"\\\\" else [c]

/-- A name: letters, digits and underscores. -/
def NameOk (s : Str) : Prop := s ≠ [] ∧ ∀ c ∈ s, isName c = true

/-- A token that can be written. Words begin with a letter or an underscore. -/
def Tok.Ok : Tok → Prop
  | .ident s => NameOk s ∧ ∀ c, s.head? = some c → ¬ ('0' ≤ c ∧ c ≤ '9')
  | .fields fs => fs ≠ [] ∧ ∀ f ∈ fs, NameOk f
  | .var x fs => (∀ c ∈ x, isName c = true) ∧ ∀ f ∈ fs, NameOk f
  | .rparen fs => ∀ f ∈ fs, NameOk f
  | _ => True

/-- What comes after a token that is not a bracket or sign of its own: nothing, or a character that ends it. -/
def Cuts (s : Str) : Prop := ∀ c, s.head? = some c → isSpace c = true ∨ c = ')' ∨ c = '|' ∨ c = ','

/-- Whether a token must be followed by one of the above. -/
def Tok.open_ : Tok → Bool
  | .lparen | .pipe | .comma | .declare => false
  | _ => true

/-- A text spells tokens: they stand in it one after the other with any spaces around them. -/
inductive Spells : Str → List Tok → Prop
  | nil {sp : Str} : (∀ c ∈ sp, isSpace c = true) → Spells sp []
  | cons {sp s : Str} {t : Tok} {ts : List Tok} : (∀ c ∈ sp, isSpace c = true) → t.Ok → (t.open_ = true → Cuts s) → Spells s ts →
      Spells (sp ++ t.text ++ s) (t :: ts)

/-! ### Expressions -/

/-- An operand as it is written: `.`, `.A.B`, `$x.A.B`, a string, a number, `true` or `false`, a function, or a pipeline in parentheses,
`(…).A.B`. A pipeline is a list of commands, with `|` between them, and a command a list of operands. -/
inductive Op where
  | dot
  | fields (f : Str) (fs : List Str)
  | var (x : Str) (fs : List Str)
  | str (s : Str)
  | num (n : Nat)
  | bool (b : Bool)
  | fn (f : Str)
  | paren (cs : List (List Op)) (fs : List Str)

mutual
/-- The tokens of an operand. -/
def Op.toks : Op → List Tok
  | .dot => [.dot]
  | .fields f fs => [.fields (f :: fs)]
  | .var x fs => [.var x fs]
  | .str s => [.str s]
  | .num n => [.num n]
  | .bool b => [.ident (if b then q%"true" else q%"false")]
  | .fn f => [.ident f]
  | .paren cs fs => .lparen :: pipeToks cs ++ [.rparen fs]
/-- The tokens of a command. -/
def opsToks : List Op → List Tok
  | [] => []
  | o :: os => o.toks ++ opsToks os
/-- The tokens of a pipeline. -/
def pipeToks : List (List Op) → List Tok
  | [] => []
  | [c] => opsToks c
  | c :: cs => opsToks c ++ .pipe :: pipeToks cs
end

mutual
/-- Every pipeline has commands, every command operands; words that stand for constants are not functions. -/
def Op.ok : Op → Bool
  | .fn f => f != q%"true" && f != q%"false"
  | .paren cs _ => pipeOk cs
  | _ => true
def opsOk : List Op → Bool
  | [] => true
  | o :: os => o.ok && opsOk os
def pipeOk : List (List Op) → Bool
  | [] => false
  | [c] => !c.isEmpty && opsOk c
  | c :: cs => !c.isEmpty && opsOk c && pipeOk cs
end

/-- Fields of fields of a value. -/
def Expr.dotted : Expr → List Str → Expr
  | e, [] => e
  | e, f :: fs => (Expr.field e (.ofName f) []).dotted fs

/-- The last of a chain of fields, a method, is given the arguments; a value without fields takes none. -/
def Expr.given (args : List Expr) : Expr → List Str → Option Expr
  | e, [] => if args.isEmpty then some e else none
  | e, [f] => some (.field e (.ofName f) args)
  | e, f :: fs => (Expr.field e (.ofName f) []).given args fs

mutual
/-- What an operand stands for, given arguments: a function is called with them, and so is the last field of a chain. -/
def Op.means (fns : List (Str × Fn)) (args : List Expr) : Op → Option Expr
  | .dot => Expr.given args .dot []
  | .fields f fs => Expr.given args .dot (f :: fs)
  | .var x fs => Expr.given args (if x = [] then .root else .var x) fs
  | .str s => Expr.given args (.str s) []
  | .num n => Expr.given args (.num n) []
  | .bool b => Expr.given args (.ofBool b) []
  | .fn f => (fns.find? (·.1 == f)).map fun p => .call p.2 args
  | .paren cs fs => (pipeMeans fns none cs).bind fun e => Expr.given args e fs
/-- Operands as arguments. -/
def opsMean (fns : List (Str × Fn)) : List Op → Option (List Expr)
  | [] => some []
  | o :: os => (o.means fns []).bind fun e => (opsMean fns os).map (e :: ·)
/-- What a pipeline stands for, after what stands for `before`: the value of each command is the last argument of the next one. -/
def pipeMeans (fns : List (Str × Fn)) (before : Option Expr) : List (List Op) → Option Expr
  | [] => before
  | [] :: _ => none
  | (o :: os) :: cs => (opsMean fns os).bind fun es => (o.means fns (es ++ before.toList)).bind fun e => pipeMeans fns (some e) cs
end

/-! ### Templates -/

mutual
/-- A template as it is written. `if`, `with` and `range` may declare variables. -/
inductive Tm where
  | text (s : Str)
  | act (p : List (List Op))
  | decl (x : Str) (p : List (List Op))
  | ite (x : Option Str) (p : List (List Op)) (a : List Tm) (b : Alt)
  | with_ (x : Option Str) (p : List (List Op)) (a : List Tm) (b : Alt)
  | loop (x : Option (Option Str × Str)) (p : List (List Op)) (a : List Tm) (b : Alt)
  | call (name : Str) (p : Option (List (List Op)))
/-- The rest of `if`, `with` and `range`: `{{end}}`, `{{else}}…{{end}}` or `{{else if …}}…`. -/
inductive Alt where
  | end_
  | else_ (b : List Tm)
  | elif (x : Option Str) (p : List (List Op)) (a : List Tm) (b : Alt)
end

/-- The tokens of a declaration. -/
def bindToks : Option Str → List Tok
  | none => []
  | some x => [.var x [], .declare]

/-- The tokens of the declarations of `range`. -/
def loopToks : Option (Option Str × Str) → List Tok
  | none => []
  | some (none, x) => [.var x [], .declare]
  | some (some i, x) => [.var i [], .comma, .var x [], .declare]

/-- A text, or an action with its tokens. -/
inductive Mark where
  | text (s : Str)
  | act (ts : List Tok)

mutual
/-- The texts and actions of a template. -/
def Tm.marks : Tm → List Mark
  | .text s => [.text s]
  | .act p => [.act (pipeToks p)]
  | .decl x p => [.act (.var x [] :: .declare :: pipeToks p)]
  | .ite x p a b => .act (.ident q%"if" :: bindToks x ++ pipeToks p) :: (marksL a ++ b.marks)
  | .with_ x p a b => .act (.ident q%"with" :: bindToks x ++ pipeToks p) :: (marksL a ++ b.marks)
  | .loop x p a b => .act (.ident q%"range" :: loopToks x ++ pipeToks p) :: (marksL a ++ b.marks)
  | .call name none => [.act [.ident q%"template", .str name]]
  | .call name (some p) => [.act (.ident q%"template" :: .str name :: pipeToks p)]
def marksL : List Tm → List Mark
  | [] => []
  | t :: ts => t.marks ++ marksL ts
def Alt.marks : Alt → List Mark
  | .end_ => [.act [.ident q%"end"]]
  | .else_ b => .act [.ident q%"else"] :: (marksL b ++ [.act [.ident q%"end"]])
  | .elif x p a b => .act (.ident q%"else" :: .ident q%"if" :: bindToks x ++ pipeToks p) :: (marksL a ++ b.marks)
end

/-- The text begins with an action that takes the spaces before it away, `{{- `. -/
def Trims (r : Str) : Prop := ∃ c r', isSpace c = true ∧ r = q%"{{-" ++ c :: r'

/-- A template written with these texts and actions. A text is without `{` and not empty, and followed by an action or nothing. No action
contains `}`. `{{- ` takes the spaces before it away, ` -}}` those after it. There may be comments, without `*` in them. -/
inductive Written : Str → List Mark → Prop
  | nil : Written [] []
  | text {s r : Str} {ms : List Mark} : s ≠ [] → '{' ∉ s → Written r ms → (r = [] ∨ q%"{{" <+: r) → ¬ Trims r → Written (s ++ r) (.text s :: ms)
  | trimmed {s sp r : Str} {ms : List Mark} : s ≠ [] → '{' ∉ s → (∀ c, s.getLast? = some c → isSpace c = false) → (∀ c ∈ sp, isSpace c = true) →
      Written r ms → Trims r → Written (s ++ sp ++ r) (.text s :: ms)
  | space {sp r : Str} {ms : List Mark} : (∀ c ∈ sp, isSpace c = true) → Written r ms → Trims r → Written (sp ++ r) ms
  | act {s r : Str} {ts : List Tok} {ms : List Mark} (left : Bool) : Spells s ts → ts ≠ [] → '}' ∉ s →
      (left = true → ∃ c s', isSpace c = true ∧ s = c :: s') → Written r ms →
      Written (q%"{{" ++ (if left then q%"-" else []) ++ s ++ q%"}}" ++ r) (.act ts :: ms)
  | actTrim {s sp r : Str} {c : Char} {ts : List Tok} {ms : List Mark} (left : Bool) : Spells s ts → ts ≠ [] → '}' ∉ s →
      (left = true → ∃ c s', isSpace c = true ∧ s = c :: s') → isSpace c = true → (∀ c ∈ sp, isSpace c = true) →
      (∀ c, r.head? = some c → isSpace c = false) → Written r ms →
      Written (q%"{{" ++ (if left then q%"-" else []) ++ s ++ c :: q%"-}}" ++ sp ++ r) (.act ts :: ms)
  | comment {s r : Str} {ms : List Mark} : '*' ∉ s → Written r ms → Written (q%"{{/*" ++ s ++ q%"*/}}" ++ r) ms

/-- The declaration of a variable before nodes. -/
def bindNode (x : Option Str) (e : Expr) : List TNode :=
  match x with
  | none => []
  | some x => [.decl x e]

/-- A pipeline by itself. -/
abbrev pipeMeans' (fns : List (Str × Fn)) (p : List (List Op)) : Option Expr := if pipeOk p then pipeMeans fns none p else none

/-- The words with which other actions begin. -/
def keywords : List Str := [q%"end", q%"else", q%"if", q%"with", q%"range", q%"template"]

/-- A pipeline that does not begin with such a word. -/
def plain : List (List Op) → Bool
  | (.fn f :: _) :: _ => !keywords.contains f
  | _ => true

mutual
/-- What a template stands for. The variable of `if` and `with` is known in both branches. -/
def Tm.node (fns : List (Str × Fn)) : Tm → Option TNode
  | .text s => some (.text s)
  | .act p => if plain p then (pipeMeans' fns p).map (.act .plain) else none
  | .decl x p => (pipeMeans' fns p).map (.decl x)
  | .ite x p a b => (pipeMeans' fns p).bind fun e => (nodesL fns a).bind fun as => (b.nodes fns).map fun bs =>
      .ite e (bindNode x e ++ as) (bindNode x e ++ bs)
  | .with_ x p a b => (pipeMeans' fns p).bind fun e => (nodesL fns a).bind fun as => (b.nodes fns).map fun bs =>
      .with_ e (bindNode x .dot ++ as) (bindNode x e ++ bs)
  | .loop x p a b => (pipeMeans' fns p).bind fun e => (nodesL fns a).bind fun as => (b.nodes fns).map fun bs =>
      .loop (x.bind (·.1)) (x.map (·.2)) e as bs
  | .call name none => some (.call name none)
  | .call name (some p) => (pipeMeans' fns p).map fun e => .call name (some e)
def nodesL (fns : List (Str × Fn)) : List Tm → Option (List TNode)
  | [] => some []
  | t :: ts => (t.node fns).bind fun n => (nodesL fns ts).map (n :: ·)
def Alt.nodes (fns : List (Str × Fn)) : Alt → Option (List TNode)
  | .end_ => some []
  | .else_ b => nodesL fns b
  | .elif x p a b => (pipeMeans' fns p).bind fun e => (nodesL fns a).bind fun as => (b.nodes fns).map fun bs =>
      [.ite e (bindNode x e ++ as) (bindNode x e ++ bs)]
end

/-! ### `and` and `or` -/

/-- The first of some values whose truth is `b`, or else the last one. What comes after it need not even have a value. -/
def deciding (b : Bool) : List (Res Val) → Res Val
  | [] => tmplErr
  | [r] => r
  | .ok v :: rs => if v.truth = b then .ok v else deciding b rs
  | r :: _ => r

end Booklit.Tmpl
