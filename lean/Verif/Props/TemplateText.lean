import Verif.Lemmas.TmplLayoutL
import Verif.Model.Shipped

/-!
C100: templates are read as they are written.
-/

namespace Booklit.Props

open Booklit Booklit.Tmpl Booklit.Templates

/-- **C100**: a template, of any length and any nesting of its actions, is read as what it stands for: texts, pipelines of functions, fields,
methods, constants, variables and parentheses, and `if`, `else if`, `else`, `with`, `range` and `template`. Not in it: the parts of the
template language that are not modelled. -/
theorem C100_reads {fns : List (Str × Fn)} {s : Str} {ts : List Tm} (h : Written s (marksL ts)) {ns : List TNode} (hn : nodesL fns ts = some ns) :
    parse fns s = some ns := parse_written h hn

/-- **C100**: the spaces in actions, the comments, and the spaces that actions take away do not matter, also if the template is not one
that can be read. -/
theorem C100_layout {fns : List (Str × Fn)} {s s' : Str} {ms : List Mark} (h : Written s ms) (h' : Written s' ms) : parse fns s = parse fns s' :=
  parse_layout h h'

/-- **C100**: and so the pages of two sets of templates that differ only in their layout are the same. -/
theorem C100_pages (M : Mode) {ts ts' : TSet} (hts : ∀ f, (ts f = none ∧ ts' f = none) ∨
      ∃ s s' ms, ts f = some s ∧ ts' f = some s' ∧ Written s ms ∧ Written s' ms) (S : Site) (h : Heap) (n i : Nat) :
    pageWith M ts S h n i = pageWith M ts' S h n i := by
  have hc : M.compile ts = M.compile ts' := by
    funext f
    rcases hts f with ⟨e, e'⟩ | ⟨s, s', ms, e, e', w, w'⟩
    · rw [Mode.compile, Mode.compile, e, e']
    · rw [Mode.compile, Mode.compile, e, e']
      show (if M.isHtml = true then compileHtml else compileText) s = (if M.isHtml = true then compileHtml else compileText) s'
      cases M.isHtml with
      | true => show compileHtml s = compileHtml s'; rw [compileHtml, compileHtml, parse_layout w w']
      | false => exact parse_layout w w'
  have hf : ∀ x, ts.find x = ts'.find x := by
    intro x
    rcases hts (x ++ q%".tmpl") with ⟨e, e'⟩ | ⟨s, s', ms, e, e', -, -⟩ <;> simp [TSet.find, e, e']
  have hh : ts.htmlPage (h.get i).style = ts'.htmlPage (h.get i).style := by simp only [TSet.htmlPage, hf]
  have ht : ts.textPage (h.get i).style = ts'.textPage (h.get i).style := by simp only [TSet.textPage, hf]
  rw [pageWith, pageWith, hc, hh, ht]

/-- The constants `true` and `false`. -/
theorem C100_constants (E : Env) (root dot : Val) (vars : Vars) (b : Bool) : eval E root dot vars (.ofBool b) = .ok (.bool b) := by
  cases b <;> rfl

/-- A template with most of it, -/
def someTemplate : List Tm :=
  [.text q%"<h1>",
   .ite none [[.fn q%"not", .paren [[.fields q%"Parent" [q%"Title"]]] []]] [.act [[.fields q%"Title" []], [.fn q%"render"]]]
     (.elif (some q%"x") [[.paren [[.fn q%"stripAux", .fields q%"Body" []]] [q%"String"]]] [.act [[.var q%"x" []]]] (.else_ [.text q%"-"])),
   .loop (some (some q%"i", q%"t")) [[.fields q%"Tags" []]] [.act [[.var q%"t" [q%"Name"]]]] .end_]

/-- its text, -/
def someTemplateText : Str :=
  q%"<h1>{{if not (.Parent.Title)}}{{.Title|render}}{{else if $x := (stripAux .Body).String -}}\n  {{$x}}{{else}}- {{- end}}{{/* tags */}}{{range $i, $t := .Tags}}{{ $t.Name }}{{end}}"

/-- and what it stands for. -/
theorem someTemplate_nodes : nodesL htmlFns someTemplate = some
    [.text q%"<h1>",
     .ite (.call .not [.field (.field .dot .parent []) .title []]) [.act .plain (.call .render [.field .dot .title []])]
       [.ite (.field (.call .stripAux [.field .dot .body []]) .string [])
         [.decl q%"x" (.field (.call .stripAux [.field .dot .body []]) .string []), .act .plain (.var q%"x")]
         [.decl q%"x" (.field (.call .stripAux [.field .dot .body []]) .string []), .text q%"-"]],
     .loop (some q%"i") (some q%"t") (.field .dot .tags []) [.act .plain (.field (.var q%"t") .name [])] []] := rfl

instance (s : Str) : Decidable (NameOk s) := inferInstanceAs (Decidable (_ ∧ _))

/-- Ways to write a token. -/
local macro "tok" : tactic => `(tactic| first
  | exact trivial
  | exact ⟨by decide, by decide⟩
  | exact ⟨by decide, by intro c h; cases h; decide⟩
  | exact (show ∀ f ∈ (_ : List Str), NameOk f by decide))

local macro "cut" : tactic => `(tactic| (intro hh c h; first | (cases hh; done) | (cases h; done) | (cases h; decide)))

/-- **C100**: `and` gives the first of its arguments that is false, or the last one; those after it are not evaluated, so they cannot fail. -/
theorem C100_and (E : Env) (root dot : Val) (vars : Vars) (es : List Expr) :
    eval E root dot vars (.call .and es) = deciding false (es.map (eval E root dot vars)) := by
  rw [eval]
  induction es with
  | nil => rfl
  | cons e es ih =>
    rw [evalTo, List.map_cons]
    cases es with
    | nil =>
      cases he : eval E root dot vars e with
      | ok v => by_cases hv : v.truth = false <;> simp [Res.bind, Res.map, hv, evalTo, Fn.apply, deciding]
      | _ => rfl
    | cons e' es =>
      rw [List.map_cons] at ih ⊢
      cases he : eval E root dot vars e with
      | ok v =>
        rw [deciding.eq_3 _ _ _ (by simp), Res.bind]
        by_cases hv : v.truth = false
        · rw [if_pos hv, if_pos hv]; rfl
        · rw [if_neg hv, if_neg hv, ← ih]
          have ht : v.truth = true := by simpa using hv
          cases hx : evalTo E root dot vars false (e' :: es) with
          | ok vs =>
            have hne : vs ≠ [] := by
              intro e0
              subst e0
              rw [evalTo] at hx
              cases h1 : eval E root dot vars e' with
              | ok w =>
                rw [h1, Res.bind] at hx
                by_cases hw : w.truth = false
                · rw [if_pos hw] at hx; cases hx
                · rw [if_neg hw] at hx
                  cases h2 : evalTo E root dot vars false es <;> rw [h2] at hx <;> cases hx
              | _ => rw [h1] at hx; cases hx
            cases vs with
            | nil => exact (hne rfl).elim
            | cons w ws => simp [Res.map, Res.bind, Fn.apply, ht]
          | _ => rfl
      | _ => rfl

/-- **C100**: `or` gives the first of its arguments that is true, or the last one; those after it are not evaluated. -/
theorem C100_or (E : Env) (root dot : Val) (vars : Vars) (es : List Expr) :
    eval E root dot vars (.call .or es) = deciding true (es.map (eval E root dot vars)) := by
  rw [eval]
  induction es with
  | nil => rfl
  | cons e es ih =>
    rw [evalTo, List.map_cons]
    cases es with
    | nil =>
      cases he : eval E root dot vars e with
      | ok v => by_cases hv : v.truth = true <;> simp [Res.bind, Res.map, hv, evalTo, Fn.apply, deciding]
      | _ => rfl
    | cons e' es =>
      rw [List.map_cons] at ih ⊢
      cases he : eval E root dot vars e with
      | ok v =>
        rw [deciding.eq_3 _ _ _ (by simp), Res.bind]
        by_cases hv : v.truth = true
        · rw [if_pos hv, if_pos hv]; rfl
        · rw [if_neg hv, if_neg hv, ← ih]
          have ht : v.truth = false := by simpa using hv
          cases hx : evalTo E root dot vars true (e' :: es) with
          | ok vs =>
            have hne : vs ≠ [] := by
              intro e0
              subst e0
              rw [evalTo] at hx
              cases h1 : eval E root dot vars e' with
              | ok w =>
                rw [h1, Res.bind] at hx
                by_cases hw : w.truth = true
                · rw [if_pos hw] at hx; cases hx
                · rw [if_neg hw] at hx
                  cases h2 : evalTo E root dot vars true es <;> rw [h2] at hx <;> cases hx
              | _ => rw [h1] at hx; cases hx
            cases vs with
            | nil => exact (hne rfl).elim
            | cons w ws => simp [Res.map, Res.bind, Fn.apply, ht]
          | _ => rfl
      | _ => rfl

/-- The template `{{if and .Parent .Parent.Title}}` can be used for sections without parent, which have no `.Parent.Title`. -/
def carefulDir : Dir := [(q%"careful.tmpl", ⟨1, q%"{{if and .Parent .Parent.Title}}under {{.Parent.Title | render}}{{else}}on top{{end}}"⟩)]

def carefulPage (i : Nat) : Res Str :=
  Tmpl.run htmlMode (htmlMode.compile ((langOf htmlMode).loadTemplates builtinHtml carefulDir (.new builtinHtml)).2.tmpl) ⟨false, fun _ => none⟩
    [{ Sec.fresh none q%"x.lit" with title := .str q%"A", style := q%"careful", children := [1] },
     { Sec.fresh (some 0) [] with title := .str q%"B", style := q%"careful" }] 10 (.content (.sect i))

example : (match carefulPage 0, carefulPage 1 with
    | .ok s, .ok t => s == q%"on top" && t == q%"under A"
    | _, _ => false) = true := by
  decide +kernel

/-- One token more. -/
theorem spells_cons (sp : Str) (t : Tok) {s w : Str} {ts : List Tok} (hsp : ∀ c ∈ sp, isSpace c = true) (ht : t.Ok) (ho : t.open_ = true → Cuts s)
    (h : Spells s ts) (e : w = sp ++ t.text ++ s) : Spells w (t :: ts) := e ▸ .cons hsp ht ho h

theorem someTemplate_written : Written someTemplateText (marksL someTemplate) := by
  have none' : Spells [] [] := .nil (by simp)
  have w8 : Written q%"{{end}}" [.act [.ident q%"end"]] :=
    .act (s := q%"end") (r := []) false (.cons (sp := []) (t := .ident q%"end") (s := []) (by decide) (by tok) (by cut) none') (by decide) (by decide) (fun h => by cases h) .nil
  have w7 : Written (q%"{{ $t.Name }}" ++ q%"{{end}}") [.act [.var q%"t" [q%"Name"]], .act [.ident q%"end"]] :=
    .act (s := q%" $t.Name ") false (.cons (sp := q%" ") (t := .var q%"t" [q%"Name"]) (s := q%" ") (by decide) (by tok) (by cut) (.nil (by decide)))
      (by decide) (by decide) (fun h => by cases h) w8
  have w6 : Written (q%"{{range $i, $t := .Tags}}" ++ (q%"{{ $t.Name }}" ++ q%"{{end}}"))
      [.act [.ident q%"range", .var q%"i" [], .comma, .var q%"t" [], .declare, .fields [q%"Tags"]], .act [.var q%"t" [q%"Name"]], .act [.ident q%"end"]] := by
    refine .act (s := q%"range $i, $t := .Tags") false ?_ (by decide) (by decide) (fun h => by cases h) w7
    refine spells_cons [] (.ident q%"range") (s := q%" $i, $t := .Tags") (by decide) (by tok) (by cut) ?_ rfl
    refine spells_cons q%" " (.var q%"i" []) (s := q%", $t := .Tags") (by decide) (by tok) (by cut) ?_ rfl
    refine spells_cons [] .comma (s := q%" $t := .Tags") (by decide) (by tok) (by cut) ?_ rfl
    refine spells_cons q%" " (.var q%"t" []) (s := q%" := .Tags") (by decide) (by tok) (by cut) ?_ rfl
    refine spells_cons q%" " .declare (s := q%" .Tags") (by decide) (by tok) (by cut) ?_ rfl
    exact spells_cons q%" " (.fields [q%"Tags"]) (s := []) (by decide) (by tok) (by cut) none' rfl
  have w5 := Written.comment (s := q%" tags ") (by decide) w6
  have w4 := Written.act (s := q%" end") true (spells_cons q%" " (.ident q%"end") (s := []) (by decide) (by tok) (by cut) none' rfl) (by decide) (by decide)
    (fun _ => ⟨_, _, rfl, rfl⟩) w5
  have w3 := Written.trimmed (s := q%"-") (sp := q%" ") (by decide) (by decide) (by intro c h; simp at h; subst h; decide) (by decide) w4 ⟨' ', _, rfl, rfl⟩
  have w2 := Written.act (s := q%"else") false (spells_cons [] (.ident q%"else") (s := []) (by decide) (by tok) (by cut) none' rfl) (by decide) (by decide) (fun h => by cases h) w3
  have w1 := Written.act (s := q%"$x") false (spells_cons [] (.var q%"x" []) (s := []) (by decide) (by tok) (by cut) none' rfl) (by decide) (by decide) (fun h => by cases h) w2
  have s0 : Spells q%"else if $x := (stripAux .Body).String" [.ident q%"else", .ident q%"if", .var q%"x" [], .declare, .lparen, .ident q%"stripAux",
      .fields [q%"Body"], .rparen [q%"String"]] := by
    refine spells_cons [] (.ident q%"else") (s := q%" if $x := (stripAux .Body).String") (by decide) (by tok) (by cut) ?_ rfl
    refine spells_cons q%" " (.ident q%"if") (s := q%" $x := (stripAux .Body).String") (by decide) (by tok) (by cut) ?_ rfl
    refine spells_cons q%" " (.var q%"x" []) (s := q%" := (stripAux .Body).String") (by decide) (by tok) (by cut) ?_ rfl
    refine spells_cons q%" " .declare (s := q%" (stripAux .Body).String") (by decide) (by tok) (by cut) ?_ rfl
    refine spells_cons q%" " .lparen (s := q%"stripAux .Body).String") (by decide) (by tok) (by cut) ?_ rfl
    refine spells_cons [] (.ident q%"stripAux") (s := q%" .Body).String") (by decide) (by tok) (by cut) ?_ rfl
    refine spells_cons q%" " (.fields [q%"Body"]) (s := q%").String") (by decide) (by tok) (by cut) ?_ rfl
    exact spells_cons [] (.rparen [q%"String"]) (s := []) (by decide) (by tok) (by cut) none' rfl
  have w0 := Written.actTrim (c := ' ') (sp := q%"\n  ") false s0 (by decide) (by decide) (fun h => by cases h) (by decide) (by decide) (by intro c h; cases h; decide) w1
  have v2 := Written.act (s := q%".Title|render") false (spells_cons [] (.fields [q%"Title"]) (s := q%"|render") (by decide) (by tok) (by cut)
    (spells_cons [] .pipe (s := q%"render") (by decide) (by tok) (by cut) (spells_cons [] (.ident q%"render") (s := []) (by decide) (by tok) (by cut) none' rfl) rfl) rfl)
    (by decide) (by decide) (fun h => by cases h) w0
  have s1 : Spells q%"if not (.Parent.Title)" [.ident q%"if", .ident q%"not", .lparen, .fields [q%"Parent", q%"Title"], .rparen []] := by
    refine spells_cons [] (.ident q%"if") (s := q%" not (.Parent.Title)") (by decide) (by tok) (by cut) ?_ rfl
    refine spells_cons q%" " (.ident q%"not") (s := q%" (.Parent.Title)") (by decide) (by tok) (by cut) ?_ rfl
    refine spells_cons q%" " .lparen (s := q%".Parent.Title)") (by decide) (by tok) (by cut) ?_ rfl
    refine spells_cons [] (.fields [q%"Parent", q%"Title"]) (s := q%")") (by decide) (by tok) (by cut) ?_ rfl
    exact spells_cons [] (.rparen []) (s := []) (by decide) (by tok) (by cut) none' rfl
  have v1 := Written.act false s1 (by decide) (by decide) (fun h => by cases h) v2
  exact Written.text (s := q%"<h1>") (by decide) (by decide) v1 (.inr ⟨_, rfl⟩) (by rintro ⟨c, r, h, e⟩; cases e)

example : parse htmlFns someTemplateText = some
    [.text q%"<h1>",
     .ite (.call .not [.field (.field .dot .parent []) .title []]) [.act .plain (.call .render [.field .dot .title []])]
       [.ite (.field (.call .stripAux [.field .dot .body []]) .string [])
         [.decl q%"x" (.field (.call .stripAux [.field .dot .body []]) .string []), .act .plain (.var q%"x")]
         [.decl q%"x" (.field (.call .stripAux [.field .dot .body []]) .string []), .text q%"-"]],
     .loop (some q%"i") (some q%"t") (.field .dot .tags []) [.act .plain (.field (.var q%"t") .name [])] []] :=
  C100_reads someTemplate_written someTemplate_nodes

end Booklit.Props
