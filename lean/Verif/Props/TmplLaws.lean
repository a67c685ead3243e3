import Verif.Lemmas.TmplLawsL
import Verif.Model.Shipped

/-!
C105: a template can be rewritten by the laws of its language.
-/

namespace Booklit.Props

open Booklit Booklit.Tmpl Booklit.Templates

/-- **C105**: templates that are rewritten by the laws do the same, with whatever they are executed: they print the same, and fail with the same error. -/
theorem C105_laws {a b : List TNode} (h : Rewritten a b) (E : Env) (root dot : Val) (vars : Vars) :
    execL E root dot vars a = execL E root dot vars b := h.exec E root dot vars

/-- Sets of templates that do the same make the same pages. -/
theorem engine_same (M : Tmpl.Mode) {ts ts' : TSet} (hn : ∀ f, ts f = none ↔ ts' f = none) (h : RewrittenAll (M.compile ts) (M.compile ts')) (S : Site) :
    engineWith M ts S = engineWith M ts' S := by
  have hs : ∀ f, (ts f).isSome = (ts' f).isSome := by
    intro f
    have := hn f
    cases h1 : ts f <;> cases h2 : ts' f <;> simp_all
  have hf : ∀ x, ts.find x = ts'.find x := by
    intro x
    have := hs (x ++ q%".tmpl")
    simp [TSet.find, this]
  rw [engineWith, engineWith]
  congr 1
  funext hp n i
  have hh : ts.htmlPage (hp.get i).style = ts'.htmlPage (hp.get i).style := by simp only [TSet.htmlPage, hf]
  have ht : ts.textPage (hp.get i).style = ts'.textPage (hp.get i).style := by simp only [TSet.textPage, hf]
  rw [pageWith, pageWith, hh, ht]
  split
  · rfl
  · exact run_rewritten h M S hp n _

/-- **C105**: a set of templates of the text engine, rewritten by the laws, makes the same pages, with the same errors, of every book. -/
theorem C105_text (ext : Str) {ts ts' : TSet}
    (h : ∀ f, ts f = ts' f ∨ ∃ s s' ns ns', ts f = some s ∧ ts' f = some s' ∧ parse textFns s = some ns ∧ parse textFns s' = some ns' ∧
      Rewritten ns ns') (S : Site) : engineWith (textMode ext) ts S = engineWith (textMode ext) ts' S := by
  refine engine_same _ (fun f => ?_) (fun f => ?_) S
  · rcases h f with e | ⟨s, s', _, _, e, e', -⟩
    · rw [e]
    · rw [e, e']; constructor <;> intro h <;> cases h
  · show (((ts f).bind compileText = none ∧ (ts' f).bind compileText = none) ∨ _)
    rcases h f with e | ⟨s, s', ns, ns', e, e', p, p', r⟩
    · cases hc : (ts f).bind compileText with
      | none => left; rw [← e, hc]; exact ⟨rfl, rfl⟩
      | some ns => right; exact ⟨ns, ns, hc, by rw [← hc, e]; rfl, .refl _⟩
    · right
      refine ⟨ns, ns', ?_, ?_, r⟩
      · show (ts f).bind compileText = _; rw [e]; exact p
      · show (ts' f).bind compileText = _; rw [e']; exact p'

/-- **C105**: the same for the HTML engine, for the laws that say nothing about the text around actions. Also if a template cannot be used
because a value would be put where html/template does not allow it. -/
theorem C105_html {ts ts' : TSet}
    (h : ∀ f, ts f = ts' f ∨ ∃ s s' ns ns', ts f = some s ∧ ts' f = some s' ∧ parse htmlFns s = some ns ∧ parse htmlFns s' = some ns' ∧
      Turned ns ns') (S : Site) : engineWith htmlMode ts S = engineWith htmlMode ts' S := by
  refine engine_same _ (fun f => ?_) (fun f => ?_) S
  · rcases h f with e | ⟨s, s', _, _, e, e', -⟩
    · rw [e]
    · rw [e, e']; constructor <;> intro h <;> cases h
  · show (((ts f).bind compileHtml = none ∧ (ts' f).bind compileHtml = none) ∨
      ∃ ns ns', (ts f).bind compileHtml = some ns ∧ (ts' f).bind compileHtml = some ns' ∧ Rewritten ns ns')
    rcases h f with e | ⟨s, s', ns, ns', e, e', p, p', r⟩
    · rw [← e]
      cases hc : (ts f).bind compileHtml with
      | none => exact .inl ⟨rfl, rfl⟩
      | some ns => exact .inr ⟨ns, ns, rfl, rfl, .refl _⟩
    · rw [e, e']
      show (compileHtml s = none ∧ compileHtml s' = none) ∨ ∃ ns ns', compileHtml s = some ns ∧ compileHtml s' = some ns' ∧ Rewritten ns ns'
      rw [compileHtml, compileHtml, p, p']
      dsimp only [Option.bind]
      rcases r.notes .text with ⟨a, b⟩ | ⟨ms, ms', d, a, b, r⟩
      · rw [a, b]; exact .inl ⟨rfl, rfl⟩
      · rw [a, b]
        cases d <;> first
          | exact .inl ⟨rfl, rfl⟩
          | exact .inr ⟨ms, ms', rfl, rfl, r⟩

/-- **C105**: a truth value, as that of `.Ordered` of a list, is printed as the word that stands for it. -/
theorem C105_answers (E : Env) (root dot : Val) (vars : Vars) {c : Ctx} {e : Expr} {b : Bool} (hc : c.Wordy)
    (he : eval E root dot vars e = .ok (.bool b)) :
    exec E root dot vars (.act c e) = .ok (if b then q%"true" else q%"false") := by
  rw [exec, he]
  exact escape_bool E hc b

/-- **C105**: `{{range X}}A{{else}}B{{end}}`, if it succeeds, prints what `{{if X}}{{range X}}A{{end}}{{else}}B{{end}}` prints. -/
theorem C105_range (E : Env) (root dot : Val) (vars : Vars) (i x : Option Str) (e : Expr) (a b : List TNode) {s : Str}
    (h : exec E root dot vars (.loop i x e a b) = .ok s) : exec E root dot vars (.ite e [.loop i x e a []] b) = .ok s := by
  rw [exec] at h
  rw [exec, execL_single _ _ _ _ (by intro _ _ h; cases h), exec]
  cases hv : eval E root dot vars e with
  | ok v =>
    rw [hv] at h
    simp only [Res.bind] at h ⊢
    have ht : ∀ vs, v.items = some vs → v.truth = !vs.isEmpty := by
      intro vs hvs
      unfold Val.items at hvs
      split at hvs <;> cases hvs <;> simp [Val.truth]
    cases hi : v.items with
    | none => rw [hi] at h; cases h
    | some vs =>
      rw [hi] at h
      have := ht vs hi
      cases vs with
      | nil => rw [this]; exact h
      | cons w ws => rw [this]; exact h
  | _ => rw [hv] at h; cases h

/-- A template, -/
def firstWay : Str := q%"<p class=\"{{if not .Parent}}top{{else}}sub{{end}}\">{{if and .Parent .Parent.Title}}{{.Parent.Title | render}}{{else}}-{{end}}</p>"
/-- and the same, written in another way. -/
def otherWay : Str :=
  q%"<p class=\"{{if .Parent}}sub{{else}}top{{end}}\">{{if .Parent}}{{if .Parent.Title}}{{.Parent.Title | render}}{{else}}-{{end}}{{else}}-{{end}}</p>"

def firstNodes : List TNode :=
  [.text q%"<p class=\"", .ite (.call .not [.field .dot .parent []]) [.text q%"top"] [.text q%"sub"], .text q%"\">",
   .ite (.call .and [.field .dot .parent [], .field (.field .dot .parent []) .title []])
     [.act .plain (.call .render [.field (.field .dot .parent []) .title []])] [.text q%"-"], .text q%"</p>"]
def otherNodes : List TNode :=
  [.text q%"<p class=\"", .ite (.field .dot .parent []) [.text q%"sub"] [.text q%"top"], .text q%"\">",
   .ite (.field .dot .parent []) [.ite (.field (.field .dot .parent []) .title [])
     [.act .plain (.call .render [.field (.field .dot .parent []) .title []])] [.text q%"-"]] [.text q%"-"], .text q%"</p>"]

set_option maxRecDepth 20000 in
theorem firstWay_nodes : parse htmlFns firstWay = some firstNodes := by rfl
set_option maxRecDepth 20000 in
theorem otherWay_nodes : parse htmlFns otherWay = some otherNodes := by rfl

theorem ways_turned : Turned firstNodes otherNodes :=
  .after _ (.trans (.ifNot _ _ _ _) (.after _ (.after _ (.ifAnd _ _ _ _ _))))

/-- The templates that come with Booklit, and one for the style `where`. -/
def whereSet (s : Str) : TSet := ((langOf htmlMode).loadTemplates builtinHtml [(q%"where.tmpl", ⟨1, s⟩)] (.new builtinHtml)).2.tmpl

def wherePage (s : Str) (i : Nat) : Res Str :=
  Tmpl.run htmlMode (htmlMode.compile (whereSet s)) ⟨false, fun _ => none⟩
    [{ Sec.fresh none q%"x.lit" with title := .str q%"A", style := q%"where", children := [1] },
     { Sec.fresh (some 0) [] with title := .str q%"B", style := q%"where" }] 10 (.content (.sect i))

example : ∀ s ∈ [firstWay, otherWay], (match wherePage s 0, wherePage s 1 with
    | .ok s, .ok t => s == q%"<p class=\"top\">-</p>" && t == q%"<p class=\"sub\">A</p>"
    | _, _ => false) = true := by
  decide +kernel

example (S : Site) : engineWith htmlMode (fun f => if f = q%"page.tmpl" then some firstWay else none) S
    = engineWith htmlMode (fun f => if f = q%"page.tmpl" then some otherWay else none) S := by
  refine C105_html (fun f => ?_) S
  by_cases h : f = q%"page.tmpl"
  · right; exact ⟨firstWay, otherWay, firstNodes, otherNodes, if_pos h, if_pos h, firstWay_nodes, otherWay_nodes, ways_turned⟩
  · left; rw [if_neg h, if_neg h]

/-- Laws of the text engine. -/
example (S : Site) : engineWith (textMode q%"txt") (fun f => if f = q%"page.tmpl" then some q%"{{not .Parent}}!" else none) S
    = engineWith (textMode q%"txt") (fun f => if f = q%"page.tmpl" then some q%"{{if .Parent}}false!{{else}}true!{{end}}" else none) S := by
  refine C105_text _ (fun f => ?_) S
  by_cases h : f = q%"page.tmpl"
  · right
    refine ⟨_, _, [.act .plain (.call .not [.field .dot .parent []]), .text q%"!"],
      [.ite (.field .dot .parent []) [.text q%"false!"] [.text q%"true!"]], if_pos h, if_pos h, rfl, rfl, ?_⟩
    refine .trans (.answer _ .plain (.not _)) (.trans (.ifNot _ _ _ _) ?_)
    refine .trans (.ifThen _ _ _ _ (by intro x e h; simp at h) (by intro x e h; simp at h)) ?_
    exact .ite _ (.texts _ _ _) (.texts _ _ _)
  · left; rw [if_neg h, if_neg h]

/-- Ranges: the hypothesis is met, and it is needed: there is no range over a number, but 0 is nothing. -/
example (E : Env) : exec E .null (.list [.num 1, .num 2]) [] (.loop none (some q%"x") .dot [.act .plain (.var q%"x")] [.text q%"none"]) = .ok q%"12" := by
  rfl
example (E : Env) : exec E .null .null [] (.loop none none (.num 0) [] []) = tmplErr ∧ exec E .null .null [] (.ite (.num 0) [.loop none none (.num 0) [] []] []) = .ok [] :=
  ⟨rfl, rfl⟩

/-- An ordered list says so. -/
example (E : Env) (cs : List Content) : exec E .null (.content (.list cs true)) [] (.act .text (.field .dot .ordered [])) = .ok q%"true" :=
  C105_answers (b := true) E _ _ _ .text rfl

end Booklit.Props
