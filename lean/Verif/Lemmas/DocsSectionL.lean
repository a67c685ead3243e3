import Verif.Lemmas.DocsPluginL

/-!
The templates for sections of Booklit's documentation.
-/

namespace Booklit.Tmpl

open Booklit Booklit.Templates

set_option maxRecDepth 100000

/-- docs/html/section.tmpl. -/
def d_section : List TNode :=
  [.text q%"<h", .act (.tagName none) (.call .headerDepth [.dot]), .text q%" class=\"section-header\"><a id=\"",
    .act (.value none .plain '"' .start) (.field (.field .dot .primaryTag []) .name []), .text q%"\"></a>",
    .ite (.field .dot .parent []) [.text q%"<span class=\"section-number\"><a href=\"",
    .act (.value none .url '"' .start) (.call .url [(.field .dot .primaryTag [])]), .text q%"\">", .act .text (.field .dot .number []),
    .text q%"</a> </span>"] [], .act .text (.call .render [(.field .dot .title [])]), .text q%"</h",
    .act (.tagName none) (.call .headerDepth [.dot]), .text q%">\n\n",
    .act .text (.call .render [(.field .dot .body [])]), .text q%"\n\n",
    .ite (.call .not [(.field .dot .splitSections [])]) [.text q%"\n  ",
    .loop none none (.field .dot .children []) [.text q%"\n    ", .act .text (.call .render [.dot]),
    .text q%"\n  "] [], .text q%"\n"] []]

/-- docs/html/splash.tmpl. -/
def d_splash : List TNode := [.act .text (.call .render [(.field .dot .body [])])]

theorem docs_sections : ∀ f ∈ [q%"section.tmpl", q%"splash.tmpl"],
    docsHtml f = (docsDir.find? (·.1 == f)).map (trimNewlines ·.2.text) := by
  decide +kernel

theorem d_section_is : htmlMode.compile docsHtml q%"section.tmpl" = some d_section := by
  rw [Mode.compile, docs_sections _ (by simp)]
  rfl

theorem d_splash_is : htmlMode.compile docsHtml q%"splash.tmpl" = some d_splash := by
  rw [Mode.compile, docs_sections _ (by simp)]
  rfl

section
variable {E : Env} (hE : E.isHtml = true)
include hE

theorem exec_splash (i : Nat) : execL E (.content (.sect i)) (.content (.sect i)) [] d_splash = E.render (E.h.get i).body := by
  simp only [d_splash, execL_act, execL_nil, eval, evalL, Val.field, conField, secField, Res.ok_bind', Fn.apply, shown hE]
  cases h : E.render (E.h.get i).body <;> simp [Res.map, Res.bind, h, hE, Ctx.escape, Val.print]

theorem exec_dsection (hd : ∀ i d, E.header i = .ok d → d ≤ 6) (i : Nat) :
    execL E (.content (.sect i)) (.content (.sect i)) [] d_section =
      (E.header i).bind fun d =>
      (if (E.h.get i).parent.isSome then
        (E.url (E.h.get i).primaryTag).bind fun u => (E.number i).map fun k =>
          q%"<span class=\"section-number\"><a href=\"" ++ escURL u ++ q%"\">" ++ escText k ++ q%"</a> </span>"
       else .ok []).bind fun num =>
      (E.render (E.h.get i).title).bind fun title =>
      (E.render (E.h.get i).body).bind fun body =>
      (if (E.h.get i).split then .ok []
       else (resMap (fun c => E.render (.sect c)) (E.h.get i).children).map fun ts =>
        q%"\n  " ++ (ts.flatMap fun t => q%"\n    " ++ t ++ q%"\n  ") ++ q%"\n").map fun kids =>
      q%"<h" ++ decimal d ++ q%" class=\"section-header\"><a id=\"" ++ escAttr (E.h.get i).primaryTag.name ++ q%"\"></a>"
        ++ num ++ title ++ q%"</h" ++ decimal d ++ q%">\n\n" ++ body ++ q%"\n\n" ++ kids := by
  have kids : execL E (.content (.sect i)) (.content (.sect i)) [] [.text q%"\n  ",
    .loop none none (.field .dot .children []) [.text q%"\n    ", .act .text (.call .render [.dot]),
    .text q%"\n  "] [], .text q%"\n"] = (resMap (fun c => E.render (.sect c)) (E.h.get i).children).map fun ts =>
        q%"\n  " ++ (ts.flatMap fun t => q%"\n    " ++ t ++ q%"\n  ") ++ q%"\n" := by
    have := exec_each hE q%"\n    " q%"\n  " ((E.h.get i).children.map .sect) (.content (.sect i))
    rw [execL_text, execL_loop]
    simp only [eval, evalL, Val.field, conField, secField, Val.items, Res.ok_bind']
    rw [show ((E.h.get i).children.map fun c => Val.content (.sect c)) = ((E.h.get i).children.map Content.sect).map .content by
      rw [List.map_map]; rfl, this, resMap_map]
    simp only [execL_text, execL_nil, Res.ok_map']
    cases resMap (fun c => E.render (.sect c)) (E.h.get i).children <;> simp [Res.map, Res.bind, List.flatMap]
  have num : execL E (.content (.sect i)) (.content (.sect i)) [] [.text q%"<span class=\"section-number\"><a href=\"",
      .act (.value none .url '"' .start) (.call .url [(.field .dot .primaryTag [])]), .text q%"\">", .act .text (.field .dot .number []),
      .text q%"</a> </span>"] = (E.url (E.h.get i).primaryTag).bind fun u => (E.number i).map fun k =>
        q%"<span class=\"section-number\"><a href=\"" ++ escURL u ++ q%"\">" ++ escText k ++ q%"</a> </span>" := by
    simp only [execL_text, execL_act, execL_nil, eval, evalL, Val.field, conField, secField, Res.ok_bind', Fn.apply]
    cases hu : E.url (E.h.get i).primaryTag <;> cases hn : E.number i <;> simp [Res.map, Res.bind, Ctx.escape, Val.print, hu, hn]
  rw [d_section]
  generalize hk : [TNode.text q%"\n  ", .loop none none (.field .dot .children []) [.text q%"\n    ", .act .text (.call .render [.dot]),
    .text q%"\n  "] [], .text q%"\n"] = K at kids ⊢
  generalize hn : [TNode.text q%"<span class=\"section-number\"><a href=\"",
      .act (.value none .url '"' .start) (.call .url [(.field .dot .primaryTag [])]), .text q%"\">", .act .text (.field .dot .number []),
      .text q%"</a> </span>"] = N at num ⊢
  simp only [execL_text, execL_act, execL_ite, execL_nil, eval, evalL, Val.field, conField, secField, tagField, Res.ok_bind', Res.ok_map', Fn.apply, kids, num,
    shown hE]
  generalize ((E.url (E.h.get i).primaryTag).bind fun u => (E.number i).map fun k =>
        q%"<span class=\"section-number\"><a href=\"" ++ escURL u ++ q%"\">" ++ escText k ++ q%"</a> </span>") = A
  cases hh : E.header i with
  | ok d =>
    have hN : ((if (Val.ofSec (E.h.get i).parent).truth then A else .ok [])) = (if (E.h.get i).parent.isSome then A else .ok []) := by
      cases (E.h.get i).parent <;> rfl
    rw [hN]
    generalize (if (E.h.get i).parent.isSome then A else Res.ok []) = num
    simp only [Res.ok_bind', Res.ok_map', Ctx.escape, Val.print, decimal_name (hd i d hh)]
    cases num with
    | ok num =>
      cases E.render (E.h.get i).title with
      | ok title =>
        cases E.render (E.h.get i).body with
        | ok body =>
          cases (E.h.get i).split with
          | true => simp [Res.map, Res.bind, Val.truth]
          | false =>
            cases resMap (fun c => E.render (.sect c)) (E.h.get i).children <;> simp [Res.map, Res.bind, Val.truth]
        | _ => rfl
      | _ => rfl
    | _ => rfl
  | _ => simp [Res.map, Res.bind]

end

end Booklit.Tmpl
