import Verif.Spec.DocsSite
import Verif.Model.DocsSite
import Verif.Lemmas.ShippedHtml
import Verif.Lemmas.SectionL

/-!
The page template of Booklit's documentation.
-/

namespace Booklit.Tmpl

open Booklit Booklit.Templates

set_option maxRecDepth 100000

/-- An entry of the navigation. -/
def d_entry : List TNode :=
  [.text q%"\n          <li", .ite (.field .dot .contains [.root]) [.text q%" class=\"current\""] [], .text q%"><a href=\"",
    .act (.value none .url '"' .start) (.call .url [.field .dot .primaryTag []]), .text q%"\">",
    .act .text (.call .render [.call .stripAux [.field .dot .title []]]), .text q%"</a></li>\n        "]

/-- docs/html/page.tmpl. -/
def d_page : List TNode :=
  [.text docsHead, .act (.raw .title) (.field (.field .dot .title []) .string []), .text docsLinks,
    .ite (.call .not [.field .dot .parent []]) [.text q%" top"] [], .text q%"\">\n      <div class=\"page-header\">\n        <a href=\"",
    .act (.value none .url '"' .start) (.call .url [.field (.field .dot .top []) .primaryTag []]), .text docsTagline,
    .loop none none (.field (.field .dot .top []) .children []) d_entry [], .text q%"\n        </ul>\n      </nav>\n\n      ",
    .act .text (.call .render [.dot]), .text docsTail]

theorem docs_page : docsHtml q%"page.tmpl" = (docsDir.find? (·.1 == q%"page.tmpl")).map (trimNewlines ·.2.text) := by
  decide +kernel

set_option maxHeartbeats 2000000 in
theorem d_page_compiled : ((docsDir.find? (·.1 == q%"page.tmpl")).map (trimNewlines ·.2.text)).bind compileHtml = some d_page := by
  rfl

theorem d_page_is : htmlMode.compile docsHtml q%"page.tmpl" = some d_page := by
  rw [Mode.compile, docs_page]
  exact d_page_compiled

section
variable {E : Env} (hE : E.isHtml = true)
include hE

theorem exec_entry (i c : Nat) :
    execL E (.content (.sect i)) (.content (.sect c)) [] d_entry =
      (E.contains c i).bind fun cur =>
      (E.url (E.h.get c).primaryTag).bind fun u =>
      match stripAux (E.h.get c).title with
      | none => tmplErr
      | some d => (E.render d).map fun t => docsEntry cur u t := by
  simp only [d_entry, execL_text, execL_act, execL_ite, execL_nil, eval, evalL, Val.field, conField, secField, Res.ok_bind', Res.ok_map', Fn.apply]
  cases E.contains c i with
  | ok cur =>
    cases E.url (E.h.get c).primaryTag with
    | ok u =>
      cases stripAux (E.h.get c).title with
      | none => cases cur <;> rfl
      | some d =>
        simp only [Res.ok_bind', Res.ok_map', shown hE, Fn.apply]
        cases E.render d <;> cases cur <;> simp [Res.map, Res.bind, Ctx.escape, Val.print, Val.truth, docsEntry, execL_nil]
    | _ => cases cur <;> rfl
  | _ => rfl

theorem exec_docs (i : Nat) (hn : E.text .nil = .panic) :
    execL E (.content (.sect i)) (.content (.sect i)) [] d_page =
      (E.text (E.h.get i).title).recover.bind fun title =>
      (E.top i).bind fun t =>
      (E.url (E.h.get t).primaryTag).bind fun home =>
      (resMap (fun c => execL E (.content (.sect i)) (.content (.sect c)) [] d_entry) (E.h.get t).children).bind fun es =>
      (E.render (.sect i)).map fun body => docsPage ((E.h.get i).parent.isNone) title home es body := by
  have hs : Val.field E (.content (E.h.get i).title) .string [] = (E.text (E.h.get i).title).recover.map .str := by
    cases (E.h.get i).title with
    | nil => simp only [Val.field, conField, hn]; rfl
    | _ => rfl
  have hp : (Val.ofSec (E.h.get i).parent).truth = (E.h.get i).parent.isSome := by
    cases (E.h.get i).parent <;> rfl
  simp only [d_page, execL_text, execL_act, execL_ite, execL_loop, execL_nil, eval, evalL, Res.ok_bind', Res.ok_map', Fn.apply, shown hE]
  rw [show Val.field E (.content (.sect i)) .title [] = .ok (.content (E.h.get i).title) from rfl,
    show Val.field E (.content (.sect i)) .parent [] = .ok (.ofSec (E.h.get i).parent) from rfl,
    show Val.field E (.content (.sect i)) .top [] = (E.top i).map fun t => .content (.sect t) from rfl]
  simp only [Res.ok_bind', Res.ok_map', hs, Fn.apply, hp]
  cases (E.text (E.h.get i).title).recover with
  | ok a =>
    cases E.top i with
    | ok t =>
      simp only [Res.ok_bind', Res.ok_map']
      rw [show Val.field E (.content (.sect t)) .primaryTag [] = .ok (.tag (E.h.get t).primaryTag) from rfl,
        show Val.field E (.content (.sect t)) .children [] = .ok (.list ((E.h.get t).children.map fun c => .content (.sect c))) from rfl]
      simp only [Res.ok_bind', Res.ok_map', Fn.apply, Val.items, resMap_map]
      cases E.url (E.h.get t).primaryTag with
      | ok u =>
        generalize resMap _ (E.h.get t).children = x
        cases x with
        | ok es =>
          cases E.render (.sect i) <;> cases (E.h.get i).parent <;>
            simp [Res.map, Res.bind, Ctx.escape, Val.print, Val.truth, docsPage, execL_nil]
        | _ => cases (E.h.get i).parent <;> rfl
      | _ => cases (E.h.get i).parent <;> rfl
    | _ => cases (E.h.get i).parent <;> rfl
  | _ => rfl

end

end Booklit.Tmpl
