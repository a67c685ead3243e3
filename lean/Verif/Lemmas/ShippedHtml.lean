import Verif.Lemmas.EngineL

/-!
What the templates of the HTML engine that come with Booklit do.
-/

namespace Booklit.Tmpl

open Booklit Booklit.Templates

theorem indexed_append {α β : Type} (f : Nat × α → Res β) (k : Nat) (a : α) (as : List α) :
    resMap f (indexed k (a :: as)) = (f (k, a)).bind fun b => (resMap f (indexed (k + 1) as)).map (b :: ·) := rfl

/-- A loop that does not use its index. -/
theorem resMap_indexed {α β : Type} (f : α → Res β) (l : List α) : ∀ k, resMap (fun p => f p.2) (indexed k l) = resMap f l := by
  induction l with
  | nil => intro k; rfl
  | cons a l ih => intro k; rw [indexed_append, ih]; rfl

theorem resMap_map {α β γ : Type} (f : β → Res γ) (g : α → β) (l : List α) : resMap f (l.map g) = resMap (fun a => f (g a)) l := by
  induction l with
  | nil => rfl
  | cons a l ih => rw [List.map_cons]; simp only [resMap, ih]

theorem resMap_then {α β γ : Type} (f : α → Res β) (g : β → γ) (l : List α) :
    resMap (fun a => (f a).map g) l = (resMap f l).map (List.map g) := by
  induction l with
  | nil => rfl
  | cons a l ih =>
    simp only [resMap, ih]
    cases f a with
    | ok b => cases resMap f l <;> rfl
    | _ => rfl

/-- A loop that puts a separator before all but the first. -/
theorem resMap_joined {α : Type} (f : α → Res Str) (sep : Str) (l : List α) : ∀ k, 0 < k →
    resMap (fun p : Nat × α => (f p.2).map fun t => (if p.1 != 0 then sep else []) ++ t) (indexed k l) =
      (resMap f l).map (List.map (sep ++ ·)) := by
  induction l with
  | nil => intro k _; rfl
  | cons a l ih =>
    intro k hk
    rw [indexed_append, ih (k + 1) (by omega), if_pos (by simp; omega)]
    simp only [resMap]
    cases f a with
    | ok b => cases resMap f l <;> rfl
    | _ => rfl

theorem joinWith_cons (sep t : Str) (ts : List Str) : joinWith sep (t :: ts) = t ++ (ts.map (sep ++ ·)).flatten := by
  induction ts generalizing t with
  | nil => simp [joinWith]
  | cons u ts ih => rw [joinWith, ih]; · simp
                    · intro h; cases h

theorem resMap_join {α : Type} (f : α → Res Str) (sep : Str) (l : List α) :
    (resMap (fun p : Nat × α => (f p.2).map fun t => (if p.1 != 0 then sep else []) ++ t) (indexed 0 l)).map List.flatten =
      (resMap f l).map (joinWith sep) := by
  cases l with
  | nil => rfl
  | cons a l =>
    rw [indexed_append, resMap_joined f sep l 1 (by omega)]
    simp only [resMap]
    cases f a with
    | ok b =>
      cases resMap f l with
      | ok ts => simp [Res.bind, Res.map, joinWith_cons]
      | _ => rfl
    | _ => rfl

theorem Res.map_map {α β γ : Type} (x : Res α) (f : α → β) (g : β → γ) : (x.map f).map g = x.map (g ∘ f) := by
  cases x <;> rfl

theorem Res.map_bind' {α β γ : Type} (x : Res α) (f : α → β) (g : β → Res γ) : (x.map f).bind g = x.bind fun a => g (f a) := by
  cases x <;> rfl

theorem Res.bind_ok' {α : Type} (x : Res α) : x.bind .ok = x := by
  cases x <;> rfl

theorem Res.bind_map' {α β γ : Type} (x : Res α) (f : α → Res β) (g : β → γ) : (x.bind f).map g = x.bind fun a => (f a).map g := by
  cases x <;> rfl

theorem Res.bind_bind' {α β γ : Type} (x : Res α) (f : α → Res β) (g : β → Res γ) : (x.bind f).bind g = x.bind fun a => (f a).bind g := by
  cases x <;> rfl

theorem Res.map_id' {α : Type} (x : Res α) : x.map (fun a => a) = x := by
  cases x <;> rfl

theorem Res.bind_map_ok {α β : Type} (x : Res α) (f : α → β) : (x.bind fun a => .ok (f a)) = x.map f := by
  cases x <;> rfl

theorem Res.ok_bind' {α β : Type} (a : α) (f : α → Res β) : (Res.ok a).bind f = f a := rfl

theorem Res.ok_map' {α β : Type} (a : α) (f : α → β) : (Res.ok a).map f = .ok (f a) := rfl

theorem Res.err_bind' {α β : Type} (f : α → Res β) : (tmplErr : Res α).bind f = tmplErr := rfl

theorem execL_nil (E : Env) (root dot : Val) (vars : Vars) : execL E root dot vars [] = .ok [] := by
  rw [execL]

theorem execL_text (E : Env) (root dot : Val) (vars : Vars) (s : Str) (ns : List TNode) :
    execL E root dot vars (.text s :: ns) = (execL E root dot vars ns).map (s ++ ·) := by
  rw [execL, exec]; · rfl
  · intro x e he; cases he

theorem execL_act (E : Env) (root dot : Val) (vars : Vars) (c : Ctx) (e : Expr) (ns : List TNode) :
    execL E root dot vars (.act c e :: ns) =
      ((eval E root dot vars e).bind fun v => c.escape E v).bind fun s => (execL E root dot vars ns).map (s ++ ·) := by
  rw [execL, exec]
  intro x e he; cases he

theorem execL_ite (E : Env) (root dot : Val) (vars : Vars) (e : Expr) (a b ns : List TNode) :
    execL E root dot vars (.ite e a b :: ns) =
      ((eval E root dot vars e).bind fun v => if v.truth then execL E root dot vars a else execL E root dot vars b).bind fun s =>
        (execL E root dot vars ns).map (s ++ ·) := by
  rw [execL, exec]
  intro x e he; cases he

theorem execL_call (E : Env) (root dot : Val) (vars : Vars) (name : Str) (e : Expr) (ns : List TNode) :
    execL E root dot vars (.call name (some e) :: ns) =
      ((eval E root dot vars e).bind fun v => E.call name v).bind fun s => (execL E root dot vars ns).map (s ++ ·) := by
  rw [execL, exec]
  intro x e he; cases he

theorem execL_loop (E : Env) (root dot : Val) (vars : Vars) (e : Expr) (a ns : List TNode) :
    execL E root dot vars (.loop none none e a [] :: ns) =
      ((eval E root dot vars e).bind fun v => match v.items with
        | none => tmplErr
        | some vs => (resMap (fun w => execL E root w vars a) vs).map List.flatten).bind fun s =>
        (execL E root dot vars ns).map (s ++ ·) := by
  rw [execL, exec]
  · congr 2
    funext v
    cases v.items with
    | none => rfl
    | some vs =>
      cases vs with
      | nil => simp [execL_nil, resMap, Res.map]
      | cons w ws => exact congrArg (Res.map List.flatten) (resMap_indexed (fun w => execL E root w vars a) (w :: ws) 0)
  · intro x e he; cases he

theorem execL_loop2 (E : Env) (root dot : Val) (vars : Vars) (i x : Str) (e : Expr) (a ns : List TNode) :
    execL E root dot vars (.loop (some i) (some x) e a [] :: ns) =
      ((eval E root dot vars e).bind fun v => match v.items with
        | none => tmplErr
        | some vs => (resMap (fun p : Nat × Val => execL E root p.2 ((x, p.2) :: (i, .num p.1) :: vars) a) (indexed 0 vs)).map
            List.flatten).bind fun s =>
        (execL E root dot vars ns).map (s ++ ·) := by
  rw [execL, exec]
  · congr 2
    funext v
    cases v.items with
    | none => rfl
    | some vs =>
      cases vs with
      | nil => simp [execL_nil, resMap, indexed, Res.map]
      | cons w ws => rfl
  · intro x e he; cases he

theorem indexed_map {α β : Type} (g : α → β) (l : List α) : ∀ k, indexed k (l.map g) = (indexed k l).map fun p => (p.1, g p.2) := by
  induction l with
  | nil => intro k; rfl
  | cons a l ih => intro k; simp [indexed, ih]

section
variable {E : Env} (hE : E.isHtml = true)
include hE

/-- Rendered content between tags. -/
theorem shown (c : Content) (k : Str → Res Str) :
    (((E.render c).map fun s => if E.isHtml then Val.html s else .str s).bind fun v => Ctx.text.escape E v).bind k = (E.render c).bind k := by
  rw [hE]
  cases E.render c <;> rfl

theorem exec_wrap (a z : Str) (st b c ps) :
    execL E (.content (.styled st b c ps)) (.content (.styled st b c ps)) []
      [.text a, .act .text (.call .render [.field .dot .content []]), .text z] = (E.render c).map fun t => a ++ t ++ z := by
  simp [execL, exec, eval, evalL, Res.bind, Res.map, Val.field, conField, Fn.apply, hE]
  cases E.render c <;> simp [Ctx.escape]

theorem exec_link (c u) :
    execL E (.content (.link c u)) (.content (.link c u)) [] h_link =
      (E.render c).map fun t => q%"<a href=\"" ++ escURL u ++ q%"\">" ++ t ++ q%"</a>" := by
  simp [h_link, execL, exec, eval, evalL, Res.bind, Res.map, Val.field, conField, Fn.apply, hE, Ctx.escape, Val.print]
  cases E.render c <;> simp [Ctx.escape]

theorem exec_lines (sep : Str) (cs : List Content) (root : Val) :
    (resMap (fun p : Nat × Val => execL E root p.2 [(q%"line", p.2), (q%"index", .num p.1)]
      [.ite (.var q%"index") [.text sep] [], .act .text (.call .render [(.var q%"line")])]) (indexed 0 (cs.map .content))).map List.flatten
      = (resMap E.render cs).map (joinWith sep) := by
  rw [← resMap_join, indexed_map, resMap_map]
  congr 2
  funext p
  simp [execL, exec, eval, evalL, Vars.find, Res.bind, Res.map, Fn.apply, hE, Val.truth]
  by_cases h0 : p.1 = 0 <;> simp [h0, execL, exec, Res.map, Res.bind] <;> cases E.render p.2 <;> simp [Ctx.escape]

theorem exec_paragraph (cs) :
    execL E (.content (.para cs)) (.content (.para cs)) [] h_paragraph =
      (resMap E.render cs).map fun ts => q%"<p>" ++ joinWith [' '] ts ++ q%"</p>" := by
  have := exec_lines hE q%" " cs (.content (.para cs))
  simp only [h_paragraph, execL_text, execL_loop2, execL_nil, eval, Val.items, Res.ok_bind', Res.ok_map', this]
  cases resMap E.render cs <;> simp [Res.map, Res.bind]

theorem exec_preformatted (cs) :
    execL E (.content (.pre cs)) (.content (.pre cs)) [] h_preformatted = (resMap E.render cs).map (joinWith ['\n']) := by
  have := exec_lines hE q%"\n" cs (.content (.pre cs))
  simp only [h_preformatted, execL_loop2, execL_nil, eval, Val.items, Res.ok_bind', Res.ok_map', this]
  cases resMap E.render cs <;> simp [Res.map, Res.bind]

/-- Every element of a loop, rendered between two texts. -/
theorem exec_each (a z : Str) (cs : List Content) (root : Val) :
    resMap (fun w => execL E root w [] [.text a, .act .text (.call .render [.dot]), .text z]) (cs.map .content) =
      (resMap E.render cs).map (List.map fun t => a ++ t ++ z) := by
  rw [resMap_map, ← resMap_then]
  congr 1
  funext c
  simp [execL, exec, eval, evalL, Res.bind, Res.map, Fn.apply, hE]
  cases E.render c <;> simp [Ctx.escape]

theorem exec_sequence (cs) :
    execL E (.content (.seq cs)) (.content (.seq cs)) [] h_sequence = (resMap E.render cs).map List.flatten := by
  have : resMap (fun w => execL E (.content (.seq cs)) w [] [.act .text (.call .render [.dot])]) (cs.map .content) = resMap E.render cs := by
    rw [resMap_map]
    congr 1
    funext c
    simp [execL, exec, eval, evalL, Res.bind, Res.map, Fn.apply, hE]
    cases E.render c <;> simp [Ctx.escape]
  simp only [h_sequence, execL_loop, execL_nil, eval, evalL, Val.items, Val.field, conField, Res.ok_bind', Res.ok_map', this]
  cases resMap E.render cs <;> simp [Res.map, Res.bind]

theorem exec_list (cs o) :
    execL E (.content (.list cs o)) (.content (.list cs o)) [] h_list = (resMap E.render cs).map fun ts =>
      (if o then q%"<ol>" else q%"<ul>") ++ q%"\n" ++ (ts.flatMap fun t => q%"\n  <li>" ++ t ++ q%"</li>\n") ++ q%"\n"
        ++ (if o then q%"</ol>" else q%"</ul>") := by
  have := exec_each hE q%"\n  <li>" q%"</li>\n" cs (.content (.list cs o))
  rw [h_list, execL_ite, execL_text, execL_text, execL_text, execL_loop]
  simp only [eval, evalL, Val.items, Val.field, conField, Res.ok_bind', this]
  simp only [execL_ite, execL_text, execL_nil, eval, evalL, Val.field, conField, Res.ok_bind', Res.ok_map', Val.truth]
  cases o <;> cases resMap E.render cs <;> simp [Res.map, Res.bind, List.flatMap]

theorem resMap_resMap {α β : Type} (f : α → Res β) (rs : List (List α)) (r : List α) :
    resMap (resMap f) (r :: rs) = (resMap f r).bind fun t => (resMap (resMap f) rs).map (t :: ·) := rfl

theorem exec_table (rs) :
    execL E (.content (.table rs)) (.content (.table rs)) [] h_table = (resMap (resMap E.render) rs).map fun rows =>
      q%"<table>\n  " ++ (rows.flatMap fun r =>
        q%"\n  <tr>\n    " ++ (r.flatMap fun t => q%"\n    <td>" ++ t ++ q%"</td>\n    ") ++ q%"\n  </tr>\n  ")
        ++ q%"\n</table>" := by
  have h1 : ∀ r : List Content, execL E (.content (.table rs)) (.list (r.map .content)) [] [.text q%"\n  <tr>\n    ",
      .loop none none .dot [.text q%"\n    <td>", .act .text (.call .render [.dot]), .text q%"</td>\n    "] [],
      .text q%"\n  </tr>\n  "] = (resMap E.render r).map fun r =>
        q%"\n  <tr>\n    " ++ (r.flatMap fun t => q%"\n    <td>" ++ t ++ q%"</td>\n    ") ++ q%"\n  </tr>\n  " := by
    intro r
    have := exec_each hE q%"\n    <td>" q%"</td>\n    " r (.content (.table rs))
    rw [execL_text, execL_loop]
    simp only [eval, Val.items, Res.ok_bind', this]
    simp only [execL_text, execL_nil, Res.ok_map']
    cases resMap E.render r <;> simp [Res.map, Res.bind, List.flatMap]
  rw [h_table, execL_text, execL_loop]
  simp only [eval, evalL, Val.items, Val.field, conField, Res.ok_bind', resMap_map, h1, resMap_then]
  simp only [execL_text, execL_nil, Res.ok_map']
  cases resMap (resMap E.render) rs <;> simp [Res.map, Res.bind, List.flatMap]

theorem exec_definitions (ds : List (Content × Content)) :
    execL E (.content (.defs ds)) (.content (.defs ds)) [] h_definitions =
      (resMap (fun d => (E.render d.1).bind fun a => (E.render d.2).map fun b => (a, b)) ds).map fun prs =>
      q%"<dl>\n  " ++ (prs.flatMap fun p => q%"\n  <dt>" ++ p.1 ++ q%"</dt>\n    <dd>" ++ p.2 ++ q%"</dd>\n  ")
        ++ q%"\n</dl>" := by
  have h1 : ∀ d : Content × Content, execL E (.content (.defs ds)) (.defn d.1 d.2) [] [.text q%"\n  <dt>",
      .act .text (.call .render [(.field .dot .subject [])]), .text q%"</dt>\n    <dd>",
      .act .text (.call .render [(.field .dot .definition [])]), .text q%"</dd>\n  "] =
      ((E.render d.1).bind fun a => (E.render d.2).map fun b => (a, b)).map fun p =>
        q%"\n  <dt>" ++ p.1 ++ q%"</dt>\n    <dd>" ++ p.2 ++ q%"</dd>\n  " := by
    intro d
    simp [execL, exec, eval, evalL, Res.bind, Res.map, Fn.apply, hE, Val.field]
    cases E.render d.1 <;> simp [Ctx.escape, Res.map, Res.bind]
    cases E.render d.2 <;> simp [Ctx.escape, Res.map, Res.bind]
  rw [h_definitions, execL_text, execL_loop, eval]
  simp only [Val.items, Res.ok_bind', resMap_map, h1, resMap_then]
  simp only [execL_text, execL_nil]
  cases resMap (fun d : Content × Content => (E.render d.1).bind fun a => (E.render d.2).map fun b => (a, b)) ds <;>
    simp [Res.map, Res.bind, List.flatMap]

omit hE in
theorem exec_image (p d) :
    execL E (.content (.image p d)) (.content (.image p d)) [] h_image =
      .ok (q%"<img src=\"" ++ escURL p ++ q%"\" alt=\"" ++ escAttr d ++ q%"\" />") := by
  simp [h_image, execL, exec, eval, evalL, Res.bind, Res.map, Val.field, conField, Ctx.escape, Val.print]

omit hE in
theorem exec_target (t l ti c) :
    execL E (.content (.target t l ti c)) (.content (.target t l ti c)) [] h_target = .ok (q%"<a id=\"" ++ escAttr t ++ q%"\"></a>") := by
  simp [h_target, execL, exec, eval, evalL, Res.bind, Res.map, Val.field, conField, Ctx.escape, Val.print]

omit hE in
theorem exec_string (s) (ht : E.text (.str s) = .ok s) :
    execL E (.content (.str s)) (.content (.str s)) [] h_string = .ok (escText s) := by
  simp [h_string, execL, exec, eval, evalL, Res.bind, Res.map, Val.field, conField, anyField, ht, Res.recover, Ctx.escape, Val.print]

theorem exec_verbatim (st b c ps) :
    execL E (.content (.styled st b c ps)) (.content (.styled st b c ps)) [] h_verbatim =
      match if b then some false else isFlow c with
      | none => tmplErr
      | some true => (E.render c).map fun t => q%"<code>" ++ t ++ q%"</code>"
      | some false => (E.render c).map fun t => q%"<pre>" ++ t ++ q%"</pre>" := by
  simp only [h_verbatim, execL_ite, eval, evalL, Val.field, conField, anyField, Res.ok_bind', exec_wrap hE, isFlow, execL_nil]
  cases if b = true then some false else isFlow c with
  | none => rfl
  | some v => cases v <;> cases E.render c <;> simp [Res.bind, Res.map, Val.truth]

omit hE in
theorem exec_rawhtml (c) : execL E (.content c) (.content c) [] h_rawhtml = (E.text c).recover := by
  simp only [h_rawhtml, execL_act, eval, evalL, execL_nil, Res.ok_bind', Res.ok_map', Fn.apply]
  cases (E.text c).recover <;> simp [Res.bind, Res.map, Ctx.escape]

omit hE in
theorem decimal_name {d : Nat} (hd : d ≤ 6) : nameFilter (decimal d) = decimal d := by
  have key : ∀ d : Fin 7, nameFilter (decimal d.1) = decimal d.1 := by decide +kernel
  exact key ⟨d, by omega⟩

theorem exec_section (hd : ∀ i d, E.header i = .ok d → d ≤ 6) (i : Nat) :
    execL E (.content (.sect i)) (.content (.sect i)) [] h_section =
      (E.header i).bind fun d =>
      (if (E.h.get i).parent.isSome then
        (E.number i).map fun k => q%"<span class=\"section-number\">" ++ escText k ++ q%" </span>"
       else .ok []).bind fun num =>
      (E.render (E.h.get i).title).bind fun title =>
      (E.render (E.h.get i).body).bind fun body =>
      (if (E.h.get i).split then .ok []
       else (resMap (fun c => E.render (.sect c)) (E.h.get i).children).map fun ts =>
        q%"\n  " ++ (ts.flatMap fun t => q%"\n    " ++ t ++ q%"\n  ") ++ q%"\n").map fun kids =>
      q%"<h" ++ decimal d ++ q%" class=\"section-header\"><a id=\"" ++ escAttr (E.h.get i).primaryTag.name ++ q%"\"></a>"
        ++ num ++ title ++ q%"</h" ++ decimal d ++ q%">\n\n" ++ body ++ q%"\n\n" ++ kids := by
  have kids : execL E (.content (.sect i)) (.content (.sect i)) [] [.text q%"\n  ",
    .loop none none (.field .dot .children []) [.text q%"\n    ", .act .text (.call .render [.dot]),
    .text q%"\n  "] [], .text q%"\n"] = (resMap (fun c => E.render (.sect c)) (E.h.get i).children).map fun ts =>
        q%"\n  " ++ (ts.flatMap fun t => q%"\n    " ++ t ++ q%"\n  ") ++ q%"\n" := by
    have := exec_each hE q%"\n    " q%"\n  " ((E.h.get i).children.map .sect) (.content (.sect i))
    rw [execL_text, execL_loop]
    simp only [eval, evalL, Val.field, conField, secField, Val.items, Res.ok_bind']
    rw [show ((E.h.get i).children.map fun c => Val.content (.sect c)) = ((E.h.get i).children.map Content.sect).map .content by
      rw [List.map_map]; rfl, this, resMap_map]
    simp only [execL_text, execL_nil, Res.ok_map']
    cases resMap (fun c => E.render (.sect c)) (E.h.get i).children <;> simp [Res.map, Res.bind, List.flatMap]
  have num : execL E (.content (.sect i)) (.content (.sect i)) [] [.text q%"<span class=\"section-number\">",
      .act .text (.field .dot .number []), .text q%" </span>"] = (E.number i).map fun k =>
        q%"<span class=\"section-number\">" ++ escText k ++ q%" </span>" := by
    simp only [execL_text, execL_act, execL_nil, eval, evalL, Val.field, conField, secField, Res.ok_bind']
    cases E.number i <;> simp [Res.map, Res.bind, Ctx.escape, Val.print]
  rw [h_section]
  generalize hk : [TNode.text q%"\n  ", .loop none none (.field .dot .children []) [.text q%"\n    ", .act .text (.call .render [.dot]),
    .text q%"\n  "] [], .text q%"\n"] = K at kids ⊢
  generalize hn : [TNode.text q%"<span class=\"section-number\">", .act .text (.field .dot .number []), .text q%" </span>"] = N at num ⊢
  simp only [execL_text, execL_act, execL_ite, execL_nil, eval, evalL, Val.field, conField, secField, tagField, Res.ok_bind', Res.ok_map', Fn.apply, kids, num,
    shown hE]
  cases hh : E.header i with
  | ok d =>
    have hN : ((if (Val.ofSec (E.h.get i).parent).truth then (E.number i).map fun k =>
          q%"<span class=\"section-number\">" ++ escText k ++ q%" </span>" else .ok [])) =
        (if (E.h.get i).parent.isSome then (E.number i).map fun k =>
          q%"<span class=\"section-number\">" ++ escText k ++ q%" </span>" else .ok []) := by
      cases (E.h.get i).parent <;> rfl
    rw [hN]
    generalize (if (E.h.get i).parent.isSome then (E.number i).map fun k =>
          q%"<span class=\"section-number\">" ++ escText k ++ q%" </span>" else Res.ok []) = num
    simp only [Res.ok_bind', Res.ok_map', Ctx.escape, Val.print, decimal_name (hd i d hh)]
    cases num with
    | ok num =>
      cases E.render (E.h.get i).title with
      | ok title =>
        cases E.render (E.h.get i).body with
        | ok body =>
          cases (E.h.get i).split with
          | true => simp [Res.map, Res.bind, Val.truth]
          | false =>
            cases resMap (fun c => E.render (.sect c)) (E.h.get i).children <;> simp [Res.map, Res.bind, Val.truth]
        | _ => rfl
      | _ => rfl
    | _ => rfl
  | _ => simp [Res.map, Res.bind]

/-- One entry of toc.tmpl. -/
theorem exec_tocEntry (root : Val) (c : Nat) :
    execL E root (.content (.sect c)) [] [.text q%"\n    <li>\n      <a href=\"",
    .act (.value none .url '"' .start) (.call .url [(.field .dot .primaryTag [])]), .text q%"\">",
    .act .text (.field .dot .number []), .text q%" ",
    .act .text (.call .render [(.call .stripAux [(.field .dot .title [])])]), .text q%"</a>\n\n      ",
    .call q%"toc.tmpl" (some .dot), .text q%"\n    </li>\n  "] =
      (E.url (E.h.get c).primaryTag).bind fun u =>
      (E.number c).bind fun k =>
      match stripAux (E.h.get c).title with
      | none => tmplErr
      | some d =>
        (E.render d).bind fun title =>
        (E.call q%"toc.tmpl" (.content (.sect c))).map fun below =>
          q%"\n    <li>\n      <a href=\"" ++ escURL u ++ q%"\">" ++ escText k ++ q%" " ++ title ++ q%"</a>\n\n      "
            ++ below ++ q%"\n    </li>\n  " := by
  simp only [execL_text, execL_act, execL_call, execL_nil, eval, evalL, Val.field, conField, secField, Res.ok_bind', Res.ok_map', Fn.apply]
  cases E.url (E.h.get c).primaryTag with
  | ok u =>
    cases E.number c with
    | ok k =>
      cases stripAux (E.h.get c).title with
      | none => rfl
      | some d =>
        simp only [Res.ok_bind', Res.ok_map', shown hE, Fn.apply]
        cases E.render d with
        | ok t => cases E.call q%"toc.tmpl" (.content (.sect c)) <;> simp [Res.map, Res.bind, Ctx.escape, Val.print]
        | _ => rfl
    | _ => rfl
  | _ => rfl

omit hE in
theorem eval_toc (root : Val) (i : Nat) :
    ∃ v, eval E root (.content (.sect i)) [] (.call .and [(.field .dot .children []), (.call .not [(.field .dot .omitToc [])])]) = .ok v
      ∧ (v.truth = true ↔ ¬ ((E.h.get i).children = [] ∨ (E.h.get i).omitToc = true)) := by
  by_cases hc : (E.h.get i).children = []
  · exact ⟨.list [], by simp [eval, evalTo, evalL, Val.field, conField, secField, Res.bind, Fn.apply, hc, Val.truth], by simp [Val.truth, hc]⟩
  · exact ⟨.bool (!(E.h.get i).omitToc), by
      simp [eval, evalTo, evalL, Val.field, conField, secField, Res.bind, Res.map, Fn.apply, hc, Val.truth], by simp [Val.truth, hc]⟩

theorem exec_toc (i : Nat) :
    execL E (.content (.sect i)) (.content (.sect i)) [] h_toc =
      if (E.h.get i).children = [] ∨ (E.h.get i).omitToc then .ok []
      else (resMap (fun c =>
        (E.url (E.h.get c).primaryTag).bind fun u =>
        (E.number c).bind fun k =>
        match stripAux (E.h.get c).title with
        | none => tmplErr
        | some d =>
          (E.render d).bind fun title =>
          (E.call q%"toc.tmpl" (.content (.sect c))).map fun below =>
            q%"\n    <li>\n      <a href=\"" ++ escURL u ++ q%"\">" ++ escText k ++ q%" " ++ title ++ q%"</a>\n\n      "
              ++ below ++ q%"\n    </li>\n  ") (E.h.get i).children).map fun ts =>
        q%"\n<nav>\n  <ul>\n  " ++ ts.flatten ++ q%"\n  </ul>\n</nav>\n" := by
  rw [h_toc, execL_ite]
  obtain ⟨v, ev, hv⟩ := eval_toc (E := E) (.content (.sect i)) i
  rw [ev, Res.ok_bind']
  by_cases hc : (E.h.get i).children = [] ∨ (E.h.get i).omitToc
  · rw [if_neg (fun h => hv.mp h hc), if_pos hc]
    simp [execL_nil, Res.bind, Res.map]
  · rw [if_pos (hv.mpr hc), if_neg hc, execL_text, execL_loop]
    simp only [eval, evalL, Val.field, conField, secField, Val.items, Res.ok_bind', resMap_map, exec_tocEntry hE]
    simp only [execL_text, execL_nil, Res.ok_map']
    generalize resMap _ (E.h.get i).children = x
    cases x <;> simp [Res.map, Res.bind]

theorem exec_reference (s t c o l) :
    execL E (.content (.ref s t c o l)) (.content (.ref s t c o l)) [] h_reference =
      (E.tagOf s t o l).bind fun
      | some g =>
        (E.url g).bind fun u =>
        match stripAux (if c.isNil then g.title else c) with
        | none => tmplErr
        | some d => (E.render d).map fun x => q%"<a href=\"" ++ escURL u ++ q%"\">" ++ x ++ q%"</a>"
      | none =>
        match stripAux c with
        | none => tmplErr
        | some d => E.render d := by
  simp only [h_reference, execL_ite, execL_text, execL_act, execL_nil, eval, evalL, Val.field, conField, Res.ok_bind', Res.ok_map', Fn.apply]
  cases ht : E.tagOf s t o l with
  | ok g =>
    cases g with
    | none =>
      simp only [Res.ok_bind', Res.ok_map', Val.ofTag, Val.truth, Bool.false_eq_true, if_false]
      cases stripAux c with
      | none => rfl
      | some d =>
        simp only [Res.ok_bind', Res.ok_map', Fn.apply, shown hE]
        cases E.render d <;> simp [Res.map, Res.bind]
    | some g =>
      simp only [Res.ok_bind', Res.ok_map', Val.ofTag, Val.truth, if_true, Fn.apply]
      cases E.url g with
      | ok u =>
        cases hc : c.isNil with
        | true =>
          simp only [if_true, Res.ok_bind', Res.ok_map', Fn.apply]
          cases stripAux g.title with
          | none => rfl
          | some d =>
            simp only [Res.ok_bind', Res.ok_map', Fn.apply, shown hE]
            cases E.render d <;> simp [Res.map, Res.bind, Ctx.escape, Val.print]
        | false =>
          simp only [Bool.false_eq_true, if_false, Res.ok_bind', Res.ok_map', Fn.apply]
          cases stripAux c with
          | none => rfl
          | some d =>
            simp only [Res.ok_bind', Res.ok_map', Fn.apply, shown hE]
            cases E.render d <;> simp [Res.map, Res.bind, Ctx.escape, Val.print]
      | _ => rfl
  | _ => rfl

theorem exec_page (i : Nat) (hn : E.text .nil = .panic) :
    execL E (.content (.sect i)) (.content (.sect i)) [] h_page =
      (E.text (E.h.get i).title).recover.bind fun title =>
      (E.render (.sect i)).map fun t =>
      q%"<!DOCTYPE html>\n<html>\n  <head>\n    <meta http-equiv=\"content-type\" content=\"text/html; charset=utf-8\" />\n    <title>"
        ++ escText title ++ q%"</title>\n  </head>\n  <body>\n    " ++ t ++ q%"\n  </body>\n</html>" := by
  have hs : Val.field E (.content (E.h.get i).title) .string [] = (E.text (E.h.get i).title).recover.map .str := by
    cases (E.h.get i).title with
    | nil => simp only [Val.field, conField, hn]; rfl
    | _ => rfl
  simp only [h_page, execL_text, execL_act, execL_nil, eval, evalL, Res.ok_bind', Res.ok_map', Fn.apply, shown hE]
  rw [show Val.field E (.content (.sect i)) .title [] = .ok (.content (E.h.get i).title) from rfl]
  simp only [Res.ok_bind', hs]
  cases (E.text (E.h.get i).title).recover with
  | ok a => cases E.render (.sect i) <;> simp [Res.map, Res.bind, Ctx.escape, Val.print]
  | _ => rfl

end
end Booklit.Tmpl
