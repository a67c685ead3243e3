import Verif.Lemmas.EngineL
import Verif.Lemmas.MovedRender
import Verif.Model.Engine

/-!
Executing templates gives the same in a moved heap, whatever the templates.
-/

namespace Booklit

variable {d : Nat}

section
variable {h h' : Heap} (H : MovedTo d h h')
include H

theorem top_moved : ∀ n i, h'.top n (i + d) = (h.top n i).map (· + d) := by
  intro n
  induction n with
  | zero => intro i; rfl
  | succ n ih =>
    intro i
    rw [Heap.top, Heap.top, H i]
    simp only [Sec.moved]
    cases (h.get i).parent with
    | none => rfl
    | some p => simp only [Option.map_some, ih p]

theorem contains_moved : ∀ n, (∀ i j, h'.contains n (i + d) (j + d) = h.contains n i j) ∧
    ∀ cs j, h'.containsAny n (cs.map (· + d)) (j + d) = h.containsAny n cs j := by
  intro n
  induction n with
  | zero =>
    refine ⟨fun _ _ => rfl, fun cs j => ?_⟩
    cases cs <;> rfl
  | succ n ih =>
    refine ⟨fun i j => ?_, fun cs j => ?_⟩
    · rw [Heap.contains, Heap.contains, H i]
      simp only [Sec.moved, Nat.add_right_cancel_iff, ih.2]
    · cases cs with
      | nil => rfl
      | cons c cs => simp only [List.map_cons, Heap.containsAny, ih.1, ih.2]

omit H in
theorem hasAnchor_moved (gs : List Tag) : hasAnchor (gs.map (Tag.moved d)) = hasAnchor gs := by
  simp only [hasAnchor, List.any_map]
  rfl

theorem hasAnchors_moved : ∀ n, (∀ i, h'.hasAnchors n (i + d) = h.hasAnchors n i) ∧
    ∀ cs, h'.hasAnchorsAny n (cs.map (· + d)) = h.hasAnchorsAny n cs := by
  intro n
  induction n with
  | zero =>
    refine ⟨fun _ => rfl, fun cs => ?_⟩
    cases cs <;> rfl
  | succ n ih =>
    refine ⟨fun i => ?_, fun cs => ?_⟩
    · rw [Heap.hasAnchors, Heap.hasAnchors, H i]
      simp only [Sec.moved, hasAnchor_moved, ih.2]
    · cases cs with
      | nil => rfl
      | cons c cs => simp only [List.map_cons, Heap.hasAnchorsAny, ih.1, ih.2]

theorem anchorTags_moved (i : Nat) : h'.anchorTags (i + d) = (h.anchorTags i).map (Tag.moved d) := by
  rw [Heap.anchorTags, Heap.anchorTags, H i]
  simp only [Sec.moved, List.filter_map]
  rfl

theorem isOrHasChild_moved (i j : Nat) : h'.isOrHasChild (i + d) (j + d) = h.isOrHasChild i j := by
  rw [Heap.isOrHasChild, Heap.isOrHasChild, H i]
  simp only [Sec.moved, Nat.add_right_cancel_iff]
  congr 1
  induction (h.get i).children with
  | nil => rfl
  | cons c cs ih =>
    simp only [List.map_cons, List.contains_cons, ih]
    congr 1
    rw [Bool.eq_iff_iff]
    simp

omit H in
theorem prevIn_moved (i : Nat) : ∀ (cs : List Nat) (l : Option Nat),
    prevIn (i + d) (l.map (· + d)) (cs.map (· + d)) = (prevIn i l cs).map (· + d) := by
  intro cs
  induction cs with
  | nil => intro l; rfl
  | cons c cs ih =>
    intro l
    have ih' := ih (some c)
    cases l with
    | none => simpa only [List.map_cons, prevIn, Option.map_none, Option.map_some] using ih'
    | some l =>
      simp only [List.map_cons, prevIn, Option.map_some, Nat.add_right_cancel_iff] at ih' ⊢
      split
      · rfl
      · exact ih'

theorem prev_moved (i : Nat) : h'.prev (i + d) = (h.prev i).map (· + d) := by
  rw [Heap.prev, Heap.prev, H i]
  simp only [Sec.moved]
  cases (h.get i).parent with
  | none => rfl
  | some p =>
    have := prevIn_moved (d := d) i (h.get p).children none
    simp only [Option.map_none] at this
    simp only [Option.map_some, H p, Sec.moved, this]
    cases prevIn i none (h.get p).children <;> rfl

omit H in
theorem nextIn_moved (i : Nat) : ∀ (cs : List Nat) (b : Bool),
    nextIn (i + d) b (cs.map (· + d)) = (nextIn i b cs).map (· + d) := by
  intro cs
  induction cs with
  | nil => intro b; cases b <;> rfl
  | cons c cs ih =>
    intro b
    cases b with
    | true => rfl
    | false =>
      have : (c + d == i + d) = (c == i) := by rw [Bool.eq_iff_iff]; simp
      simp only [List.map_cons, nextIn, this, ih]

theorem nextSibling_moved : ∀ n i, h'.nextSibling n (i + d) = (h.nextSibling n i).map (Option.map (· + d)) := by
  intro n
  induction n with
  | zero => intro i; rfl
  | succ n ih =>
    intro i
    rw [Heap.nextSibling, Heap.nextSibling, H i]
    simp only [Sec.moved]
    cases (h.get i).parent with
    | none => rfl
    | some p =>
      simp only [Option.map_some, H p, Sec.moved, nextIn_moved]
      cases nextIn i false (h.get p).children with
      | none => exact ih p
      | some c => rfl

theorem next_moved (n i : Nat) : h'.next n (i + d) = (h.next n i).map (Option.map (· + d)) := by
  rw [Heap.next, Heap.next, H i]
  simp only [Sec.moved, nextSibling_moved H]
  split
  · cases (h.get i).children <;> rfl
  · rfl

end

/-- A result that is moved. -/
theorem Res.bind_moved {α β : Type} {f : α → α} {g : β → β} {a : Res α} {k k' : α → Res β} (h : ∀ x, k' (f x) = (k x).map g) :
    (a.map f).bind k' = (a.bind k).map g := by
  cases a <;> first | rfl | exact h _

theorem Res.bind_moved' {α β : Type} {f : α → α} {a : Res α} {k k' : α → Res β} (h : ∀ x, k' (f x) = k x) :
    (a.map f).bind k' = a.bind k := by
  cases a <;> first | rfl | exact h _

namespace Tmpl

open Templates

mutual
/-- A value with the sections in it moved. -/
def Val.moved (d : Nat) : Val → Val
  | .null => .null
  | .bool b => .bool b
  | .num n => .num n
  | .str s => .str s
  | .html s => .html s
  | .url s => .url s
  | .content c => .content (c.moved d)
  | .tag g => .tag (g.moved d)
  | .defn a b => .defn (a.moved d) (b.moved d)
  | .walk a b => .walk (a.map (· + d)) (b.map (· + d))
  | .list vs => .list (Val.movedL d vs)
/-- Several values. -/
def Val.movedL (d : Nat) : List Val → List Val
  | [] => []
  | v :: vs => v.moved d :: Val.movedL d vs
end

@[simp] theorem Val.movedL_eq (vs : List Val) : Val.movedL d vs = vs.map (Val.moved d) := by
  induction vs with
  | nil => rfl
  | cons v vs ih => simp [Val.movedL, ih]

/-- What templates find out, the second time in a moved heap. -/
structure Env.Moved (d : Nat) (E F : Env) : Prop where
  h : MovedTo d E.h F.h
  isHtml : F.isHtml = E.isHtml
  render : ∀ c, F.render (c.moved d) = E.render c
  call : ∀ n v, F.call n (v.moved d) = E.call n v
  text : ∀ c, F.text (c.moved d) = E.text c
  number : ∀ i, F.number (i + d) = E.number i
  header : ∀ i, F.header (i + d) = E.header i
  depth : ∀ i, F.depth (i + d) = E.depth i
  url : ∀ g, F.url (g.moved d) = E.url g
  htmlURL : ∀ g, F.htmlURL (g.moved d) = E.htmlURL g
  tagOf : ∀ s t o l, F.tagOf (s + d) t o l = (E.tagOf s t o l).map (Option.map (Tag.moved d))
  top : ∀ i, F.top (i + d) = (E.top i).map (· + d)
  contains : ∀ i j, F.contains (i + d) (j + d) = E.contains i j
  hasAnchors : ∀ i, F.hasAnchors (i + d) = E.hasAnchors i
  next : ∀ i, F.next (i + d) = (E.next i).map (Option.map (· + d))

theorem ofSec_moved (o : Option Nat) : Val.ofSec (o.map (· + d)) = (Val.ofSec o).moved d := by
  cases o <;> simp [Val.ofSec, Val.moved, Content.moved]

theorem ofTag_moved (o : Option Tag) : Val.ofTag (o.map (Tag.moved d)) = (Val.ofTag o).moved d := by
  cases o <;> simp [Val.ofTag, Val.moved]

theorem map_map {α β γ : Type} (f : α → β) (g : β → γ) (r : Res α) : (r.map f).map g = r.map (g ∘ f) := by
  cases r <;> rfl

theorem map_okv {α β : Type} (f : α → β) (a : α) : (Res.ok a).map f = .ok (f a) := rfl

theorem partialOf_moved (x : Sec) (name : Str) : (x.moved d).partialOf name = (x.partialOf name).moved d := by
  simp only [Sec.partialOf, Sec.moved]
  induction x.partials with
  | nil => rfl
  | cons p ps ih =>
    obtain ⟨k, c⟩ := p
    simp only [List.map_cons, List.lookup_cons]
    cases name == k with
    | true => rfl
    | false => exact ih

theorem partialIn_moved (ps : List (Str × Content)) (name : Str) :
    partialIn (ps.map fun p => (p.1, p.2.moved d)) name = (partialIn ps name).moved d := by
  simp only [partialIn]
  induction ps with
  | nil => rfl
  | cons p ps ih =>
    obtain ⟨k, c⟩ := p
    simp only [List.map_cons, List.find?_cons]
    cases k == name with
    | true => rfl
    | false => exact ih

section
variable {E F : Env} (H : E.Moved d F)
include H

theorem secField_moved (i f args) :
    secField F (i + d) f (args.map (Val.moved d)) = (secField E i f args).map (Val.moved d) := by
  cases args with
  | nil =>
    cases f <;> first
      | rfl
      | (simp only [List.map_nil, secField, H.h i, Sec.moved, H.number, H.depth, H.top, H.hasAnchors, H.next, prev_moved H.h, anchorTags_moved H.h,
          ofSec_moved, map_map, map_okv, Val.moved, Val.movedL_eq, List.map_map]
         first
           | rfl
           | (congr 1; funext x; simp [ofSec_moved, Function.comp, Val.moved, Content.moved])
           | done)
      | (have := H.text (.sect i)
         simp only [Content.moved] at this
         simp only [List.map_nil, secField, this, map_map]
         rfl)
  | cons a as =>
    cases as with
    | cons b bs => cases f <;> cases a <;> first | rfl | (next c => cases c <;> rfl)
    | nil =>
      cases f <;> first | rfl | skip
      case contains =>
        cases a <;> first | rfl | skip
        next c =>
        cases c <;> first | rfl | skip
        next j =>
        simp only [List.map_cons, List.map_nil, Val.moved, Content.moved, secField, H.contains, map_map]
        rfl
      case isOrHasChild =>
        cases a <;> first | rfl | skip
        next c =>
        cases c <;> first | rfl | skip
        next j =>
        simp only [List.map_cons, List.map_nil, Val.moved, Content.moved, secField, isOrHasChild_moved H.h, map_okv]
      case partial_ =>
        cases a <;> first | rfl | skip
        simp only [List.map_cons, List.map_nil, Val.moved, secField, H.h i, partialOf_moved, map_okv]

theorem anyField_moved (c f args) :
    anyField F (c.moved d) f (args.map (Val.moved d)) = (anyField E c f args).map (Val.moved d) := by
  cases args with
  | cons a as => cases f <;> rfl
  | nil =>
    cases f <;> first | rfl | skip
    case isFlow =>
      simp only [List.map_nil, anyField, isFlow_moved]
      cases isFlow c <;> rfl
    case string =>
      simp only [List.map_nil, anyField, H.text, map_map]
      rfl

end

theorem tagField_moved (g f args) : tagField (g.moved d) f (args.map (Val.moved d)) = (tagField g f args).map (Val.moved d) := by
  cases args with
  | cons a as => cases f <;> rfl
  | nil =>
    cases f <;> first
      | rfl
      | simp only [List.map_nil, tagField, Tag.moved, Val.moved, map_okv, ofSec_moved]

section
variable {E F : Env} (H : E.Moved d F)
include H

theorem conField_moved (c f args) :
    conField F (c.moved d) f (args.map (Val.moved d)) = (conField E c f args).map (Val.moved d) := by
  cases c with
  | nil => rfl
  | sect i => exact secField_moved H i f args
  | ref s t c o l =>
    cases f <;> cases args <;> first | rfl | exact anyField_moved H (.ref s t c o l) .string [] | exact anyField_moved H (.ref s t c o l) .isFlow [] | skip
    case tag.nil =>
      simp only [List.map_nil, Content.moved, conField, H.tagOf, map_map]
      congr 1
      funext x
      exact ofTag_moved x
    case display.nil =>
      simp only [List.map_nil, Content.moved, conField, H.tagOf, moved_isNil]
      split
      · refine Res.bind_moved fun x => ?_
        cases x <;> rfl
      · rfl
  | seq cs =>
    cases f <;> cases args <;> first | rfl | exact anyField_moved H (.seq cs) .string [] | exact anyField_moved H (.seq cs) .isFlow [] | skip
    simp [Content.moved, conField, map_okv, Val.moved, Function.comp_def]
  | list cs o =>
    cases f <;> cases args <;> first | rfl | exact anyField_moved H (.list cs o) .string [] | exact anyField_moved H (.list cs o) .isFlow [] | skip
    simp [Content.moved, conField, map_okv, Val.moved, Function.comp_def]
  | table rs =>
    cases f <;> cases args <;> first | rfl | exact anyField_moved H (.table rs) .string [] | exact anyField_moved H (.table rs) .isFlow [] | skip
    simp [Content.moved, conField, map_okv, Val.moved, Function.comp_def]
  | styled st b c ps =>
    cases f <;> cases args <;> first | rfl | exact anyField_moved H (.styled st b c ps) .string [] | exact anyField_moved H (.styled st b c ps) .isFlow [] | skip
    case partial_.cons a as =>
      cases as with
      | cons _ _ => cases a <;> rfl
      | nil =>
        cases a <;> first | rfl | skip
        simp [Content.moved, conField, map_okv, Val.moved, partialIn_moved]
  | str s =>
    cases f <;> cases args <;> first | rfl | exact anyField_moved H (.str s) .string [] | exact anyField_moved H (.str s) .isFlow []
  | para cs =>
    cases f <;> cases args <;> first | rfl | exact anyField_moved H (.para cs) .string [] | exact anyField_moved H (.para cs) .isFlow []
  | pre cs =>
    cases f <;> cases args <;> first | rfl | exact anyField_moved H (.pre cs) .string [] | exact anyField_moved H (.pre cs) .isFlow []
  | defs ds =>
    cases f <;> cases args <;> first | rfl | exact anyField_moved H (.defs ds) .string [] | exact anyField_moved H (.defs ds) .isFlow []
  | «lazy» b i =>
    cases f <;> cases args <;> first | rfl | exact anyField_moved H (.lazy b i) .string [] | exact anyField_moved H (.lazy b i) .isFlow []
  | toc i =>
    cases f <;> cases args <;> first | rfl | exact anyField_moved H (.toc i) .string [] | exact anyField_moved H (.toc i) .isFlow []
  | target t l ti c =>
    cases f <;> cases args <;> first | rfl | exact anyField_moved H (.target t l ti c) .string [] | exact anyField_moved H (.target t l ti c) .isFlow []
  | image p s =>
    cases f <;> cases args <;> first | rfl | exact anyField_moved H (.image p s) .string [] | exact anyField_moved H (.image p s) .isFlow []
  | link c u =>
    cases f <;> cases args <;> first | rfl | exact anyField_moved H (.link c u) .string [] | exact anyField_moved H (.link c u) .isFlow []
  | aux c =>
    cases f <;> cases args <;> first | rfl | exact anyField_moved H (.aux c) .string [] | exact anyField_moved H (.aux c) .isFlow []

theorem field_moved (v f args) :
    Val.field F (v.moved d) f (args.map (Val.moved d)) = (Val.field E v f args).map (Val.moved d) := by
  cases v with
  | content c => exact conField_moved H c f args
  | tag g => exact tagField_moved g f args
  | defn a b => cases f <;> cases args <;> rfl
  | walk a b => cases f <;> cases args <;> first | rfl | (cases a <;> rfl) | (cases b <;> rfl)
  | _ => rfl

omit H in
theorem truth_moved (v : Val) : (v.moved d).truth = v.truth := by
  cases v with
  | content c => cases c <;> simp [Val.moved, Content.moved, Val.truth]
  | list vs => cases vs <;> rfl
  | _ => rfl

omit H in
theorem toSec_moved (a : Val) : (a.moved d).toSec = a.toSec.map (Option.map (· + d)) := by
  cases a with
  | content c => cases c <;> rfl
  | _ => rfl

omit H in
theorem same_moved (a b : Val) : (a.moved d).same (b.moved d) = (a.same b).map (Val.moved d) := by
  cases a <;> cases b <;> rfl

omit H in
theorem items_moved (v : Val) : (v.moved d).items = v.items.map (List.map (Val.moved d)) := by
  cases v with
  | content c => cases c <;> simp [Val.moved, Content.moved, Val.items, Function.comp_def]
  | list vs => simp [Val.moved, Val.items]
  | _ => rfl

omit H in
theorem fold_moved {f : Val → Val → Val} (hf : ∀ a b, f (a.moved d) (b.moved d) = (f a b).moved d) : ∀ (vs : List Val) (v : Val),
    (vs.map (Val.moved d)).foldl f (v.moved d) = (vs.foldl f v).moved d := by
  intro vs
  induction vs with
  | nil => intro v; rfl
  | cons a vs ih => intro v; rw [List.map_cons, List.foldl_cons, List.foldl_cons, hf, ih]

omit H in
theorem and_moved (v : Val) (vs : List Val) :
    Fn.apply F .and ((v :: vs).map (Val.moved d)) = (Fn.apply E .and (v :: vs)).map (Val.moved d) := by
  simp only [List.map_cons, Fn.apply, map_okv]
  rw [fold_moved fun a b => ?_]
  rw [truth_moved]
  split <;> rfl

omit H in
theorem or_moved (v : Val) (vs : List Val) :
    Fn.apply F .or ((v :: vs).map (Val.moved d)) = (Fn.apply E .or (v :: vs)).map (Val.moved d) := by
  simp only [List.map_cons, Fn.apply, map_okv]
  rw [fold_moved fun a b => ?_]
  rw [truth_moved]
  split <;> rfl

theorem apply_moved (f args) : Fn.apply F f (args.map (Val.moved d)) = (Fn.apply E f args).map (Val.moved d) := by
  rcases args with _ | ⟨a, _ | ⟨b, _ | ⟨c, as⟩⟩⟩
  · cases f <;> rfl
  · cases f
    case render =>
      cases a <;> first | rfl | skip
      simp only [List.map_cons, List.map_nil, Val.moved, Fn.apply, H.render, H.isHtml, map_map]
      congr 1
      funext x
      simp only [Function.comp]
      split <;> rfl
    case url =>
      cases a <;> first | rfl | skip
      simp only [List.map_cons, List.map_nil, Val.moved, Fn.apply, H.url, map_map]
      rfl
    case htmlURL =>
      cases a <;> first | rfl | skip
      simp only [List.map_cons, List.map_nil, Val.moved, Fn.apply, H.htmlURL, map_map]
      rfl
    case stripAux =>
      cases a <;> first | rfl | skip
      next c =>
      simp only [List.map_cons, List.map_nil, Val.moved, Fn.apply, stripAux_moved]
      cases Booklit.stripAux c <;> rfl
    case rawHTML =>
      cases a <;> first | rfl | skip
      simp only [List.map_cons, List.map_nil, Val.moved, Fn.apply, H.text, map_map]
      rfl
    case rawURL =>
      cases a <;> first | rfl | skip
      simp only [List.map_cons, List.map_nil, Val.moved, Fn.apply, H.text, map_map]
      rfl
    case headerDepth =>
      cases a <;> first | rfl | skip
      next c =>
      cases c <;> first | rfl | skip
      simp only [List.map_cons, List.map_nil, Val.moved, Content.moved, Fn.apply, H.header, map_map]
      rfl
    case not =>
      simp only [List.map_cons, List.map_nil, Fn.apply, truth_moved, map_okv, Val.moved]
    case and => exact and_moved a []
    case or => exact or_moved a []
    all_goals first | rfl | (cases a <;> rfl)
  · cases f
    case and => exact and_moved a [b]
    case or => exact or_moved a [b]
    case eq => exact same_moved a b
    case walkContext =>
      simp only [List.map_cons, List.map_nil, Fn.apply, toSec_moved]
      cases a.toSec <;> cases b.toSec <;> rfl
    case joinLines => cases a <;> first | rfl | (cases b <;> rfl)
    all_goals first | rfl | (cases a <;> rfl) | (cases a <;> first | rfl | (next c => cases c <;> rfl))
  · cases f
    case and => exact and_moved a (b :: c :: as)
    case or => exact or_moved a (b :: c :: as)
    case joinLines => cases a <;> first | rfl | (cases b <;> rfl)
    all_goals first | rfl | (cases a <;> rfl) | (cases a <;> first | rfl | (next c => cases c <;> rfl))

omit H in
/-- Variables with their values moved. -/
theorem find_moved (vars : Vars) (x : Str) :
    Vars.find (vars.map fun p => (p.1, p.2.moved d)) x = (Vars.find vars x).map (Val.moved d) := by
  unfold Vars.find
  induction vars with
  | nil => rfl
  | cons p vars ih =>
    obtain ⟨k, v⟩ := p
    simp only [List.map_cons, List.find?_cons]
    cases k == x with
    | true => rfl
    | false => exact ih

mutual
theorem eval_moved (root dot : Val) (vars : Vars) : ∀ e,
    eval F (root.moved d) (dot.moved d) (vars.map fun p => (p.1, p.2.moved d)) e = (eval E root dot vars e).map (Val.moved d)
  | .dot | .root | .str _ | .num _ => by simp only [eval, Val.moved, map_okv]
  | .var x => by simp only [eval, find_moved]
  | .field e f args => by
    simp only [eval]
    rw [eval_moved root dot vars e]
    refine Res.bind_moved fun v => ?_
    rw [evalL_moved root dot vars args]
    exact Res.bind_moved fun vs => field_moved H v f vs
  | .call f args => by
    have e : evalGiven F (root.moved d) (dot.moved d) (vars.map fun p => (p.1, p.2.moved d)) f args
        = (evalGiven E root dot vars f args).map (List.map (Val.moved d)) := by
      unfold evalGiven
      split
      · exact evalTo_moved root dot vars false args
      · exact evalTo_moved root dot vars true args
      · exact evalL_moved root dot vars args
    rw [eval_call, eval_call, e]
    exact Res.bind_moved fun vs => apply_moved H f vs
theorem evalTo_moved (root dot : Val) (vars : Vars) (b : Bool) : ∀ es,
    evalTo F (root.moved d) (dot.moved d) (vars.map fun p => (p.1, p.2.moved d)) b es = (evalTo E root dot vars b es).map (List.map (Val.moved d))
  | [] => by simp only [evalTo, map_okv, List.map_nil]
  | e :: es => by
    simp only [evalTo]
    rw [eval_moved root dot vars e]
    refine Res.bind_moved fun v => ?_
    rw [truth_moved]
    split
    · simp only [map_okv, List.map_cons, List.map_nil]
    · rw [evalTo_moved root dot vars b es, map_map, map_map]
      rfl
theorem evalL_moved (root dot : Val) (vars : Vars) : ∀ es,
    evalL F (root.moved d) (dot.moved d) (vars.map fun p => (p.1, p.2.moved d)) es = (evalL E root dot vars es).map (List.map (Val.moved d))
  | [] => by simp only [evalL, map_okv, List.map_nil]
  | e :: es => by
    simp only [evalL]
    rw [eval_moved root dot vars e]
    refine Res.bind_moved fun v => ?_
    rw [evalL_moved root dot vars es, map_map, map_map]
    rfl
end

theorem print_moved (v : Val) : Val.print F (v.moved d) = Val.print E v := by
  cases v with
  | content c =>
    have := H.text c
    cases c <;> first | rfl | (simp only [Val.moved]; simp only [Content.moved] at this ⊢; simp only [Val.print, this])
  | _ => rfl

theorem escape_moved (c : Ctx) (v : Val) : Ctx.escape F c (v.moved d) = Ctx.escape E c v := by
  have p := print_moved H v
  cases v <;> simp only [Val.moved] at p ⊢ <;> unfold Ctx.escape <;> split <;> simp_all

omit H in
theorem indexed_moved (vs : List Val) : ∀ k,
    indexed k (vs.map (Val.moved d)) = (indexed k vs).map fun p => (p.1, p.2.moved d) := by
  induction vs with
  | nil => intro k; rfl
  | cons v vs ih => intro k; simp only [List.map_cons, indexed, ih]

omit H in
theorem with_moved (vars : Vars) (x : Option Str) (v : Val) :
    Vars.with (vars.map fun p => (p.1, p.2.moved d)) x (v.moved d) = (vars.with x v).map fun p => (p.1, p.2.moved d) := by
  cases x <;> rfl

omit H in
theorem resMap_of {α β γ : Type} {f : α → Res β} {g : γ → Res β} {m : α → γ} (h : ∀ a, g (m a) = f a) (l : List α) :
    resMap g (l.map m) = resMap f l := by
  induction l with
  | nil => rfl
  | cons a l ih => simp only [List.map_cons, resMap, h, ih]

mutual
theorem execL_moved (root dot : Val) (vars : Vars) : ∀ ns,
    execL F (root.moved d) (dot.moved d) (vars.map fun p => (p.1, p.2.moved d)) ns = execL E root dot vars ns
  | [] => by simp only [execL]
  | n :: ns => by
    by_cases hd : ∃ x e, n = .decl x e
    · obtain ⟨x, e, rfl⟩ := hd
      simp only [execL]
      rw [eval_moved H root dot vars e]
      exact Res.bind_moved' fun v => execL_moved root dot ((x, v) :: vars) ns
    · rw [execL, execL, exec_moved root dot vars n, execL_moved root dot vars ns]
      · exact fun x e he => hd ⟨x, e, he⟩
      · exact fun x e he => hd ⟨x, e, he⟩
theorem exec_moved (root dot : Val) (vars : Vars) : ∀ n,
    exec F (root.moved d) (dot.moved d) (vars.map fun p => (p.1, p.2.moved d)) n = exec E root dot vars n
  | .text _ | .decl _ _ => by simp only [exec]
  | .act c e => by
    simp only [exec]
    rw [eval_moved H root dot vars e]
    exact Res.bind_moved' fun v => escape_moved H c v
  | .ite e a b => by
    simp only [exec]
    rw [eval_moved H root dot vars e]
    refine Res.bind_moved' fun v => ?_
    rw [truth_moved, execL_moved root dot vars a, execL_moved root dot vars b]
  | .with_ e a b => by
    simp only [exec]
    rw [eval_moved H root dot vars e]
    refine Res.bind_moved' fun v => ?_
    rw [truth_moved, execL_moved root v vars a, execL_moved root dot vars b]
  | .loop i x e a b => by
    simp only [exec]
    rw [eval_moved H root dot vars e]
    refine Res.bind_moved' fun v => ?_
    rw [items_moved]
    cases v.items with
    | none => rfl
    | some vs =>
      cases vs with
      | nil => exact execL_moved root dot vars b
      | cons w vs =>
        simp only [Option.map_some]
        rw [show List.map (Val.moved d) (w :: vs) = w.moved d :: vs.map (Val.moved d) from rfl]
        dsimp only
        rw [show w.moved d :: vs.map (Val.moved d) = (w :: vs).map (Val.moved d) from rfl, indexed_moved]
        congr 1
        refine resMap_of (fun p => ?_) _
        have h1 : Val.num p.1 = (Val.num p.1).moved d := rfl
        dsimp only
        rw [h1, with_moved, with_moved, ← h1]
        exact execL_moved root p.2 ((vars.with i (.num p.1)).with x p.2) a
  | .call name none => by
    simp only [exec]
    exact H.call name .null
  | .call name (some e) => by
    simp only [exec]
    rw [eval_moved H root dot vars e]
    exact Res.bind_moved' fun v => H.call name v
end

end

section
variable {S S' : Site} (K : S.Moved d S') {h h' : Heap} (H : MovedTo d h h')
include H

theorem tagURL_moved (ext : Str) (n : Nat) (g : Tag) : Heap.tagURL h' ext n (g.moved d) = Heap.tagURL h ext n g := by
  unfold Heap.tagURL
  simp only [Tag.moved]
  cases g.sec with
  | none => rfl
  | some i => simp only [Option.map_some, sectionURL_moved H]

include K

theorem tagOf_moved (n s t o l) : Heap.tagOf S' h' n (s + d) t o l = (Heap.tagOf S h n s t o l).map (Option.map (Tag.moved d)) := by
  unfold Heap.tagOf
  rw [refTag_moved H, K.1]
  cases h.refTag n S.brokenOk s t o l with
  | none => rfl
  | some x =>
    cases x with
    | tag gt => rfl
    | nothing => rfl
    | unknown =>
      have ht : h'.tagsUp (fun _ => true) n none (s + d) = (h.tagsUp (fun _ => true) n none s).map (List.map (Tag.moved d)) :=
        tagsUp_moved H (fun _ => true) n none s
      simp only [Option.map_some, Resolved.moved, Heap.unknownTag, filePath_moved H, ht]
      cases h.filePath n s with
      | none => rfl
      | some p =>
        cases h.tagsUp (fun _ => true) n none s with
        | none => rfl
        | some gs =>
          simp only [Option.map_some, Res.ofFuel, Res.bind, List.map_map]
          rfl
    | ambiguous ls =>
      simp only [Option.map_some, Resolved.moved, Heap.ambiguousTag, filePath_moved H]
      rw [resMap_of (f := fun x : Option Nat × Location => match x.1 with
          | none => tmplErr
          | some i => (Res.ofFuel (h.filePath n i)).map fun p => (p, x.2)) (fun x => ?_) ls]
      · generalize resMap _ ls = r
        cases r <;> first | rfl | (cases h.filePath n s <;> rfl)
      · obtain ⟨a, b⟩ := x
        cases a with
        | none => rfl
        | some i => simp only [Option.map_some, filePath_moved H]

theorem env_moved (M : Mode) (n : Nat) {f g : Task → Res Str} (A : ∀ c, g (.content (c.moved d)) = f (.content c))
    (B : ∀ x v, g (.template x (v.moved d)) = f (.template x v)) : (envOf M S h n f).Moved d (envOf M S' h' n g) where
  h := H
  isHtml := rfl
  render := A
  call := B
  text c := by
    show h'.text S'.brokenOk n _ = _
    rw [K.1]
    exact heapText_moved H _ n c
  number i := by simp only [envOf, number_moved H]
  header i := by simp only [envOf, headerDepth_moved H]
  depth i := by simp only [envOf, pageDepth_moved H]
  url g := tagURL_moved H _ n g
  htmlURL g := tagURL_moved H _ n g
  tagOf s t o l := tagOf_moved K H n s t o l
  top i := by simp only [envOf, top_moved H]; cases h.top n i <;> rfl
  contains i j := by simp only [envOf, (contains_moved H n).1]
  hasAnchors i := by simp only [envOf, (hasAnchors_moved H n).1]
  next i := by simp only [envOf, next_moved H]; cases h.next n i <;> rfl

theorem visit_moved : ∀ c : Content, Content.visit h' (c.moved d) = match Content.visit h c with
    | .fail => .fail
    | .force i => .force i
    | .template x v => .template x (v.moved d)
  | .sect i => by
    simp only [Content.moved, Content.visit, H i, Val.moved]
    rfl
  | .aux c => by simp only [Content.moved, Content.visit]; exact visit_moved c
  | .toc i => by simp only [Content.moved, Content.visit, Val.moved]
  | .nil | .str _ | .seq _ | .para _ | .pre _ | .ref _ _ _ _ _ | .styled _ _ _ _ | .target _ _ _ _ | .image _ _ | .list _ _ | .link _ _
  | .table _ | .defs _ | .lazy _ _ => by simp only [Content.moved, Content.visit, Val.moved]

theorem run_moved (M : Mode) (T : Compiled) : ∀ n, (∀ c, run M T S' h' n (.content (c.moved d)) = run M T S h n (.content c)) ∧
    ∀ x v, run M T S' h' n (.template x (v.moved d)) = run M T S h n (.template x v) := by
  intro n
  induction n with
  | zero => exact ⟨fun _ => rfl, fun _ _ => rfl⟩
  | succ n ih =>
    refine ⟨fun c => ?_, fun x v => ?_⟩
    · rw [run, run, visit_moved K H]
      cases Content.visit h c with
      | fail => rfl
      | force i =>
        simp only [K.2]
        cases S.force i with
        | none => rfl
        | some c => exact ih.1 c
      | template x v => exact ih.2 _ v
    · rw [run, run]
      cases T x with
      | none => rfl
      | some ns => exact execL_moved (env_moved K H M n ih.1 ih.2) v v [] ns

theorem pageWith_moved (M : Mode) (ts : TSet) (n i : Nat) : pageWith M ts S' h' n (i + d) = pageWith M ts S h n i := by
  unfold pageWith
  rw [H i]
  simp only [Sec.moved]
  split
  · rfl
  · exact (run_moved K H M _ n).2 _ (.content (.sect i))

end

end Tmpl

end Booklit
