import Verif.Lemmas.EngineL
import Verif.Lemmas.ErasedL
import Verif.Model.Engine

/-!
Executing templates gives the same without places, up to the places in errors.
-/

namespace Booklit

section
variable {α β γ : Type}

theorem Res.map_erased (f : α → β) (g : β → γ) (r : Res α) : (r.erased f).map g = r.erased (g ∘ f) := by cases r <;> rfl

theorem Res.erased_map (f : α → β) (g : β → γ) (r : Res α) : (r.map f).erased g = r.erased (g ∘ f) := by cases r <;> rfl

theorem Res.erased_ok (f : α → β) (a : α) : (Res.ok a).erased f = .ok (f a) := rfl

theorem Res.erased_recover (f : α → β) (r : Res α) : (r.erased f).recover = r.recover.erased f := by cases r <;> rfl

theorem Res.erased_ofFuel (f : α → β) (o : Option α) : (Res.ofFuel o).erased f = .ofFuel (o.map f) := by cases o <;> rfl

theorem Res.bind_erased {δ : Type} {f : α → β} {g : γ → δ} {a : Res α} {k : α → Res γ} {k' : β → Res δ}
    (h : ∀ x, k' (f x) = (k x).erased g) : (a.erased f).bind k' = (a.bind k).erased g := by
  cases a <;> first | rfl | exact h _

theorem resMap_erased {δ : Type} {f : α → Res β} {g : γ → Res δ} {m : α → γ} {b : β → δ} (h : ∀ a, g (m a) = (f a).erased b) (l : List α) :
    resMap g (l.map m) = (resMap f l).erased (List.map b) := by
  induction l with
  | nil => rfl
  | cons a l ih =>
    simp only [List.map_cons, resMap, h, ih]
    exact Res.bind_erased fun x => by simp only [Res.map_erased, Res.erased_map]; rfl

end

section
variable {r r' : Nat → Str → Bool → Location → Res Str} {q q' : Nat → Res Str}

theorem textL_erased {cs : List Content} (h : ∀ c ∈ cs, c.erased.text r' q' = (c.text r q).erased id) :
    textL r' q' (cs.map Content.erased) = (textL r q cs).erased id := by
  induction cs with
  | nil => rfl
  | cons c cs ih =>
    simp only [List.map_cons, textL, h c (by simp), ih fun x hx => h x (by simp [hx])]
    exact Res.bind_erased fun x => by simp only [Res.map_erased, Res.erased_map]; rfl

theorem textR_erased {rs : List (List Content)} (h : ∀ x ∈ rs, ∀ c ∈ x, c.erased.text r' q' = (c.text r q).erased id) :
    textR r' q' (rs.map fun x => x.map Content.erased) = (textR r q rs).erased id := by
  induction rs with
  | nil => rfl
  | cons x rs ih =>
    simp only [List.map_cons, textR, textL_erased (h x (by simp)), ih fun x hx => h x (by simp [hx])]
    exact Res.bind_erased fun x => by simp only [Res.map_erased, Res.erased_map]; rfl

theorem textD_erased {ds : List (Content × Content)}
    (h : ∀ x ∈ ds, x.1.erased.text r' q' = (x.1.text r q).erased id ∧ x.2.erased.text r' q' = (x.2.text r q).erased id) :
    textD r' q' (ds.map fun p => (p.1.erased, p.2.erased)) = (textD r q ds).erased id := by
  induction ds with
  | nil => rfl
  | cons x ds ih =>
    obtain ⟨a, b⟩ := x
    have hx := h (a, b) (by simp)
    dsimp only at hx
    simp only [List.map_cons, textD, erased_isNil, hx.1, hx.2, ih fun x hx => h x (by simp [hx])]
    have e : ∀ c : Content, (if c.isNil = true then Res.ok q%"%!s(<nil>)" else (c.text r q).erased id) =
        (if c.isNil = true then Res.ok q%"%!s(<nil>)" else c.text r q).erased id := fun c => by split <;> rfl
    rw [e, e]
    exact Res.bind_erased fun x => Res.bind_erased fun y => by simp only [Res.map_erased, Res.erased_map]; rfl

theorem text_erased (hr : ∀ s t o l, r' s t o Location.zero = (r s t o l).erased id) (hq : ∀ i, q' i = (q i).erased id) (c : Content) :
    c.erased.text r' q' = (c.text r q).erased id := by
  induction c using Content.ind with
  | nil | str | target | image | toc | lazy => rfl
  | seq cs ih | para cs ih | pre cs ih | list cs o ih =>
    simp only [Content.erased, Content.text, erasedL_eq, textL_erased ih, Res.map_erased, Res.erased_map]
    rfl
  | ref s t c o l ih =>
    simp only [Content.erased, Content.text, erased_isNil, hr s t o l, ih]
    split <;> rfl
  | sect i => simp only [Content.erased, Content.text, hq]
  | styled st b c ps ih _ => simp only [Content.erased, Content.text, ih]
  | link c u ih | aux c ih => simp only [Content.erased, Content.text, ih]
  | table rs ih =>
    simp only [Content.erased, Content.text, erasedR_eq, textR_erased ih, Res.map_erased, Res.erased_map]
    rfl
  | defs ds ih =>
    simp only [Content.erased, Content.text, erasedD_eq, textD_erased ih, Res.map_erased, Res.erased_map]
    rfl

end

theorem heapText_erased {h h' : Heap} (H : ErasedTo h h') (b : Bool) : ∀ n c, h'.text b n c.erased = (h.text b n c).erased id := by
  intro n
  induction n with
  | zero =>
    intro c
    rw [Heap.text, Heap.text]
    refine text_erased (r := fun _ _ _ _ => .more) (q := fun _ => .more) ?_ ?_ c <;> intros <;> rfl
  | succ n ih =>
    intro c
    rw [Heap.text, Heap.text]
    refine text_erased (fun s t o l => ?_) (fun i => ?_) c
    · rw [refTag_erased H n b s t o l]
      cases h.refTag n b s t o l with
      | none => rfl
      | some x => cases x <;> first | rfl | exact ih _
    · rw [H i]
      simp only [Sec.erased, ih, Res.map_erased, Res.erased_map]
      rfl

/-- The same site without places. -/
def Site.erased (S : Site) : Site := ⟨S.brokenOk, fun i => (S.force i).map Content.erased⟩

section
variable {h h' : Heap} (H : ErasedTo h h')
include H

theorem top_erased : ∀ n i, h'.top n i = h.top n i := by
  intro n
  induction n with
  | zero => intro i; rfl
  | succ n ih =>
    intro i
    rw [Heap.top, Heap.top, H i]
    simp only [Sec.erased]
    cases (h.get i).parent with
    | none => rfl
    | some p => exact ih p

theorem contains_erased : ∀ n, (∀ i j, h'.contains n i j = h.contains n i j) ∧
    ∀ cs j, h'.containsAny n cs j = h.containsAny n cs j := by
  intro n
  induction n with
  | zero =>
    refine ⟨fun _ _ => rfl, fun cs j => ?_⟩
    cases cs <;> rfl
  | succ n ih =>
    refine ⟨fun i j => ?_, fun cs j => ?_⟩
    · rw [Heap.contains, Heap.contains, H i]
      simp only [Sec.erased, ih.2]
    · cases cs with
      | nil => rfl
      | cons c cs => simp only [Heap.containsAny, ih.1, ih.2]

omit H in
theorem hasAnchor_erased (gs : List Tag) : hasAnchor (gs.map Tag.erased) = hasAnchor gs := by
  simp only [hasAnchor, List.any_map]
  rfl

theorem hasAnchors_erased : ∀ n, (∀ i, h'.hasAnchors n i = h.hasAnchors n i) ∧
    ∀ cs, h'.hasAnchorsAny n cs = h.hasAnchorsAny n cs := by
  intro n
  induction n with
  | zero =>
    refine ⟨fun _ => rfl, fun cs => ?_⟩
    cases cs <;> rfl
  | succ n ih =>
    refine ⟨fun i => ?_, fun cs => ?_⟩
    · rw [Heap.hasAnchors, Heap.hasAnchors, H i]
      simp only [Sec.erased, hasAnchor_erased, ih.2]
    · cases cs with
      | nil => rfl
      | cons c cs => simp only [Heap.hasAnchorsAny, ih.1, ih.2]

theorem anchorTags_erased (i : Nat) : h'.anchorTags i = (h.anchorTags i).map Tag.erased := by
  rw [Heap.anchorTags, Heap.anchorTags, H i]
  simp only [Sec.erased, List.filter_map]
  rfl

theorem isOrHasChild_erased (i j : Nat) : h'.isOrHasChild i j = h.isOrHasChild i j := by
  rw [Heap.isOrHasChild, Heap.isOrHasChild, H i]
  rfl

theorem prev_erased (i : Nat) : h'.prev i = h.prev i := by
  rw [Heap.prev, Heap.prev, H i]
  simp only [Sec.erased]
  cases (h.get i).parent with
  | none => rfl
  | some p => simp only [H p, Sec.erased]

theorem nextSibling_erased : ∀ n i, h'.nextSibling n i = h.nextSibling n i := by
  intro n
  induction n with
  | zero => intro i; rfl
  | succ n ih =>
    intro i
    rw [Heap.nextSibling, Heap.nextSibling, H i]
    simp only [Sec.erased]
    cases (h.get i).parent with
    | none => rfl
    | some p => simp only [H p, Sec.erased, ih p]

theorem next_erased (n i : Nat) : h'.next n i = h.next n i := by
  rw [Heap.next, Heap.next, H i]
  simp only [Sec.erased, nextSibling_erased H]

end

namespace Tmpl

open Templates

mutual
/-- A value without places. -/
def Val.erased : Val → Val
  | .null => .null
  | .bool b => .bool b
  | .num n => .num n
  | .str s => .str s
  | .html s => .html s
  | .url s => .url s
  | .content c => .content c.erased
  | .tag g => .tag g.erased
  | .defn a b => .defn a.erased b.erased
  | .walk a b => .walk a b
  | .list vs => .list (Val.erasedL vs)
/-- Several values. -/
def Val.erasedL : List Val → List Val
  | [] => []
  | v :: vs => v.erased :: Val.erasedL vs
end

@[simp] theorem Val.erasedL_eq (vs : List Val) : Val.erasedL vs = vs.map Val.erased := by
  induction vs with
  | nil => rfl
  | cons v vs ih => simp [Val.erasedL, ih]

/-- What templates find out, the second time without places. -/
structure Env.Erased (E F : Env) : Prop where
  h : ErasedTo E.h F.h
  isHtml : F.isHtml = E.isHtml
  render : ∀ c, F.render c.erased = (E.render c).erased id
  call : ∀ n v, F.call n v.erased = (E.call n v).erased id
  text : ∀ c, F.text c.erased = (E.text c).erased id
  number : ∀ i, F.number i = (E.number i).erased id
  header : ∀ i, F.header i = (E.header i).erased id
  depth : ∀ i, F.depth i = (E.depth i).erased id
  url : ∀ g, F.url g.erased = (E.url g).erased id
  htmlURL : ∀ g, F.htmlURL g.erased = (E.htmlURL g).erased id
  tagOf : ∀ s t o l, F.tagOf s t o Location.zero = (E.tagOf s t o l).erased (Option.map Tag.erased)
  top : ∀ i, F.top i = (E.top i).erased id
  contains : ∀ i j, F.contains i j = (E.contains i j).erased id
  hasAnchors : ∀ i, F.hasAnchors i = (E.hasAnchors i).erased id
  next : ∀ i, F.next i = (E.next i).erased id

theorem ofSec_erased (o : Option Nat) : (Val.ofSec o).erased = Val.ofSec o := by
  cases o <;> simp [Val.ofSec, Val.erased, Content.erased]

theorem ofTag_erased (o : Option Tag) : Val.ofTag (o.map Tag.erased) = (Val.ofTag o).erased := by
  cases o <;> simp [Val.ofTag, Val.erased]

theorem partialOf_erased (x : Sec) (name : Str) : x.erased.partialOf name = (x.partialOf name).erased := by
  simp only [Sec.partialOf, Sec.erased]
  induction x.partials with
  | nil => rfl
  | cons p ps ih =>
    obtain ⟨k, c⟩ := p
    simp only [List.map_cons, List.lookup_cons]
    cases name == k with
    | true => rfl
    | false => exact ih

theorem partialIn_erased (ps : List (Str × Content)) (name : Str) :
    partialIn (ps.map fun p => (p.1, p.2.erased)) name = (partialIn ps name).erased := by
  simp only [partialIn]
  induction ps with
  | nil => rfl
  | cons p ps ih =>
    obtain ⟨k, c⟩ := p
    simp only [List.map_cons, List.find?_cons]
    cases k == name with
    | true => rfl
    | false => exact ih

section
variable {E F : Env} (H : E.Erased F)
include H

theorem secField_erased (i f args) :
    secField F i f (args.map Val.erased) = (secField E i f args).erased Val.erased := by
  cases args with
  | nil =>
    cases f
    case string =>
      have := H.text (.sect i)
      simp only [Content.erased] at this
      simp only [List.map_nil, secField, this, Res.erased_recover, Res.map_erased, Res.erased_map]
      rfl
    all_goals first
      | rfl
      | (simp only [List.map_nil, secField, H.h i, Sec.erased, prev_erased H.h, anchorTags_erased H.h, ofSec_erased, Res.erased_ok, Val.erased,
          Val.erasedL_eq, List.map_map]; done)
      | (simp only [List.map_nil, secField, H.number, H.depth, H.top, H.hasAnchors, H.next, Res.map_erased, Res.erased_map]
         first | rfl | (congr 1; funext x; simp [ofSec_erased, Val.erased, Content.erased]))
      | (simp only [List.map_nil, secField, H.h i, Sec.erased, anchorTags_erased H.h, Res.erased_ok, Val.erased, Val.erasedL_eq, List.map_map]
         rfl)
  | cons a as =>
    cases as with
    | cons b bs => cases f <;> cases a <;> first | rfl | (next c => cases c <;> rfl)
    | nil =>
      cases f <;> first | rfl | skip
      case contains =>
        cases a <;> first | rfl | skip
        next c =>
        cases c <;> first | rfl | skip
        next j =>
        simp only [List.map_cons, List.map_nil, Val.erased, Content.erased, secField, H.contains, Res.erased_recover, Res.map_erased, Res.erased_map]
        rfl
      case isOrHasChild =>
        cases a <;> first | rfl | skip
        next c =>
        cases c <;> first | rfl | skip
        next j =>
        simp only [List.map_cons, List.map_nil, Val.erased, Content.erased, secField, isOrHasChild_erased H.h, Res.erased_ok]
      case partial_ =>
        cases a <;> first | rfl | skip
        simp only [List.map_cons, List.map_nil, Val.erased, secField, H.h i, partialOf_erased, Res.erased_ok]

theorem anyField_erased (c f args) :
    anyField F c.erased f (args.map Val.erased) = (anyField E c f args).erased Val.erased := by
  cases args with
  | cons a as => cases f <;> rfl
  | nil =>
    cases f <;> first | rfl | skip
    case isFlow =>
      simp only [List.map_nil, anyField, isFlow_erased]
      cases isFlow c <;> rfl
    case string =>
      simp only [List.map_nil, anyField, H.text, Res.erased_recover, Res.map_erased, Res.erased_map]
      rfl

end

theorem tagField_erased (g f args) : tagField g.erased f (args.map Val.erased) = (tagField g f args).erased Val.erased := by
  cases args with
  | cons a as => cases f <;> rfl
  | nil =>
    cases f <;> first
      | rfl
      | simp only [List.map_nil, tagField, Tag.erased, Val.erased, Res.erased_ok, ofSec_erased]

section
variable {E F : Env} (H : E.Erased F)
include H

theorem conField_erased (c f args) :
    conField F c.erased f (args.map Val.erased) = (conField E c f args).erased Val.erased := by
  cases c with
  | nil => rfl
  | sect i => exact secField_erased H i f args
  | ref s t c o l =>
    cases f <;> cases args <;> first | rfl | exact anyField_erased H (.ref s t c o l) .string [] | exact anyField_erased H (.ref s t c o l) .isFlow [] | skip
    case tag.nil =>
      simp only [List.map_nil, Content.erased, conField, H.tagOf s t o l, Res.erased_recover, Res.map_erased, Res.erased_map]
      congr 1
      funext x
      exact ofTag_erased x
    case display.nil =>
      simp only [List.map_nil, Content.erased, conField, H.tagOf s t o l, erased_isNil]
      split
      · refine Res.bind_erased fun x => ?_
        cases x <;> rfl
      · rfl
  | seq cs =>
    cases f <;> cases args <;> first | rfl | exact anyField_erased H (.seq cs) .string [] | exact anyField_erased H (.seq cs) .isFlow [] | skip
    simp [Content.erased, conField, Res.erased_ok, Val.erased, Function.comp_def]
  | list cs o =>
    cases f <;> cases args <;> first | rfl | exact anyField_erased H (.list cs o) .string [] | exact anyField_erased H (.list cs o) .isFlow [] | skip
    simp [Content.erased, conField, Res.erased_ok, Val.erased, Function.comp_def]
  | table rs =>
    cases f <;> cases args <;> first | rfl | exact anyField_erased H (.table rs) .string [] | exact anyField_erased H (.table rs) .isFlow [] | skip
    simp [Content.erased, conField, Res.erased_ok, Val.erased, Function.comp_def]
  | styled st b c ps =>
    cases f <;> cases args <;> first | rfl | exact anyField_erased H (.styled st b c ps) .string [] | exact anyField_erased H (.styled st b c ps) .isFlow [] | skip
    case partial_.cons a as =>
      cases as with
      | cons _ _ => cases a <;> rfl
      | nil =>
        cases a <;> first | rfl | skip
        simp [Content.erased, conField, Res.erased_ok, Val.erased, partialIn_erased]
  | str s =>
    cases f <;> cases args <;> first | rfl | exact anyField_erased H (.str s) .string [] | exact anyField_erased H (.str s) .isFlow []
  | para cs =>
    cases f <;> cases args <;> first | rfl | exact anyField_erased H (.para cs) .string [] | exact anyField_erased H (.para cs) .isFlow []
  | pre cs =>
    cases f <;> cases args <;> first | rfl | exact anyField_erased H (.pre cs) .string [] | exact anyField_erased H (.pre cs) .isFlow []
  | defs ds =>
    cases f <;> cases args <;> first | rfl | exact anyField_erased H (.defs ds) .string [] | exact anyField_erased H (.defs ds) .isFlow []
  | «lazy» b i =>
    cases f <;> cases args <;> first | rfl | exact anyField_erased H (.lazy b i) .string [] | exact anyField_erased H (.lazy b i) .isFlow []
  | toc i =>
    cases f <;> cases args <;> first | rfl | exact anyField_erased H (.toc i) .string [] | exact anyField_erased H (.toc i) .isFlow []
  | target t l ti c =>
    cases f <;> cases args <;> first | rfl | exact anyField_erased H (.target t l ti c) .string [] | exact anyField_erased H (.target t l ti c) .isFlow []
  | image p s =>
    cases f <;> cases args <;> first | rfl | exact anyField_erased H (.image p s) .string [] | exact anyField_erased H (.image p s) .isFlow []
  | link c u =>
    cases f <;> cases args <;> first | rfl | exact anyField_erased H (.link c u) .string [] | exact anyField_erased H (.link c u) .isFlow []
  | aux c =>
    cases f <;> cases args <;> first | rfl | exact anyField_erased H (.aux c) .string [] | exact anyField_erased H (.aux c) .isFlow []

theorem field_erased (v f args) :
    Val.field F v.erased f (args.map Val.erased) = (Val.field E v f args).erased Val.erased := by
  cases v with
  | content c => exact conField_erased H c f args
  | tag g => exact tagField_erased g f args
  | defn a b => cases f <;> cases args <;> rfl
  | walk a b => cases f <;> cases args <;> first | rfl | (cases a <;> rfl) | (cases b <;> rfl)
  | _ => rfl

omit H in
theorem truth_erased (v : Val) : v.erased.truth = v.truth := by
  cases v with
  | content c => cases c <;> simp [Val.erased, Content.erased, Val.truth]
  | list vs => cases vs <;> rfl
  | _ => rfl

omit H in
theorem toSec_erased (a : Val) : a.erased.toSec = a.toSec := by
  cases a with
  | content c => cases c <;> simp [Val.erased, Content.erased, Val.toSec]
  | _ => rfl

omit H in
theorem same_erased (a b : Val) : a.erased.same b.erased = (a.same b).erased Val.erased := by
  cases a <;> cases b <;> rfl

omit H in
theorem items_erased (v : Val) : v.erased.items = v.items.map (List.map Val.erased) := by
  cases v with
  | content c => cases c <;> simp [Val.erased, Content.erased, Val.items, Function.comp_def]
  | list vs => simp [Val.erased, Val.items]
  | _ => rfl

omit H in
theorem fold_erased {f : Val → Val → Val} (hf : ∀ a b, f a.erased b.erased = (f a b).erased) : ∀ (vs : List Val) (v : Val),
    (vs.map Val.erased).foldl f v.erased = (vs.foldl f v).erased := by
  intro vs
  induction vs with
  | nil => intro v; rfl
  | cons a vs ih => intro v; rw [List.map_cons, List.foldl_cons, List.foldl_cons, hf, ih]

omit H in
theorem and_erased (v : Val) (vs : List Val) :
    Fn.apply F .and ((v :: vs).map Val.erased) = (Fn.apply E .and (v :: vs)).erased Val.erased := by
  simp only [List.map_cons, Fn.apply, Res.erased_ok]
  rw [fold_erased fun a b => ?_]
  rw [truth_erased]
  split <;> rfl

omit H in
theorem or_erased (v : Val) (vs : List Val) :
    Fn.apply F .or ((v :: vs).map Val.erased) = (Fn.apply E .or (v :: vs)).erased Val.erased := by
  simp only [List.map_cons, Fn.apply, Res.erased_ok]
  rw [fold_erased fun a b => ?_]
  rw [truth_erased]
  split <;> rfl

theorem apply_erased (f args) : Fn.apply F f (args.map Val.erased) = (Fn.apply E f args).erased Val.erased := by
  rcases args with _ | ⟨a, _ | ⟨b, _ | ⟨c, as⟩⟩⟩
  · cases f <;> rfl
  · cases f
    case render =>
      cases a <;> first | rfl | skip
      simp only [List.map_cons, List.map_nil, Val.erased, Fn.apply, H.render, H.isHtml, Res.erased_recover, Res.map_erased, Res.erased_map]
      congr 1
      funext x
      simp only [Function.comp]
      split <;> rfl
    case url =>
      cases a <;> first | rfl | skip
      simp only [List.map_cons, List.map_nil, Val.erased, Fn.apply, H.url, Res.erased_recover, Res.map_erased, Res.erased_map]
      rfl
    case htmlURL =>
      cases a <;> first | rfl | skip
      simp only [List.map_cons, List.map_nil, Val.erased, Fn.apply, H.htmlURL, Res.erased_recover, Res.map_erased, Res.erased_map]
      rfl
    case stripAux =>
      cases a <;> first | rfl | skip
      next c =>
      simp only [List.map_cons, List.map_nil, Val.erased, Fn.apply, stripAux_erased]
      cases Booklit.stripAux c <;> rfl
    case rawHTML =>
      cases a <;> first | rfl | skip
      simp only [List.map_cons, List.map_nil, Val.erased, Fn.apply, H.text, Res.erased_recover, Res.map_erased, Res.erased_map]
      rfl
    case rawURL =>
      cases a <;> first | rfl | skip
      simp only [List.map_cons, List.map_nil, Val.erased, Fn.apply, H.text, Res.erased_recover, Res.map_erased, Res.erased_map]
      rfl
    case headerDepth =>
      cases a <;> first | rfl | skip
      next c =>
      cases c <;> first | rfl | skip
      simp only [List.map_cons, List.map_nil, Val.erased, Content.erased, Fn.apply, H.header, Res.erased_recover, Res.map_erased, Res.erased_map]
      rfl
    case not =>
      simp only [List.map_cons, List.map_nil, Fn.apply, truth_erased, Res.erased_ok, Val.erased]
    case and => exact and_erased a []
    case or => exact or_erased a []
    all_goals first | rfl | (cases a <;> rfl)
  · cases f
    case and => exact and_erased a [b]
    case or => exact or_erased a [b]
    case eq => exact same_erased a b
    case joinLines => cases a <;> first | rfl | (cases b <;> rfl)
    case walkContext =>
      simp only [List.map_cons, List.map_nil, Fn.apply, toSec_erased]
      cases a.toSec <;> cases b.toSec <;> rfl
    all_goals first | rfl | (cases a <;> rfl) | (cases a <;> first | rfl | (next c => cases c <;> rfl))
  · cases f
    case and => exact and_erased a (b :: c :: as)
    case or => exact or_erased a (b :: c :: as)
    case joinLines => cases a <;> first | rfl | (cases b <;> rfl)
    case walkContext =>
      simp only [List.map_cons, List.map_nil, Fn.apply, toSec_erased]
      cases a.toSec <;> cases b.toSec <;> rfl
    all_goals first | rfl | (cases a <;> rfl) | (cases a <;> first | rfl | (next c => cases c <;> rfl))

omit H in
/-- Variables with values without places. -/
theorem find_erased (vars : Vars) (x : Str) :
    Vars.find (vars.map fun p => (p.1, p.2.erased)) x = (Vars.find vars x).erased Val.erased := by
  unfold Vars.find
  induction vars with
  | nil => rfl
  | cons p vars ih =>
    obtain ⟨k, v⟩ := p
    simp only [List.map_cons, List.find?_cons]
    cases k == x with
    | true => rfl
    | false => exact ih

mutual
theorem eval_erased (root dot : Val) (vars : Vars) : ∀ e,
    eval F root.erased dot.erased (vars.map fun p => (p.1, p.2.erased)) e = (eval E root dot vars e).erased Val.erased
  | .dot | .root | .str _ | .num _ => by simp only [eval, Val.erased, Res.erased_ok]
  | .var x => by simp only [eval, find_erased]
  | .field e f args => by
    simp only [eval]
    rw [eval_erased root dot vars e]
    refine Res.bind_erased fun v => ?_
    rw [evalL_erased root dot vars args]
    exact Res.bind_erased fun vs => field_erased H v f vs
  | .call f args => by
    have e : evalGiven F root.erased dot.erased (vars.map fun p => (p.1, p.2.erased)) f args
        = (evalGiven E root dot vars f args).erased (List.map Val.erased) := by
      unfold evalGiven
      split
      · exact evalTo_erased root dot vars false args
      · exact evalTo_erased root dot vars true args
      · exact evalL_erased root dot vars args
    rw [eval_call, eval_call, e]
    exact Res.bind_erased fun vs => apply_erased H f vs
theorem evalTo_erased (root dot : Val) (vars : Vars) (b : Bool) : ∀ es,
    evalTo F root.erased dot.erased (vars.map fun p => (p.1, p.2.erased)) b es = (evalTo E root dot vars b es).erased (List.map Val.erased)
  | [] => by simp only [evalTo, Res.erased_ok, List.map_nil]
  | e :: es => by
    simp only [evalTo]
    rw [eval_erased root dot vars e]
    refine Res.bind_erased fun v => ?_
    rw [truth_erased]
    split
    · simp only [Res.erased_ok, List.map_cons, List.map_nil]
    · rw [evalTo_erased root dot vars b es, Res.map_erased, Res.erased_map]
      rfl
theorem evalL_erased (root dot : Val) (vars : Vars) : ∀ es,
    evalL F root.erased dot.erased (vars.map fun p => (p.1, p.2.erased)) es = (evalL E root dot vars es).erased (List.map Val.erased)
  | [] => by simp only [evalL, Res.erased_ok, List.map_nil]
  | e :: es => by
    simp only [evalL]
    rw [eval_erased root dot vars e]
    refine Res.bind_erased fun v => ?_
    rw [evalL_erased root dot vars es, Res.map_erased, Res.erased_map]
    rfl
end

theorem print_erased (v : Val) : Val.print F v.erased = (Val.print E v).erased id := by
  cases v with
  | content c =>
    have := H.text c
    cases c <;> first | rfl | (simp only [Val.erased]; simp only [Content.erased] at this ⊢; simp only [Val.print, this, Res.erased_recover])
  | _ => rfl

theorem escape_erased (c : Ctx) (v : Val) : Ctx.escape F c v.erased = (Ctx.escape E c v).erased id := by
  have p := print_erased H v
  have q : ∀ f : Str → Str, ((Val.print E v).erased id).map f = ((Val.print E v).map f).erased id := fun f => by
    simp only [Res.map_erased, Res.erased_map]
    rfl
  cases v <;> simp only [Val.erased] at p q ⊢ <;> unfold Ctx.escape <;> split <;> simp_all <;> rfl

omit H in
theorem indexed_erased (vs : List Val) : ∀ k,
    indexed k (vs.map Val.erased) = (indexed k vs).map fun p => (p.1, p.2.erased) := by
  induction vs with
  | nil => intro k; rfl
  | cons v vs ih => intro k; simp only [List.map_cons, indexed, ih]

omit H in
theorem with_erased (vars : Vars) (x : Option Str) (v : Val) :
    Vars.with (vars.map fun p => (p.1, p.2.erased)) x v.erased = (vars.with x v).map fun p => (p.1, p.2.erased) := by
  cases x <;> rfl

mutual
theorem execL_erased (root dot : Val) (vars : Vars) : ∀ ns,
    execL F root.erased dot.erased (vars.map fun p => (p.1, p.2.erased)) ns = (execL E root dot vars ns).erased id
  | [] => by simp only [execL, Res.erased_ok, id]
  | n :: ns => by
    by_cases hd : ∃ x e, n = .decl x e
    · obtain ⟨x, e, rfl⟩ := hd
      simp only [execL]
      rw [eval_erased H root dot vars e]
      exact Res.bind_erased fun v => execL_erased root dot ((x, v) :: vars) ns
    · rw [execL, execL, exec_erased root dot vars n, execL_erased root dot vars ns]
      · exact Res.bind_erased fun x => by simp only [Res.map_erased, Res.erased_map]; rfl
      · exact fun x e he => hd ⟨x, e, he⟩
      · exact fun x e he => hd ⟨x, e, he⟩
theorem exec_erased (root dot : Val) (vars : Vars) : ∀ n,
    exec F root.erased dot.erased (vars.map fun p => (p.1, p.2.erased)) n = (exec E root dot vars n).erased id
  | .text _ | .decl _ _ => by simp only [exec, Res.erased_ok, id]
  | .act c e => by
    simp only [exec]
    rw [eval_erased H root dot vars e]
    exact Res.bind_erased fun v => escape_erased H c v
  | .ite e a b => by
    simp only [exec]
    rw [eval_erased H root dot vars e]
    refine Res.bind_erased fun v => ?_
    rw [truth_erased, execL_erased root dot vars a, execL_erased root dot vars b]
    split <;> rfl
  | .with_ e a b => by
    simp only [exec]
    rw [eval_erased H root dot vars e]
    refine Res.bind_erased fun v => ?_
    rw [truth_erased, execL_erased root v vars a, execL_erased root dot vars b]
    split <;> rfl
  | .loop i x e a b => by
    simp only [exec]
    rw [eval_erased H root dot vars e]
    refine Res.bind_erased fun v => ?_
    rw [items_erased]
    cases v.items with
    | none => rfl
    | some vs =>
      cases vs with
      | nil => exact execL_erased root dot vars b
      | cons w vs =>
        simp only [Option.map_some]
        rw [show List.map Val.erased (w :: vs) = w.erased :: vs.map Val.erased from rfl]
        dsimp only
        rw [show w.erased :: vs.map Val.erased = (w :: vs).map Val.erased from rfl, indexed_erased]
        rw [resMap_erased (f := fun p => execL E root p.2 ((vars.with i (.num p.1)).with x p.2) a) (b := id) (fun p => ?_)]
        · simp only [Res.map_erased, Res.erased_map]
          congr 1
          funext x
          simp
        · have h1 : Val.num p.1 = (Val.num p.1).erased := rfl
          dsimp only
          rw [h1, with_erased, with_erased, ← h1]
          exact execL_erased root p.2 ((vars.with i (.num p.1)).with x p.2) a
  | .call name none => by
    simp only [exec]
    exact H.call name .null
  | .call name (some e) => by
    simp only [exec]
    rw [eval_erased H root dot vars e]
    exact Res.bind_erased fun v => H.call name v
end

end

section
variable (S : Site) {h h' : Heap} (H : ErasedTo h h')
include H

theorem tagURL_erased (ext : Str) (n : Nat) (g : Tag) : Heap.tagURL h' ext n g.erased = (Heap.tagURL h ext n g).erased id := by
  unfold Heap.tagURL
  simp only [Tag.erased]
  cases g.sec with
  | none => rfl
  | some i => simp [sectionURL_erased H, Res.erased_ofFuel]

theorem tagOf_erased (n s t o l) : Heap.tagOf S.erased h' n s t o Location.zero = (Heap.tagOf S h n s t o l).erased (Option.map Tag.erased) := by
  unfold Heap.tagOf
  rw [refTag_erased H n S.erased.brokenOk s t o l]
  simp only [Site.erased]
  cases h.refTag n S.brokenOk s t o l with
  | none => rfl
  | some x =>
    cases x with
    | tag gt => rfl
    | nothing => rfl
    | unknown =>
      simp only [Option.map_some, Resolved.erased, Heap.unknownTag, filePath_erased H, tagsUp_erased H]
      cases h.filePath n s with
      | none => rfl
      | some p =>
        cases h.tagsUp (fun _ => true) n none s with
        | none => rfl
        | some gs =>
          simp only [Option.map_some, Res.ofFuel, Res.bind, List.map_map]
          rfl
    | ambiguous ls =>
      simp only [Option.map_some, Resolved.erased, Heap.ambiguousTag, filePath_erased H]
      rw [resMap_erased (f := fun x : Option Nat × Location => match x.1 with
          | none => tmplErr
          | some i => (Res.ofFuel (h.filePath n i)).map fun p => (p, x.2)) (b := fun p => (p.1, Location.zero)) (fun x => ?_) ls]
      · generalize resMap _ ls = r
        cases r <;> first | rfl | (cases h.filePath n s <;> rfl)
      · obtain ⟨a, b⟩ := x
        cases a with
        | none => rfl
        | some i => dsimp only; cases h.filePath n i <;> rfl

theorem env_erased (M : Mode) (n : Nat) {f g : Task → Res Str} (A : ∀ c, g (.content c.erased) = (f (.content c)).erased id)
    (B : ∀ x v, g (.template x v.erased) = (f (.template x v)).erased id) : (envOf M S h n f).Erased (envOf M S.erased h' n g) where
  h := H
  isHtml := rfl
  render := A
  call := B
  text c := heapText_erased H _ n c
  number i := by simp [envOf, number_erased H, Res.erased_ofFuel]
  header i := by simp [envOf, headerDepth_erased H, Res.erased_ofFuel]
  depth i := by simp [envOf, pageDepth_erased H, Res.erased_ofFuel]
  url g := tagURL_erased H _ n g
  htmlURL g := tagURL_erased H _ n g
  tagOf s t o l := tagOf_erased S H n s t o l
  top i := by simp [envOf, top_erased H, Res.erased_ofFuel]
  contains i j := by simp [envOf, (contains_erased H n).1, Res.erased_ofFuel]
  hasAnchors i := by simp [envOf, (hasAnchors_erased H n).1, Res.erased_ofFuel]
  next i := by simp [envOf, next_erased H, Res.erased_ofFuel]

theorem visit_erased : ∀ c : Content, Content.visit h' c.erased = match Content.visit h c with
    | .fail => .fail
    | .force i => .force i
    | .template x v => .template x v.erased
  | .sect i => by
    simp only [Content.erased, Content.visit, H i, Val.erased]
    rfl
  | .aux c => by simp only [Content.erased, Content.visit]; exact visit_erased c
  | .toc i => by simp only [Content.erased, Content.visit, Val.erased]
  | .nil | .str _ | .seq _ | .para _ | .pre _ | .ref _ _ _ _ _ | .styled _ _ _ _ | .target _ _ _ _ | .image _ _ | .list _ _ | .link _ _
  | .table _ | .defs _ | .lazy _ _ => by simp only [Content.erased, Content.visit, Val.erased]

theorem run_erased (M : Mode) (T : Compiled) : ∀ n,
    (∀ c, run M T S.erased h' n (.content c.erased) = (run M T S h n (.content c)).erased id) ∧
    ∀ x v, run M T S.erased h' n (.template x v.erased) = (run M T S h n (.template x v)).erased id := by
  intro n
  induction n with
  | zero => exact ⟨fun _ => rfl, fun _ _ => rfl⟩
  | succ n ih =>
    refine ⟨fun c => ?_, fun x v => ?_⟩
    · rw [run, run, visit_erased H]
      cases Content.visit h c with
      | fail => rfl
      | force i =>
        simp only [Site.erased]
        cases S.force i with
        | none => rfl
        | some c => exact ih.1 c
      | template x v => exact ih.2 _ v
    · rw [run, run]
      cases T x with
      | none => rfl
      | some ns => exact execL_erased (env_erased S H M n ih.1 ih.2) v v [] ns

theorem pageWith_erased (M : Mode) (ts : TSet) (n i : Nat) : pageWith M ts S.erased h' n i = (pageWith M ts S h n i).erased id := by
  unfold pageWith
  rw [H i]
  simp only [Sec.erased]
  split
  · rfl
  · exact (run_erased S H M _ n).2 _ (.content (.sect i))

end

end Tmpl

end Booklit
