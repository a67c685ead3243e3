import Verif.Spec.Erased
import Verif.Lemmas.ContentInd
import Verif.Model.Server
import Verif.Model.TextEngine

/-!
Everything that only reads sections gives the same, up to places, in a heap without places.
-/

namespace Booklit

@[simp] theorem erasedL_eq (cs : List Content) : erasedL cs = cs.map Content.erased := by
  induction cs with
  | nil => rfl
  | cons c cs ih => simp [erasedL, ih]

@[simp] theorem erasedP_eq (ps : List (Str × Content)) : erasedP ps = ps.map fun p => (p.1, p.2.erased) := by
  induction ps with
  | nil => rfl
  | cons p ps ih => obtain ⟨k, c⟩ := p; simp [erasedP, ih]

@[simp] theorem erasedR_eq (rs : List (List Content)) : erasedR rs = rs.map fun r => r.map Content.erased := by
  induction rs with
  | nil => rfl
  | cons r rs ih => simp [erasedR, ih]

@[simp] theorem erasedD_eq (ds : List (Content × Content)) : erasedD ds = ds.map fun p => (p.1.erased, p.2.erased) := by
  induction ds with
  | nil => rfl
  | cons p ds ih => obtain ⟨a, b⟩ := p; simp [erasedD, ih]

@[simp] theorem erased_isNil (c : Content) : c.erased.isNil = c.isNil := by cases c <;> rfl

@[simp] theorem erased_isAux (c : Content) : c.erased.isAux = c.isAux := by cases c <;> rfl

@[simp] theorem erased_isEmpty (c : Content) : c.erased.isEmpty = c.isEmpty := by
  cases c <;> first | rfl | (simp only [Content.erased])

theorem append_erased (r : Content) (cs : List Content) :
    append r.erased (cs.map Content.erased) = (append r cs).erased := by
  induction cs generalizing r with
  | nil => rfl
  | cons c cs ih =>
    simp only [List.map_cons, append, erased_isNil]
    split
    · exact ih r
    · cases r <;> first | exact ih c | simp [Content.erased]

theorem append_erased1 (r c : Content) : append r.erased [c.erased] = (append r [c]).erased := append_erased r [c]

theorem isFlowSeq_erased {cs : List Content} (h : ∀ c ∈ cs, isFlow c.erased = isFlow c) :
    isFlowSeq (cs.map Content.erased) = isFlowSeq cs := by
  induction cs with
  | nil => rfl
  | cons c cs ih =>
    simp only [List.map_cons, isFlowSeq, h c (by simp)]
    cases isFlow c with
    | none => rfl
    | some b => cases b with
      | false => rfl
      | true => exact ih fun x hx => h x (by simp [hx])

theorem isFlow_erased (c : Content) : isFlow c.erased = isFlow c := by
  induction c using Content.ind with
  | seq cs ih => simpa [Content.erased, isFlow] using isFlowSeq_erased ih
  | styled st b c ps ih _ => simp only [Content.erased, isFlow, ih]
  | link c u ih => simpa [Content.erased, isFlow] using ih
  | aux c ih => simpa [Content.erased, isFlow] using ih
  | _ => rfl

theorem stripAuxSeq_erased {cs : List Content} (h : ∀ c ∈ cs, stripAux c.erased = (stripAux c).map Content.erased) :
    stripAuxSeq (cs.map Content.erased) = (stripAuxSeq cs).map (List.map Content.erased) := by
  induction cs with
  | nil => rfl
  | cons c cs ih =>
    have ih := ih fun x hx => h x (by simp [hx])
    simp only [List.map_cons, stripAuxSeq, erased_isAux, h c (by simp), ih]
    split
    · rfl
    · cases stripAux c <;> cases stripAuxSeq cs <;> rfl

theorem stripAux_erased (c : Content) : stripAux c.erased = (stripAux c).map Content.erased := by
  induction c using Content.ind with
  | nil | str | sect | toc | image | lazy => rfl
  | seq cs ih | para cs ih | pre cs ih | list cs o ih =>
    simp only [Content.erased, stripAux, erasedL_eq, stripAuxSeq_erased ih]
    cases stripAuxSeq cs <;> simp [Content.erased]
  | ref s t c o l ih | link c u ih =>
    simp only [Content.erased, stripAux, ih]
    cases stripAux c <;> rfl
  | styled st b c ps ih ihp =>
    have hp : stripAuxPartials (ps.map fun p => (p.1, p.2.erased)) =
        (stripAuxPartials ps).map (List.map fun p => (p.1, p.2.erased)) := by
      clear ih
      induction ps with
      | nil => rfl
      | cons p ps ih =>
        obtain ⟨k, v⟩ := p
        have ih := ih fun x hx => ihp x (by simp [hx])
        have hv := ihp (k, v) (by simp)
        dsimp only at hv
        simp only [List.map_cons, stripAuxPartials, erased_isNil, hv, ih]
        split
        · rfl
        · cases stripAux v <;> cases stripAuxPartials ps <;> rfl
    simp only [Content.erased, stripAux, ih, erasedP_eq, hp]
    cases stripAux c <;> cases stripAuxPartials ps <;> simp [Content.erased]
  | target t l ti c h1 h2 =>
    simp only [Content.erased, stripAux, h1, h2]
    cases stripAux ti <;> cases stripAux c <;> rfl
  | table rs ih =>
    have hp : stripAuxRows (rs.map fun r => r.map Content.erased) =
        (stripAuxRows rs).map (List.map fun r => r.map Content.erased) := by
      induction rs with
      | nil => rfl
      | cons r rs ih' =>
        have ih' := ih' fun x hx => ih x (by simp [hx])
        have hv := stripAuxSeq_erased (ih r (by simp))
        simp only [List.map_cons, stripAuxRows, hv, ih']
        cases stripAuxSeq r <;> cases stripAuxRows rs <;> rfl
    simp only [Content.erased, stripAux, erasedR_eq, hp]
    cases stripAuxRows rs <;> simp [Content.erased]
  | defs ds ih =>
    have hp : stripAuxDefs (ds.map fun p => (p.1.erased, p.2.erased)) =
        (stripAuxDefs ds).map (List.map fun p => (p.1.erased, p.2.erased)) := by
      induction ds with
      | nil => rfl
      | cons p ds ih' =>
        obtain ⟨a, b⟩ := p
        have ih' := ih' fun x hx => ih x (by simp [hx])
        have hv := ih (a, b) (by simp)
        dsimp only at hv
        simp only [List.map_cons, stripAuxDefs, hv.1, hv.2, ih']
        cases stripAux a <;> cases stripAux b <;> cases stripAuxDefs ds <;> rfl
    simp only [Content.erased, stripAux, erasedD_eq, hp]
    cases stripAuxDefs ds <;> simp [Content.erased]
  | aux c ih => simpa [Content.erased, stripAux] using ih

/-! ### Sections -/

/-- `h'` holds the sections of `h` without places. -/
def ErasedTo (h h' : Heap) : Prop := ∀ j, h'.get j = (h.get j).erased

@[simp] theorem fresh_erased (p : Option Nat) (path : Str) : (Sec.fresh p path).erased = Sec.fresh p path := rfl

theorem heap_erased (h : Heap) : ErasedTo h h.erased := by
  intro j
  rw [Heap.erased, Heap.get, Heap.get, List.getD_eq_getElem?_getD, List.getD_eq_getElem?_getD, List.getElem?_map]
  cases h[j]? <;> rfl

section
variable {h h' : Heap} (H : ErasedTo h h')
include H

theorem filePath_erased : ∀ n i, h'.filePath n i = h.filePath n i := by
  intro n
  induction n with
  | zero => intro i; rfl
  | succ n ih =>
    intro i
    rw [Heap.filePath, Heap.filePath, H i]
    simp only [Sec.erased]
    cases (h.get i).parent with
    | none => rfl
    | some p => simp only [Option.map_some, ih p]

theorem number_erased : ∀ n i, h'.number n i = h.number n i := by
  intro n
  induction n with
  | zero => intro i; rfl
  | succ n ih =>
    intro i
    rw [Heap.number, Heap.number, H i]
    simp only [Sec.erased]
    cases (h.get i).parent with
    | none => rfl
    | some p => simp only [Option.map_some, ih p, H p, Sec.erased]

theorem pageDepth_erased : ∀ n i, h'.pageDepth n i = h.pageDepth n i := by
  intro n
  induction n with
  | zero => intro i; rfl
  | succ n ih =>
    intro i
    rw [Heap.pageDepth, Heap.pageDepth, H i]
    simp only [Sec.erased]
    cases (h.get i).parent with
    | none => rfl
    | some p => simp only [Option.map_some, ih p, H p, Sec.erased]

theorem headerDepth_erased (n i : Nat) : h'.headerDepth n i = h.headerDepth n i := by
  rw [Heap.headerDepth, Heap.headerDepth, pageDepth_erased H]

theorem depth_erased : ∀ n i, h'.depth n i = h.depth n i := by
  intro n
  induction n with
  | zero => intro i; rfl
  | succ n ih =>
    intro i
    rw [Heap.depth, Heap.depth, H i]
    simp only [Sec.erased]
    cases (h.get i).parent with
    | none => rfl
    | some p => simp only [Option.map_some, ih p]

theorem splitPrevented_erased : ∀ n i, h'.splitPrevented n i = h.splitPrevented n i := by
  intro n
  induction n with
  | zero => intro i; rfl
  | succ n ih =>
    intro i
    rw [Heap.splitPrevented, Heap.splitPrevented, H i]
    simp only [Sec.erased]
    cases (h.get i).parent with
    | none => rfl
    | some p => simp only [Option.map_some, ih p]

omit H in
theorem tags_filter_erased (m : Str → Bool) (ts : List Tag) :
    (ts.map Tag.erased).filter (fun t => m t.name) = (ts.filter fun t => m t.name).map Tag.erased := by
  rw [List.filter_map]
  rfl

mutual
theorem tagsDown_erased (m : Str → Bool) : ∀ n i, h'.tagsDown m n i = (h.tagsDown m n i).map (List.map Tag.erased)
  | 0, i => rfl
  | n + 1, i => by
    rw [Heap.tagsDown, Heap.tagsDown, H i]
    simp only [Sec.erased]
    rw [tagsDownAll_erased m n none (h.get i).children, tags_filter_erased]
    cases h.tagsDownAll m n none (h.get i).children <;> simp
theorem tagsDownAll_erased (m : Str → Bool) : ∀ n (e : Option Nat) cs,
    h'.tagsDownAll m n e cs = (h.tagsDownAll m n e cs).map (List.map Tag.erased)
  | n, e, [] => by simp [Heap.tagsDownAll]
  | 0, e, c :: cs => rfl
  | n + 1, e, c :: cs => by
    rw [Heap.tagsDownAll, Heap.tagsDownAll]
    split
    · exact tagsDownAll_erased m n e cs
    · rw [tagsDown_erased m n c, tagsDownAll_erased m n e cs]
      cases h.tagsDown m n c <;> cases h.tagsDownAll m n e cs <;> simp
end

theorem tagsUp_erased (m : Str → Bool) : ∀ n (e : Option Nat) i,
    h'.tagsUp m n e i = (h.tagsUp m n e i).map (List.map Tag.erased) := by
  intro n
  induction n with
  | zero => intro e i; rfl
  | succ n ih =>
    intro e i
    rw [Heap.tagsUp, Heap.tagsUp, H i]
    simp only [Sec.erased]
    rw [tagsDownAll_erased H, tags_filter_erased]
    cases h.tagsDownAll m n e (h.get i).children with
    | none => rfl
    | some below =>
      simp only [Option.map_some, Option.bind_eq_bind, Option.bind_some]
      cases (h.get i).parent with
      | none => simp
      | some p =>
        simp only [ih (some i) p]
        cases h.tagsUp m n (some i) p <;> simp

theorem findTag_erased (n i : Nat) (name : Str) : h'.findTag n i name = (h.findTag n i name).map (List.map Tag.erased) := by
  have := tagsUp_erased H (fun o => o == name) n none i
  exact this

omit H in
/-- The result of a lookup. -/
def Resolved.erased : Resolved → Resolved
  | .tag g => .tag g.erased
  | .nothing => .nothing
  | .unknown => .unknown
  | .ambiguous ls => .ambiguous (ls.map fun p => (p.1, Location.zero))

theorem refTag_erased (n : Nat) (b : Bool) (i : Nat) (name : Str) (o : Bool) (l : Location) :
    h'.refTag n b i name o Location.zero = (h.refTag n b i name o l).map Resolved.erased := by
  rw [Heap.refTag, Heap.refTag, Heap.resolve, Heap.resolve, findTag_erased H]
  cases h.findTag n i name with
  | none => rfl
  | some gs =>
    simp only [Option.map_some, Option.some.injEq]
    match gs with
    | [] => cases o <;> cases b <;> rfl
    | [g] => rfl
    | g :: g' :: gs =>
      cases b
      · simp [Resolved.erased, Tag.erased]
      · rfl

theorem pageOwner_erased : ∀ n i, h'.pageOwner n i = h.pageOwner n i := by
  intro n
  induction n with
  | zero => intro i; rfl
  | succ n ih =>
    intro i
    rw [Heap.pageOwner, Heap.pageOwner, H i]
    simp only [Sec.erased]
    cases (h.get i).parent with
    | none => rfl
    | some p =>
      simp only [Option.map_some, H p, Sec.erased, ih p]

theorem sectionURL_erased (ext : Str) : ∀ n i a, h'.sectionURL ext n i a = h.sectionURL ext n i a := by
  intro n
  induction n with
  | zero => intro i a; rfl
  | succ n ih =>
    intro i a
    rw [Heap.sectionURL, Heap.sectionURL, pageOwner_erased H]
    cases h.pageOwner n i with
    | none => rfl
    | some o =>
      simp only [Option.map_some, ne_eq, Nat.add_right_cancel_iff, H i, Heap.fileName, ih o]
      rfl

end

end Booklit
