import Verif.Spec.Moved
import Verif.Lemmas.ContentInd
import Verif.Model.Server
import Verif.Model.TextEngine

/-!
Everything that only reads sections gives the same in a moved heap.
-/

namespace Booklit

variable {d : Nat}

@[simp] theorem movedL_eq (cs : List Content) : movedL d cs = cs.map (Content.moved d) := by
  induction cs with
  | nil => rfl
  | cons c cs ih => simp [movedL, ih]

@[simp] theorem movedP_eq (ps : List (Str × Content)) : movedP d ps = ps.map fun p => (p.1, p.2.moved d) := by
  induction ps with
  | nil => rfl
  | cons p ps ih => obtain ⟨k, c⟩ := p; simp [movedP, ih]

@[simp] theorem movedR_eq (rs : List (List Content)) : movedR d rs = rs.map fun r => r.map (Content.moved d) := by
  induction rs with
  | nil => rfl
  | cons r rs ih => simp [movedR, ih]

@[simp] theorem movedD_eq (ds : List (Content × Content)) : movedD d ds = ds.map fun p => (p.1.moved d, p.2.moved d) := by
  induction ds with
  | nil => rfl
  | cons p ds ih => obtain ⟨a, b⟩ := p; simp [movedD, ih]

@[simp] theorem moved_isNil (c : Content) : (c.moved d).isNil = c.isNil := by cases c <;> rfl

@[simp] theorem moved_isAux (c : Content) : (c.moved d).isAux = c.isAux := by cases c <;> rfl

@[simp] theorem moved_isEmpty (c : Content) : (c.moved d).isEmpty = c.isEmpty := by
  cases c <;> first | rfl | (simp only [Content.moved])

theorem append_moved (r : Content) (cs : List Content) :
    append (r.moved d) (cs.map (Content.moved d)) = (append r cs).moved d := by
  induction cs generalizing r with
  | nil => rfl
  | cons c cs ih =>
    simp only [List.map_cons, append, moved_isNil]
    split
    · exact ih r
    · cases r <;> first | exact ih c | simp [Content.moved]

theorem append_moved1 (r c : Content) : append (r.moved d) [c.moved d] = (append r [c]).moved d := append_moved r [c]

theorem isFlowSeq_moved {cs : List Content} (h : ∀ c ∈ cs, isFlow (c.moved d) = isFlow c) :
    isFlowSeq (cs.map (Content.moved d)) = isFlowSeq cs := by
  induction cs with
  | nil => rfl
  | cons c cs ih =>
    simp only [List.map_cons, isFlowSeq, h c (by simp)]
    cases isFlow c with
    | none => rfl
    | some b => cases b with
      | false => rfl
      | true => exact ih fun x hx => h x (by simp [hx])

theorem isFlow_moved (c : Content) : isFlow (c.moved d) = isFlow c := by
  induction c using Content.ind with
  | seq cs ih => simpa [Content.moved, isFlow] using isFlowSeq_moved ih
  | styled st b c ps ih _ => simp only [Content.moved, isFlow, ih]
  | link c u ih => simpa [Content.moved, isFlow] using ih
  | aux c ih => simpa [Content.moved, isFlow] using ih
  | _ => rfl

theorem stripAuxSeq_moved {cs : List Content} (h : ∀ c ∈ cs, stripAux (c.moved d) = (stripAux c).map (Content.moved d)) :
    stripAuxSeq (cs.map (Content.moved d)) = (stripAuxSeq cs).map (List.map (Content.moved d)) := by
  induction cs with
  | nil => rfl
  | cons c cs ih =>
    have ih := ih fun x hx => h x (by simp [hx])
    simp only [List.map_cons, stripAuxSeq, moved_isAux, h c (by simp), ih]
    split
    · rfl
    · cases stripAux c <;> cases stripAuxSeq cs <;> rfl

theorem stripAux_moved (c : Content) : stripAux (c.moved d) = (stripAux c).map (Content.moved d) := by
  induction c using Content.ind with
  | nil | str | sect | toc | image | lazy => rfl
  | seq cs ih | para cs ih | pre cs ih | list cs o ih =>
    simp only [Content.moved, stripAux, movedL_eq, stripAuxSeq_moved ih]
    cases stripAuxSeq cs <;> simp [Content.moved]
  | ref s t c o l ih | link c u ih =>
    simp only [Content.moved, stripAux, ih]
    cases stripAux c <;> rfl
  | styled st b c ps ih ihp =>
    have hp : stripAuxPartials (ps.map fun p => (p.1, p.2.moved d)) =
        (stripAuxPartials ps).map (List.map fun p => (p.1, p.2.moved d)) := by
      clear ih
      induction ps with
      | nil => rfl
      | cons p ps ih =>
        obtain ⟨k, v⟩ := p
        have ih := ih fun x hx => ihp x (by simp [hx])
        have hv := ihp (k, v) (by simp)
        dsimp only at hv
        simp only [List.map_cons, stripAuxPartials, moved_isNil, hv, ih]
        split
        · rfl
        · cases stripAux v <;> cases stripAuxPartials ps <;> rfl
    simp only [Content.moved, stripAux, ih, movedP_eq, hp]
    cases stripAux c <;> cases stripAuxPartials ps <;> simp [Content.moved]
  | target t l ti c h1 h2 =>
    simp only [Content.moved, stripAux, h1, h2]
    cases stripAux ti <;> cases stripAux c <;> rfl
  | table rs ih =>
    have hp : stripAuxRows (rs.map fun r => r.map (Content.moved d)) =
        (stripAuxRows rs).map (List.map fun r => r.map (Content.moved d)) := by
      induction rs with
      | nil => rfl
      | cons r rs ih' =>
        have ih' := ih' fun x hx => ih x (by simp [hx])
        have hv := stripAuxSeq_moved (ih r (by simp))
        simp only [List.map_cons, stripAuxRows, hv, ih']
        cases stripAuxSeq r <;> cases stripAuxRows rs <;> rfl
    simp only [Content.moved, stripAux, movedR_eq, hp]
    cases stripAuxRows rs <;> simp [Content.moved]
  | defs ds ih =>
    have hp : stripAuxDefs (ds.map fun p => (p.1.moved d, p.2.moved d)) =
        (stripAuxDefs ds).map (List.map fun p => (p.1.moved d, p.2.moved d)) := by
      induction ds with
      | nil => rfl
      | cons p ds ih' =>
        obtain ⟨a, b⟩ := p
        have ih' := ih' fun x hx => ih x (by simp [hx])
        have hv := ih (a, b) (by simp)
        dsimp only at hv
        simp only [List.map_cons, stripAuxDefs, hv.1, hv.2, ih']
        cases stripAux a <;> cases stripAux b <;> cases stripAuxDefs ds <;> rfl
    simp only [Content.moved, stripAux, movedD_eq, hp]
    cases stripAuxDefs ds <;> simp [Content.moved]
  | aux c ih => simpa [Content.moved, stripAux] using ih

/-! ### Sections -/

/-- `h'` holds the sections of `h`, moved. -/
def MovedTo (d : Nat) (h h' : Heap) : Prop := ∀ j, h'.get (j + d) = (h.get j).moved d

@[simp] theorem fresh_moved (p : Option Nat) (path : Str) : (Sec.fresh p path).moved d = Sec.fresh (p.map (· + d)) path := rfl

theorem behind_moved (old h : Heap) : MovedTo old.length h (old.behind h) := by
  intro j
  rw [Heap.behind, Heap.get, Heap.get, List.getD_eq_getElem?_getD, List.getD_eq_getElem?_getD,
    List.getElem?_append_right (by omega), Nat.add_sub_cancel, List.getElem?_map]
  cases h[j]? <;> rfl

section
variable {h h' : Heap} (H : MovedTo d h h')
include H

theorem filePath_moved : ∀ n i, h'.filePath n (i + d) = h.filePath n i := by
  intro n
  induction n with
  | zero => intro i; rfl
  | succ n ih =>
    intro i
    rw [Heap.filePath, Heap.filePath, H i]
    simp only [Sec.moved]
    cases (h.get i).parent with
    | none => rfl
    | some p => simp only [Option.map_some, ih p]

omit H in
theorem indexIn_moved (i : Nat) (cs : List Nat) : indexIn (i + d) (cs.map (· + d)) = indexIn i cs := by
  induction cs with
  | nil => rfl
  | cons c cs ih => simp only [List.map_cons, indexIn, ih, Nat.add_right_cancel_iff]

theorem number_moved : ∀ n i, h'.number n (i + d) = h.number n i := by
  intro n
  induction n with
  | zero => intro i; rfl
  | succ n ih =>
    intro i
    rw [Heap.number, Heap.number, H i]
    simp only [Sec.moved]
    cases (h.get i).parent with
    | none => rfl
    | some p => simp only [Option.map_some, ih p, H p, Sec.moved, indexIn_moved]

theorem pageDepth_moved : ∀ n i, h'.pageDepth n (i + d) = h.pageDepth n i := by
  intro n
  induction n with
  | zero => intro i; rfl
  | succ n ih =>
    intro i
    rw [Heap.pageDepth, Heap.pageDepth, H i]
    simp only [Sec.moved]
    cases (h.get i).parent with
    | none => rfl
    | some p => simp only [Option.map_some, ih p, H p, Sec.moved]

theorem headerDepth_moved (n i : Nat) : h'.headerDepth n (i + d) = h.headerDepth n i := by
  rw [Heap.headerDepth, Heap.headerDepth, pageDepth_moved H]

theorem depth_moved : ∀ n i, h'.depth n (i + d) = h.depth n i := by
  intro n
  induction n with
  | zero => intro i; rfl
  | succ n ih =>
    intro i
    rw [Heap.depth, Heap.depth, H i]
    simp only [Sec.moved]
    cases (h.get i).parent with
    | none => rfl
    | some p => simp only [Option.map_some, ih p]

theorem splitPrevented_moved : ∀ n i, h'.splitPrevented n (i + d) = h.splitPrevented n i := by
  intro n
  induction n with
  | zero => intro i; rfl
  | succ n ih =>
    intro i
    rw [Heap.splitPrevented, Heap.splitPrevented, H i]
    simp only [Sec.moved]
    cases (h.get i).parent with
    | none => rfl
    | some p => simp only [Option.map_some, ih p]

omit H in
theorem tags_filter_moved (m : Str → Bool) (ts : List Tag) :
    (ts.map (Tag.moved d)).filter (fun t => m t.name) = (ts.filter fun t => m t.name).map (Tag.moved d) := by
  rw [List.filter_map]
  rfl

mutual
theorem tagsDown_moved (m : Str → Bool) : ∀ n i, h'.tagsDown m n (i + d) = (h.tagsDown m n i).map (List.map (Tag.moved d))
  | 0, i => rfl
  | n + 1, i => by
    rw [Heap.tagsDown, Heap.tagsDown, H i]
    simp only [Sec.moved]
    have := tagsDownAll_moved m n none (h.get i).children
    rw [Option.map_none] at this
    rw [this, tags_filter_moved]
    cases h.tagsDownAll m n none (h.get i).children <;> simp
theorem tagsDownAll_moved (m : Str → Bool) : ∀ n (e : Option Nat) cs,
    h'.tagsDownAll m n (e.map (· + d)) (cs.map (· + d)) = (h.tagsDownAll m n e cs).map (List.map (Tag.moved d))
  | n, e, [] => by simp [Heap.tagsDownAll]
  | 0, e, c :: cs => rfl
  | n + 1, e, c :: cs => by
    simp only [List.map_cons]
    rw [Heap.tagsDownAll, Heap.tagsDownAll]
    have he : e.map (· + d) = some (c + d) ↔ e = some c := by cases e <;> simp
    simp only [he]
    split
    · exact tagsDownAll_moved m n e cs
    · rw [tagsDown_moved m n c, tagsDownAll_moved m n e cs]
      cases h.tagsDown m n c <;> cases h.tagsDownAll m n e cs <;> simp
end

theorem tagsUp_moved (m : Str → Bool) : ∀ n (e : Option Nat) i,
    h'.tagsUp m n (e.map (· + d)) (i + d) = (h.tagsUp m n e i).map (List.map (Tag.moved d)) := by
  intro n
  induction n with
  | zero => intro e i; rfl
  | succ n ih =>
    intro e i
    rw [Heap.tagsUp, Heap.tagsUp, H i]
    simp only [Sec.moved]
    rw [tagsDownAll_moved H, tags_filter_moved]
    cases h.tagsDownAll m n e (h.get i).children with
    | none => rfl
    | some below =>
      simp only [Option.map_some, Option.bind_eq_bind, Option.bind_some]
      cases (h.get i).parent with
      | none => simp
      | some p =>
        have := ih (some i) p
        simp only [Option.map_some] at this ⊢
        rw [this]
        cases h.tagsUp m n (some i) p <;> simp

theorem findTag_moved (n i : Nat) (name : Str) : h'.findTag n (i + d) name = (h.findTag n i name).map (List.map (Tag.moved d)) := by
  have := tagsUp_moved H (fun o => o == name) n none i
  exact this

omit H in
/-- The result of a lookup. -/
def Resolved.moved (d : Nat) : Resolved → Resolved
  | .tag g => .tag (g.moved d)
  | .nothing => .nothing
  | .unknown => .unknown
  | .ambiguous ls => .ambiguous (ls.map fun p => (p.1.map (· + d), p.2))

theorem refTag_moved (n : Nat) (b : Bool) (i : Nat) (name : Str) (o : Bool) (l : Location) :
    h'.refTag n b (i + d) name o l = (h.refTag n b i name o l).map (Resolved.moved d) := by
  rw [Heap.refTag, Heap.refTag, Heap.resolve, Heap.resolve, findTag_moved H]
  cases h.findTag n i name with
  | none => rfl
  | some gs =>
    simp only [Option.map_some, Option.some.injEq]
    match gs with
    | [] => cases o <;> cases b <;> rfl
    | [g] => rfl
    | g :: g' :: gs =>
      cases b
      · simp [Resolved.moved, Tag.moved]
      · rfl

theorem pageOwner_moved : ∀ n i, h'.pageOwner n (i + d) = (h.pageOwner n i).map (· + d) := by
  intro n
  induction n with
  | zero => intro i; rfl
  | succ n ih =>
    intro i
    rw [Heap.pageOwner, Heap.pageOwner, H i]
    simp only [Sec.moved]
    cases (h.get i).parent with
    | none => rfl
    | some p =>
      simp only [Option.map_some, H p, Sec.moved, ih p]
      split <;> rfl

theorem sectionURL_moved (ext : Str) : ∀ n i a, h'.sectionURL ext n (i + d) a = h.sectionURL ext n i a := by
  intro n
  induction n with
  | zero => intro i a; rfl
  | succ n ih =>
    intro i a
    rw [Heap.sectionURL, Heap.sectionURL, pageOwner_moved H]
    cases h.pageOwner n i with
    | none => rfl
    | some o =>
      simp only [Option.map_some, ne_eq, Nat.add_right_cancel_iff, H i, Heap.fileName, ih o]
      rfl

end

end Booklit
