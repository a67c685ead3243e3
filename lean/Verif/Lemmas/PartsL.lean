import Verif.Lemmas.HeapContent
import Verif.Spec.Parts

/-!
Targets found by collection are the targets among the parts.
-/

namespace Booklit

theorem andThen_some (a b : List Target) : andThen (some a) (some b) = some (a ++ b) := rfl

theorem nil_parts {c : Content} (h : c.isNil = true) : c = .nil := by cases c <;> simp_all [Content.isNil]

/-- What collection finds in `c` makes the tags `f c`. -/
def Finds (i : Nat) (o : Option (List Target)) (gs : List Tag) : Prop :=
  ∃ ts, o = some ts ∧ ts.map (Target.tag i) = gs

theorem Finds.andThen {i : Nat} {a b : Option (List Target)} {x y : List Tag} (h : Finds i a x) (h' : Finds i b y) :
    Finds i (andThen a b) (x ++ y) := by
  obtain ⟨s, rfl, rfl⟩ := h
  obtain ⟨t, rfl, rfl⟩ := h'
  exact ⟨s ++ t, rfl, by simp⟩

theorem Finds.empty (i : Nat) : Finds i (some []) [] := ⟨[], rfl, rfl⟩

mutual
theorem targets_parts (i : Nat) : ∀ c : Content, c.isNil = false → c.all Content.noHoles = true →
    Finds i (targets c) ((c.parts false).filterMap (Content.anchor i))
  | .nil, h, _ => by cases h
  | .str _, _, _ => Finds.empty i
  | .seq cs, _, h => by
    simp only [Content.all, Content.noHoles, Bool.and_eq_true] at h
    exact targetsL_parts i cs h.1 h.2
  | .para cs, _, h => by
    simp only [Content.all, Content.noHoles, Bool.and_eq_true] at h
    exact targetsL_parts i cs h.1 h.2
  | .pre cs, _, h => by
    simp only [Content.all, Content.noHoles, Bool.and_eq_true] at h
    exact targetsL_parts i cs h.1 h.2
  | .ref _ _ _ _ _, _, _ => Finds.empty i
  | .sect _, _, _ => Finds.empty i
  | .toc _, _, _ => Finds.empty i
  | .styled _ _ c ps, _, h => by
    simp only [Content.all, Content.noHoles, Bool.and_eq_true, Bool.not_eq_true'] at h
    rw [targets, Content.parts]
    simp only [List.filterMap_cons, Content.anchor, List.filterMap_append]
    exact (targets_parts i c h.1.1 h.1.2).andThen (targetsP_parts i ps h.2)
  | .target _ _ _ _, _, _ => ⟨_, rfl, rfl⟩
  | .image _ _, _, _ => Finds.empty i
  | .list cs _, _, h => by
    simp only [Content.all, Content.noHoles, Bool.and_eq_true] at h
    exact targetsL_parts i cs h.1 h.2
  | .link c _, _, h => by
    simp only [Content.all, Content.noHoles, Bool.and_eq_true, Bool.not_eq_true'] at h
    exact targets_parts i c h.1 h.2
  | .table rs, _, h => by
    simp only [Content.all, Content.noHoles, Bool.and_eq_true] at h
    exact targetsR_parts i rs h.1 h.2
  | .defs ds, _, h => by
    simp only [Content.all, Content.noHoles, Bool.and_eq_true] at h
    exact targetsD_parts i ds h.1 h.2
  | .lazy _ _, _, _ => Finds.empty i
  | .aux c, _, h => by
    simp only [Content.all, Content.noHoles, Bool.and_eq_true, Bool.not_eq_true'] at h
    exact targets_parts i c h.1 h.2
theorem targetsL_parts (i : Nat) : ∀ cs : List Content, cs.all (!·.isNil) = true → allL Content.noHoles cs = true →
    Finds i (targetsL cs) ((partsL false cs).filterMap (Content.anchor i))
  | [], _, _ => Finds.empty i
  | c :: cs, hn, h => by
    simp only [List.all_cons, Bool.and_eq_true, Bool.not_eq_true'] at hn
    simp only [allL, Bool.and_eq_true] at h
    rw [targetsL, partsL, List.filterMap_append]
    exact (targets_parts i c hn.1 h.1).andThen (targetsL_parts i cs hn.2 h.2)
theorem targetsP_parts (i : Nat) : ∀ ps : List (Str × Content), allP Content.noHoles ps = true →
    Finds i (targetsP ps) ((partsP false ps).filterMap (Content.anchor i))
  | [], _ => Finds.empty i
  | (k, c) :: ps, h => by
    simp only [allP, Bool.and_eq_true] at h
    rw [targetsP, partsP, List.filterMap_append]
    refine Finds.andThen ?_ (targetsP_parts i ps h.2)
    by_cases hn : c.isNil = true
    · rw [if_pos hn, nil_parts hn]; exact Finds.empty i
    · rw [if_neg hn]; exact targets_parts i c (by simpa using hn) h.1
theorem targetsR_parts (i : Nat) : ∀ rs : List (List Content), rs.all (·.all (!·.isNil)) = true → allR Content.noHoles rs = true →
    Finds i (targetsR rs) ((partsR false rs).filterMap (Content.anchor i))
  | [], _, _ => Finds.empty i
  | r :: rs, hn, h => by
    simp only [List.all_cons, Bool.and_eq_true] at hn
    simp only [allR, Bool.and_eq_true] at h
    rw [targetsR, partsR, List.filterMap_append]
    exact (targetsL_parts i r hn.1 h.1).andThen (targetsR_parts i rs hn.2 h.2)
theorem targetsD_parts (i : Nat) : ∀ ds : List (Content × Content), (ds.all fun d => !d.1.isNil && !d.2.isNil) = true →
    allD Content.noHoles ds = true → Finds i (targetsD ds) ((partsD false ds).filterMap (Content.anchor i))
  | [], _, _ => Finds.empty i
  | (a, b) :: ds, hn, h => by
    simp only [List.all_cons, Bool.and_eq_true, Bool.not_eq_true'] at hn
    simp only [allD, Bool.and_eq_true] at h
    rw [targetsD, partsD, List.filterMap_append, List.filterMap_append]
    exact ((targets_parts i a hn.1.1 h.1.1).andThen (targets_parts i b hn.1.2 h.1.2)).andThen (targetsD_parts i ds hn.2 h.2)
end

theorem solid_iff {c : Content} : c.solid = true ↔ c.isNil = false ∧ c.all Content.noHoles = true := by
  simp [Content.solid]

theorem anchor_isSome (i j : Nat) (c : Content) : (Content.anchor i c).isSome = (Content.anchor j c).isSome := by
  cases c <;> rfl

theorem anchors_empty {d : Bool} (i j : Nat) {c : Content} (h : (c.anchors d i).isEmpty = true) : c.anchors d j = [] := by
  simp only [Content.anchors, List.isEmpty_iff, List.filterMap_eq_nil_iff] at h ⊢
  intro x hx
  have := h x hx
  have e := anchor_isSome i j x
  rw [this] at e
  simpa using e.symm

mutual
theorem anchors_plain (i : Nat) : ∀ c : Content, c.all Content.plainInside = true →
    (c.parts true).filterMap (Content.anchor i) = (c.parts false).filterMap (Content.anchor i)
  | .nil, _ => rfl
  | .str _, _ => rfl
  | .seq cs, h => by
    simp only [Content.all, Bool.and_eq_true] at h
    exact anchorsL_plain i cs h.2
  | .para cs, h => by
    simp only [Content.all, Bool.and_eq_true] at h
    exact anchorsL_plain i cs h.2
  | .pre cs, h => by
    simp only [Content.all, Bool.and_eq_true] at h
    exact anchorsL_plain i cs h.2
  | .ref _ _ c _ _, h => by
    simp only [Content.all, Content.plainInside, Bool.and_eq_true] at h
    have := anchors_empty (j := i) _ h.1
    simp only [Content.anchors] at this
    simp only [Content.parts, List.filterMap_cons, Content.anchor, if_true, this]
    rfl
  | .sect _, _ => rfl
  | .toc _, _ => rfl
  | .styled _ _ c ps, h => by
    simp only [Content.all, Bool.and_eq_true] at h
    simp only [Content.parts, List.filterMap_cons, Content.anchor, List.filterMap_append]
    rw [anchors_plain i c h.1.2, anchorsP_plain i ps h.2]
  | .target _ _ a b, h => by
    simp only [Content.all, Content.plainInside, Bool.and_eq_true] at h
    have h1 := anchors_empty (j := i) _ h.1.1.1
    have h2 := anchors_empty (j := i) _ h.1.1.2
    simp only [Content.anchors] at h1 h2
    simp only [Content.parts, List.filterMap_cons, Content.anchor, List.filterMap_append, if_true, h1, h2]
    rfl
  | .image _ _, _ => rfl
  | .list cs _, h => by
    simp only [Content.all, Bool.and_eq_true] at h
    exact anchorsL_plain i cs h.2
  | .link c _, h => by
    simp only [Content.all, Bool.and_eq_true] at h
    exact anchors_plain i c h.2
  | .table rs, h => by
    simp only [Content.all, Bool.and_eq_true] at h
    exact anchorsR_plain i rs h.2
  | .defs ds, h => by
    simp only [Content.all, Bool.and_eq_true] at h
    exact anchorsD_plain i ds h.2
  | .lazy _ _, _ => rfl
  | .aux c, h => by
    simp only [Content.all, Bool.and_eq_true] at h
    exact anchors_plain i c h.2
theorem anchorsL_plain (i : Nat) : ∀ cs : List Content, allL Content.plainInside cs = true →
    (partsL true cs).filterMap (Content.anchor i) = (partsL false cs).filterMap (Content.anchor i)
  | [], _ => rfl
  | c :: cs, h => by
    simp only [allL, Bool.and_eq_true] at h
    simp only [partsL, List.filterMap_append]
    rw [anchors_plain i c h.1, anchorsL_plain i cs h.2]
theorem anchorsP_plain (i : Nat) : ∀ cs : List (Str × Content), allP Content.plainInside cs = true →
    (partsP true cs).filterMap (Content.anchor i) = (partsP false cs).filterMap (Content.anchor i)
  | [], _ => rfl
  | (k, c) :: cs, h => by
    simp only [allP, Bool.and_eq_true] at h
    simp only [partsP, List.filterMap_append]
    rw [anchors_plain i c h.1, anchorsP_plain i cs h.2]
theorem anchorsR_plain (i : Nat) : ∀ cs : List (List Content), allR Content.plainInside cs = true →
    (partsR true cs).filterMap (Content.anchor i) = (partsR false cs).filterMap (Content.anchor i)
  | [], _ => rfl
  | c :: cs, h => by
    simp only [allR, Bool.and_eq_true] at h
    simp only [partsR, List.filterMap_append]
    rw [anchorsL_plain i c h.1, anchorsR_plain i cs h.2]
theorem anchorsD_plain (i : Nat) : ∀ cs : List (Content × Content), allD Content.plainInside cs = true →
    (partsD true cs).filterMap (Content.anchor i) = (partsD false cs).filterMap (Content.anchor i)
  | [], _ => rfl
  | (a, b) :: cs, h => by
    simp only [allD, Bool.and_eq_true] at h
    simp only [partsD, List.filterMap_append]
    rw [anchors_plain i a h.1.1, anchors_plain i b h.1.2, anchorsD_plain i cs h.2]
end

/-- The targets of a section. -/
theorem Sec.targets_parts (i : Nat) (x : Sec) (h : ∀ c ∈ x.contents, c.solid = true) :
    Finds i x.targets (x.contents.flatMap (Content.anchors false i)) := by
  simp only [Sec.contents, List.mem_cons, forall_eq_or_imp, solid_iff] at h
  rw [Sec.targets, Sec.contents, List.flatMap_cons, List.flatMap_cons]
  refine (Booklit.targets_parts i _ h.1.1 h.1.2).andThen ((Booklit.targets_parts i _ h.2.1.1 h.2.1.2).andThen ?_)
  have h3 := h.2.2
  generalize x.partials.map (·.2) = cs at h3
  induction cs with
  | nil => exact Finds.empty i
  | cons c cs ih =>
    simp only [List.mem_cons, forall_eq_or_imp] at h3
    rw [targetsL, List.flatMap_cons]
    exact (Booklit.targets_parts i c h3.1.1 h3.1.2).andThen (ih h3.2)

/-! ### Evaluation makes contents without holes -/

/-- Methods of other plugins, given contents without holes, return contents without holes. -/
def World.SolidPlugins (W : World) : Prop :=
  ∀ q name f, W.foreign q name = some f → ∀ h i args, (∀ c, Raw.content c ∈ args → c.solid = true) →
    ∀ c, (f.run h i args = .content c ∨ f.run h i args = .both c none) → c.isNil = false → c.solid = true

theorem contentInv_solid {W : World} (foreign : W.SolidPlugins) : ContentInv W fun c => c.solid = true where
  str := fun s => rfl
  append := fun {r c} hr hc => by
    have hn : ¬ c.isNil = true := by simp [(solid_iff.1 hc).1]
    simp only [Booklit.append, if_neg hn]
    cases r with
    | nil => exact hc
    | seq cs =>
      have := hr rfl
      simp only [solid_iff, Content.all, Content.noHoles, Bool.and_eq_true, allL_iff, List.all_eq_true,
        Bool.not_eq_true'] at this hc ⊢
      refine ⟨rfl, ⟨fun x hx => ?_, fun x hx => ?_⟩⟩
      · rcases List.mem_append.1 hx with hx | hx
        · exact this.2.1 x hx
        · rw [List.mem_singleton.1 hx]; exact hc.1
      · rcases List.mem_append.1 hx with hx | hx
        · exact this.2.2 x hx
        · rw [List.mem_singleton.1 hx]; exact hc.2
    | _ =>
      have := hr rfl
      dsimp only
      rw [solid_iff] at this hc ⊢
      refine ⟨rfl, ?_⟩
      rw [Content.all, allL, allL, allL, this.2, hc.2]
      simp [Content.noHoles, this.1, hc.1]
  para := fun {xs} hne hx hf => by
    simp only [solid_iff] at hx
    simp only [solid_iff, Content.all, Content.noHoles, Bool.and_eq_true, allL_iff, List.all_eq_true, Bool.not_eq_true']
    exact ⟨rfl, fun x h => (hx x h).1, fun x h => (hx x h).2⟩
  pre := fun {xs} hx => by
    simp only [solid_iff] at hx
    simp only [solid_iff, Content.all, Content.noHoles, Bool.and_eq_true, allL_iff, List.all_eq_true, Bool.not_eq_true']
    exact ⟨rfl, fun x h => (hx x h).1, fun x h => (hx x h).2⟩
  aux := fun {c} hc => by
    rw [solid_iff] at hc ⊢
    exact ⟨rfl, by simp [Content.all, Content.noHoles, hc.1, hc.2]⟩
  toc := fun i => rfl
  styled := fun {c} s hc => by
    rw [solid_iff] at hc ⊢
    exact ⟨rfl, by simp [Content.all, Content.noHoles, hc.1, hc.2, allP]⟩
  link := fun {c} u hc => by
    rw [solid_iff] at hc ⊢
    exact ⟨rfl, by simp [Content.all, Content.noHoles, hc.1, hc.2]⟩
  ref := fun {c} i t l hc => by
    rw [solid_iff]
    refine ⟨rfl, ?_⟩
    cases c with
    | nil => rfl
    | _ => have := (solid_iff.1 (hc rfl)).2; rw [Content.all, this]; rfl
  target := fun {ti c} t l h1 hc => by
    rw [solid_iff] at h1 ⊢
    refine ⟨rfl, ?_⟩
    have : c.all Content.noHoles = true := by
      cases c with
      | nil => rfl
      | _ => exact (solid_iff.1 (hc rfl)).2
    simp [Content.all, Content.noHoles, h1.1, h1.2, this]
  list := fun {xs} o hx => by
    simp only [solid_iff] at hx
    simp only [solid_iff, Content.all, Content.noHoles, Bool.and_eq_true, allL_iff, List.all_eq_true, Bool.not_eq_true']
    exact ⟨rfl, fun x h => (hx x h).1, fun x h => (hx x h).2⟩
  items := fun {xs o} h x hx => by
    simp only [solid_iff, Content.all, Content.noHoles, Bool.and_eq_true, allL_iff, List.all_eq_true, Bool.not_eq_true'] at h ⊢
    exact ⟨h.2.1 x hx, h.2.2 x hx⟩
  image := fun a b => rfl
  table := fun {rows} h => by
    simp only [solid_iff] at h
    simp only [solid_iff, Content.all, Content.noHoles, Bool.and_eq_true, allR_iff, List.all_eq_true, Bool.not_eq_true']
    exact ⟨rfl, fun r hr x hx => (h r hr x hx).1, fun r hr x hx => (h r hr x hx).2⟩
  defs := fun {ds} h => by
    simp only [solid_iff] at h
    simp only [solid_iff, Content.all, Content.noHoles, Bool.and_eq_true, allD_iff, List.all_eq_true, Bool.not_eq_true']
    exact ⟨rfl, fun d hd => ⟨(h d hd).1.1, (h d hd).2.1⟩, fun d hd => ⟨(h d hd).1.2, (h d hd).2.2⟩⟩
  foreign := fun h i args hf ha =>
    ⟨fun c hc => foreign _ _ _ hf h i args ha c (.inl hc), fun c hc => foreign _ _ _ hf h i args ha c (.inr hc)⟩

theorem SecOk.contents {P : Content → Prop} {x : Sec} (h : SecOk P x) : ∀ c ∈ x.contents, P c := by
  intro c hc
  simp only [Sec.contents, List.mem_cons, List.mem_map] at hc
  rcases hc with rfl | rfl | ⟨p, hp, rfl⟩
  · exact h.1
  · exact h.2.1
  · exact h.2.2 p hp

end Booklit
