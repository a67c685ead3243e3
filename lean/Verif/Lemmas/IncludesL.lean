import Verif.Spec.Includes
import Verif.Lemmas.FuelL
import Verif.Lemmas.ClosedL
import Verif.Lemmas.CustomL
import Verif.Lemmas.Frame

/-!
Two heaps whose sections differ only in the files they are from.
-/

namespace Booklit

/-- A section without its file, the plugins it uses and its place. -/
def Sec.anon (x : Sec) : Sec := { x with path := [], plugins := [], loc := Location.zero }

/-- Sections that differ in files and plugins only. -/
def Twin (h h' : Heap) : Prop := ∀ i, (h'.get i).anon = (h.get i).anon

/-- No sections as content. -/
def Content.quiet (c : Content) : Bool := c.all fun d => !d.isSect

/-- Sections whose contents hold no sections. -/
structure Sec.Quiet (x : Sec) : Prop where
  title : x.title.quiet = true
  body : x.body.quiet = true
  tags : ∀ g ∈ x.tags, g.title.quiet = true ∧ g.content.quiet = true
  partials : ∀ p ∈ x.partials, p.2.quiet = true
  primary : x.primaryTag.title.quiet = true ∧ x.primaryTag.content.quiet = true

def Heap.Quiet (h : Heap) : Prop := ∀ i, (h.get i).Quiet

section
variable {h h' : Heap} (H : Twin h h')
include H

theorem Twin.symm : Twin h' h := fun i => (H i).symm
theorem Twin.parent (i : Nat) : (h'.get i).parent = (h.get i).parent := by have := congrArg Sec.parent (H i); exact this
theorem Twin.children (i : Nat) : (h'.get i).children = (h.get i).children := by have := congrArg Sec.children (H i); exact this
theorem Twin.title (i : Nat) : (h'.get i).title = (h.get i).title := by have := congrArg Sec.title (H i); exact this
theorem Twin.body (i : Nat) : (h'.get i).body = (h.get i).body := by have := congrArg Sec.body (H i); exact this
theorem Twin.tags (i : Nat) : (h'.get i).tags = (h.get i).tags := by have := congrArg Sec.tags (H i); exact this
theorem Twin.primaryTag (i : Nat) : (h'.get i).primaryTag = (h.get i).primaryTag := by have := congrArg Sec.primaryTag (H i); exact this
theorem Twin.partials (i : Nat) : (h'.get i).partials = (h.get i).partials := by have := congrArg Sec.partials (H i); exact this
theorem Twin.style (i : Nat) : (h'.get i).style = (h.get i).style := by have := congrArg Sec.style (H i); exact this
theorem Twin.split (i : Nat) : (h'.get i).split = (h.get i).split := by have := congrArg Sec.split (H i); exact this
theorem Twin.preventSplit (i : Nat) : (h'.get i).preventSplit = (h.get i).preventSplit := by have := congrArg Sec.preventSplit (H i); exact this
theorem Twin.resetDepth (i : Nat) : (h'.get i).resetDepth = (h.get i).resetDepth := by have := congrArg Sec.resetDepth (H i); exact this
theorem Twin.omitToc (i : Nat) : (h'.get i).omitToc = (h.get i).omitToc := by have := congrArg Sec.omitToc (H i); exact this
theorem Twin.titleLoc (i : Nat) : (h'.get i).titleLoc = (h.get i).titleLoc := by have := congrArg Sec.titleLoc (H i); exact this
theorem Twin.invokeLoc (i : Nat) : (h'.get i).invokeLoc = (h.get i).invokeLoc := by have := congrArg Sec.invokeLoc (H i); exact this

theorem Twin.quiet (q : h.Quiet) : h'.Quiet := fun i => by
  obtain ⟨a, b, c, d, e⟩ := q i
  exact ⟨by rw [H.title]; exact a, by rw [H.body]; exact b, by rw [H.tags]; exact c, by rw [H.partials]; exact d,
    by rw [H.primaryTag]; exact e⟩

theorem number_twin : ∀ n i, h'.number n i = h.number n i := by
  intro n
  induction n with
  | zero => intro i; rfl
  | succ n ih => intro i; simp only [Heap.number, H.parent, H.children, ih]

theorem pageDepth_twin : ∀ n i, h'.pageDepth n i = h.pageDepth n i := by
  intro n
  induction n with
  | zero => intro i; rfl
  | succ n ih => intro i; simp only [Heap.pageDepth, H.parent, H.resetDepth, ih]

theorem headerDepth_twin (n i : Nat) : h'.headerDepth n i = h.headerDepth n i := by
  rw [Heap.headerDepth, Heap.headerDepth, pageDepth_twin H]

theorem depth_twin : ∀ n i, h'.depth n i = h.depth n i := by
  intro n
  induction n with
  | zero => intro i; rfl
  | succ n ih => intro i; simp only [Heap.depth, H.parent, ih]

theorem splitPrevented_twin : ∀ n i, h'.splitPrevented n i = h.splitPrevented n i := by
  intro n
  induction n with
  | zero => intro i; rfl
  | succ n ih => intro i; simp only [Heap.splitPrevented, H.parent, H.preventSplit, ih]

theorem pageOwner_twin : ∀ n i, h'.pageOwner n i = h.pageOwner n i := by
  intro n
  induction n with
  | zero => intro i; rfl
  | succ n ih => intro i; simp only [Heap.pageOwner, H.parent, H.split, ih]

theorem fileName_twin (ext : Str) (i : Nat) : h'.fileName ext i = h.fileName ext i := by
  rw [Heap.fileName, Heap.fileName, H.primaryTag]

theorem sectionURL_twin (ext : Str) : ∀ n i a, h'.sectionURL ext n i a = h.sectionURL ext n i a := by
  intro n
  induction n with
  | zero => intro i a; rfl
  | succ n ih => intro i a; simp only [Heap.sectionURL, pageOwner_twin H, H.primaryTag, fileName_twin H, ih]

theorem isPage_twin (i : Nat) : h'.isPage i = h.isPage i := by
  simp only [Heap.isPage, H.parent, H.split]

theorem tagsDown_twin (m : Str → Bool) (n : Nat) :
    (∀ i, h'.tagsDown m n i = h.tagsDown m n i) ∧ ∀ x cs, h'.tagsDownAll m n x cs = h.tagsDownAll m n x cs := by
  induction n with
  | zero =>
    refine ⟨fun i => by simp only [Heap.tagsDown], fun x cs => ?_⟩
    cases cs <;> simp only [Heap.tagsDownAll]
  | succ n ih =>
    refine ⟨fun i => ?_, fun x cs => ?_⟩
    · rw [Heap.tagsDown, Heap.tagsDown, H.children, H.tags, ih.2]
    · cases cs with
      | nil => simp only [Heap.tagsDownAll]
      | cons c cs => rw [Heap.tagsDownAll, Heap.tagsDownAll, ih.2, ih.1]

theorem tagsUp_twin (m : Str → Bool) : ∀ n x i, h'.tagsUp m n x i = h.tagsUp m n x i := by
  intro n
  induction n with
  | zero => intro x i; rfl
  | succ n ih =>
    intro x i
    rw [Heap.tagsUp, Heap.tagsUp, H.children, H.tags, H.parent, (tagsDown_twin H m n).2]
    simp only [ih]

theorem findTag_twin (n i : Nat) (name : Str) : h'.findTag n i name = h.findTag n i name := tagsUp_twin H _ _ _ _

theorem refTag_twin (n : Nat) (b : Bool) (i : Nat) (name : Str) (o : Bool) (l : Location) :
    h'.refTag n b i name o l = h.refTag n b i name o l := by
  rw [Heap.refTag, Heap.refTag, Heap.resolve, Heap.resolve, findTag_twin H]

end

/-! ### Quiet contents -/

theorem quiet_iff_seq {cs : List Content} : (Content.seq cs).quiet = true ↔ ∀ c ∈ cs, c.quiet = true := by
  rw [Content.quiet, Content.all, Bool.and_eq_true, Tmpl.allL_mem]; simp [Content.quiet, Content.isSect]

theorem quiet_iff_para {cs : List Content} : (Content.para cs).quiet = true ↔ ∀ c ∈ cs, c.quiet = true := by
  rw [Content.quiet, Content.all, Bool.and_eq_true, Tmpl.allL_mem]; simp [Content.quiet, Content.isSect]

theorem quiet_iff_pre {cs : List Content} : (Content.pre cs).quiet = true ↔ ∀ c ∈ cs, c.quiet = true := by
  rw [Content.quiet, Content.all, Bool.and_eq_true, Tmpl.allL_mem]; simp [Content.quiet, Content.isSect]

theorem quiet_iff_list {cs : List Content} {o : Bool} : (Content.list cs o).quiet = true ↔ ∀ c ∈ cs, c.quiet = true := by
  rw [Content.quiet, Content.all, Bool.and_eq_true, Tmpl.allL_mem]; simp [Content.quiet, Content.isSect]

theorem quiet_iff_table {rs : List (List Content)} : (Content.table rs).quiet = true ↔ ∀ r ∈ rs, ∀ c ∈ r, c.quiet = true := by
  rw [Content.quiet, Content.all, Bool.and_eq_true, Tmpl.allR_mem]; simp [Content.quiet, Content.isSect]

theorem quiet_iff_defs {ds : List (Content × Content)} : (Content.defs ds).quiet = true ↔ ∀ d ∈ ds, d.1.quiet = true ∧ d.2.quiet = true := by
  rw [Content.quiet, Content.all, Bool.and_eq_true, Tmpl.allD_mem]; simp [Content.quiet, Content.isSect]

theorem quiet_append {cs : List Content} : ∀ {r : Content}, r.quiet = true → (∀ c ∈ cs, c.quiet = true) → (append r cs).quiet = true := by
  induction cs with
  | nil => intro r hr _; exact hr
  | cons c cs ih =>
    intro r hr hc
    have hc1 := hc c (by simp)
    have hc2 : ∀ x ∈ cs, x.quiet = true := fun x hx => hc x (by simp [hx])
    unfold append
    split
    · exact ih hr hc2
    · split
      · exact ih hc1 hc2
      · rw [quiet_iff_seq] at hr ⊢
        intro x hx
        rcases List.mem_append.1 hx with h | h
        · exact hr x h
        · rw [List.mem_singleton.1 h]; exact hc1
      · rw [quiet_iff_seq]
        intro x hx
        simp only [List.mem_cons, List.not_mem_nil, or_false] at hx
        rcases hx with rfl | rfl
        · exact hr
        · exact hc1

theorem quiet_strip {c d : Content} (hc : c.quiet = true) (e : stripAux c = some d) : d.quiet = true := strip_noSect c hc d e

/-! ### Tags -/

theorem tagsDown_quiet {h : Heap} (q : h.Quiet) (m : Str → Bool) (n : Nat) :
    (∀ i ts, h.tagsDown m n i = some ts → ∀ g ∈ ts, g.title.quiet = true ∧ g.content.quiet = true) ∧
    ∀ x cs ts, h.tagsDownAll m n x cs = some ts → ∀ g ∈ ts, g.title.quiet = true ∧ g.content.quiet = true := by
  induction n with
  | zero =>
    refine ⟨fun i ts e => by simp [Heap.tagsDown] at e, fun x cs ts e => ?_⟩
    cases cs <;> simp [Heap.tagsDownAll] at e
    subst e
    simp
  | succ n ih =>
    refine ⟨fun i ts e => ?_, fun x cs ts e => ?_⟩
    · rw [Heap.tagsDown] at e
      simp only [Option.bind_eq_bind, Option.bind_eq_some_iff, Option.some.injEq] at e
      obtain ⟨below, e1, rfl⟩ := e
      intro g hg
      rcases List.mem_append.1 hg with hg | hg
      · exact (q i).tags g (List.mem_filter.1 hg).1
      · exact ih.2 _ _ _ e1 g hg
    · cases cs with
      | nil => simp [Heap.tagsDownAll] at e; subst e; simp
      | cons c cs =>
        rw [Heap.tagsDownAll] at e
        split at e
        · exact ih.2 _ _ _ e
        · simp only [Option.bind_eq_bind, Option.bind_eq_some_iff, Option.some.injEq] at e
          obtain ⟨a, e1, b, e2, rfl⟩ := e
          intro g hg
          rcases List.mem_append.1 hg with hg | hg
          · exact ih.1 _ _ e1 g hg
          · exact ih.2 _ _ _ e2 g hg

theorem tagsUp_quiet {h : Heap} (q : h.Quiet) (m : Str → Bool) : ∀ n x i ts, h.tagsUp m n x i = some ts →
    ∀ g ∈ ts, g.title.quiet = true ∧ g.content.quiet = true := by
  intro n
  induction n with
  | zero => intro x i ts e; simp [Heap.tagsUp] at e
  | succ n ih =>
    intro x i ts e
    rw [Heap.tagsUp] at e
    simp only [Option.bind_eq_bind, Option.bind_eq_some_iff] at e
    obtain ⟨below, e1, e2⟩ := e
    have h1 : ∀ g ∈ (h.get i).tags.filter (fun t => m t.name) ++ below, g.title.quiet = true ∧ g.content.quiet = true := by
      intro g hg
      rcases List.mem_append.1 hg with hg | hg
      · exact (q i).tags g (List.mem_filter.1 hg).1
      · exact (tagsDown_quiet q m n).2 _ _ _ e1 g hg
    cases hp : (h.get i).parent with
    | none =>
      rw [hp] at e2
      simp only [Option.some.injEq] at e2
      subst e2
      exact h1
    | some p =>
      rw [hp] at e2
      simp only [Option.bind_eq_some_iff, Option.some.injEq] at e2
      obtain ⟨above, e3, rfl⟩ := e2
      intro g hg
      rcases List.mem_append.1 hg with hg | hg
      · exact h1 g hg
      · exact ih _ _ _ e3 g hg

theorem refTag_quiet {h : Heap} (q : h.Quiet) {n : Nat} {b : Bool} {i : Nat} {name : Str} {o : Bool} {l : Location} {g : Tag}
    (e : h.refTag n b i name o l = some (.tag g)) : g.title.quiet = true ∧ g.content.quiet = true := by
  unfold Heap.refTag Heap.resolve at e
  cases hf : h.findTag n i name with
  | none => rw [hf] at e; cases e
  | some ts =>
    rw [hf] at e
    have hq := tagsUp_quiet q _ _ _ _ _ hf
    match ts, e with
    | [], e =>
      simp only [Option.map_some, Option.some.injEq] at e
      cases o <;> cases b <;> simp at e
      subst e
      exact ⟨rfl, rfl⟩
    | [t], e =>
      simp only [Option.map_some, Option.some.injEq, Resolved.tag.injEq] at e
      subst e
      exact hq t (by simp)
    | _ :: _ :: _, e =>
      simp only [Option.map_some, Option.some.injEq] at e
      cases b <;> simp at e
      subst e
      exact ⟨rfl, rfl⟩

/-! ### Texts -/

section
variable {r r' : Nat → Str → Bool → Location → Res Str} {q q' : Nat → Res Str}

theorem textL_quiet {cs : List Content} (h : ∀ c ∈ cs, c.text r' q' = c.text r q) : textL r' q' cs = textL r q cs := by
  induction cs with
  | nil => rfl
  | cons c cs ih => simp only [textL, h c (by simp), ih fun x hx => h x (by simp [hx])]

theorem text_quiet (hr : ∀ s t o l, r' s t o l = r s t o l) (c : Content) : c.quiet = true → c.text r' q' = c.text r q := by
  induction c using Content.ind with
  | nil | str | target | image | toc | lazy => intro _; rfl
  | seq cs ih => intro h; simp only [Content.text, textL_quiet fun c hc => ih c hc (quiet_iff_seq.1 h c hc)]
  | para cs ih => intro h; simp only [Content.text, textL_quiet fun c hc => ih c hc (quiet_iff_para.1 h c hc)]
  | pre cs ih => intro h; simp only [Content.text, textL_quiet fun c hc => ih c hc (quiet_iff_pre.1 h c hc)]
  | list cs o ih => intro h; simp only [Content.text, textL_quiet fun c hc => ih c hc (quiet_iff_list.1 h c hc)]
  | ref s t c o l ih =>
    intro h
    simp only [Content.quiet, Content.all, Bool.and_eq_true] at h
    simp only [Content.text, hr, ih h.2]
  | sect i => intro h; cases h
  | styled st b c ps ih _ =>
    intro h
    simp only [Content.quiet, Content.all, Bool.and_eq_true] at h
    simp only [Content.text, ih h.1.2]
  | link c u ih | aux c ih =>
    intro h
    simp only [Content.quiet, Content.all, Bool.and_eq_true] at h
    simp only [Content.text, ih h.2]
  | table rs ih =>
    intro h
    replace h := quiet_iff_table.1 h
    have : textR r' q' rs = textR r q rs := by
      induction rs with
      | nil => rfl
      | cons x rs ih' =>
        simp only [textR, textL_quiet fun c hc => ih x (by simp) c hc (h x (by simp) c hc),
          ih' (fun y hy => ih y (by simp [hy])) (fun y hy => h y (by simp [hy]))]
    simp only [Content.text, this]
  | defs ds ih =>
    intro h
    replace h := quiet_iff_defs.1 h
    have : textD r' q' ds = textD r q ds := by
      induction ds with
      | nil => rfl
      | cons x ds ih' =>
        obtain ⟨a, b⟩ := x
        have h1 := (ih (a, b) (by simp)).1 (h (a, b) (by simp)).1
        have h2 := (ih (a, b) (by simp)).2 (h (a, b) (by simp)).2
        dsimp only at h1 h2
        simp only [textD, h1, h2, ih' (fun y hy => ih y (by simp [hy])) (fun y hy => h y (by simp [hy]))]
    simp only [Content.text, this]

end

theorem heapText_twin {h h' : Heap} (H : Twin h h') (q : h.Quiet) (b : Bool) : ∀ n c, c.quiet = true → h'.text b n c = h.text b n c := by
  intro n
  induction n with
  | zero => intro c hc; exact text_quiet (fun _ _ _ _ => rfl) c hc
  | succ n ih =>
    intro c hc
    rw [Heap.text, Heap.text]
    refine text_quiet (fun s t o l => ?_) c hc
    rw [refTag_twin H]
    cases e : h.refTag n b s t o l with
    | none => rfl
    | some x =>
      cases x with
      | tag g => exact ih _ (refTag_quiet q e).1
      | _ => rfl

end Booklit
