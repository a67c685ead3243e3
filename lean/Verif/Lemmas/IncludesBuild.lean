import Verif.Lemmas.IncludesPage
import Verif.Lemmas.ErasedPage
import Verif.Lemmas.ErasedBuild

/-!
Builds of two books that differ only in which sections have files of their own.
-/

namespace Booklit

/-! ### Without places, twice -/

theorem erased_twice (c : Content) : c.erased.erased = c.erased := by
  induction c using Content.ind with
  | nil | str | sect | toc | image | lazy => rfl
  | seq cs ih | para cs ih | pre cs ih | list cs o ih =>
    simp only [Content.erased, erasedL_eq, List.map_map]
    congr 1
    exact List.map_congr_left ih
  | ref s t c o l ih | link c u ih | aux c ih => simp only [Content.erased, ih]
  | styled st b c ps ih ihp =>
    simp only [Content.erased, erasedP_eq, List.map_map, ih]
    congr 1
    exact List.map_congr_left fun p hp => by simp [ihp p hp]
  | target t l ti c h1 h2 => simp only [Content.erased, h1, h2]
  | table rs ih =>
    simp only [Content.erased, erasedR_eq, List.map_map]
    congr 1
    refine List.map_congr_left fun r hr => ?_
    simp only [Function.comp, List.map_map]
    exact List.map_congr_left fun c hc => ih r hr c hc
  | defs ds ih =>
    simp only [Content.erased, erasedD_eq, List.map_map]
    congr 1
    exact List.map_congr_left fun p hp => by simp [ih p hp]

theorem tag_erased_twice (g : Tag) : g.erased.erased = g.erased := by simp only [Tag.erased, erased_twice]

theorem Heap.same_erased (h : Heap) : h.Same h.erased := by
  rw [Heap.Same, Heap.erased, Heap.erased, List.map_map]
  refine List.map_congr_left fun x _ => ?_
  simp [Sec.erased, Function.comp, erased_twice, tag_erased_twice]

theorem Heap.Same.symm {h h' : Heap} (H : h.Same h') : h'.Same h := Eq.symm H

theorem quiet_erased (c : Content) : c.quiet = true → c.erased.quiet = true := by
  induction c using Content.ind with
  | nil | str | sect | toc | image | lazy => intro h; exact h
  | seq cs ih =>
    intro h
    rw [Content.erased, erasedL_eq, quiet_iff_seq]
    simpa using fun c hc => ih c hc (quiet_iff_seq.1 h c hc)
  | para cs ih =>
    intro h
    rw [Content.erased, erasedL_eq, quiet_iff_para]
    simpa using fun c hc => ih c hc (quiet_iff_para.1 h c hc)
  | pre cs ih =>
    intro h
    rw [Content.erased, erasedL_eq, quiet_iff_pre]
    simpa using fun c hc => ih c hc (quiet_iff_pre.1 h c hc)
  | list cs o ih =>
    intro h
    rw [Content.erased, erasedL_eq, quiet_iff_list]
    simpa using fun c hc => ih c hc (quiet_iff_list.1 h c hc)
  | ref s t c o l ih | link c u ih | aux c ih =>
    intro h
    simp only [Content.quiet, Content.erased, Content.all, Bool.and_eq_true] at h ih ⊢
    exact ⟨h.1, ih h.2⟩
  | styled st b c ps ih ihp =>
    intro h
    simp only [Content.quiet, Content.erased, Content.all, Bool.and_eq_true, Tmpl.allP_mem, erasedP_eq] at h ih ihp ⊢
    refine ⟨⟨h.1.1, ih h.1.2⟩, fun p hp => ?_⟩
    obtain ⟨p, hp', rfl⟩ := List.mem_map.1 hp
    exact ihp p hp' (h.2 p hp')
  | target t l ti c h1 h2 =>
    intro h
    simp only [Content.quiet, Content.erased, Content.all, Bool.and_eq_true] at h h1 h2 ⊢
    exact ⟨⟨h.1.1, h1 h.1.2⟩, h2 h.2⟩
  | table rs ih =>
    intro h
    rw [Content.erased, erasedR_eq, quiet_iff_table]
    intro r hr c hc
    obtain ⟨r, hr', rfl⟩ := List.mem_map.1 hr
    obtain ⟨c, hc', rfl⟩ := List.mem_map.1 hc
    exact ih r hr' c hc' (quiet_iff_table.1 h r hr' c hc')
  | defs ds ih =>
    intro h
    rw [Content.erased, erasedD_eq, quiet_iff_defs]
    intro d hd
    obtain ⟨d, hd', rfl⟩ := List.mem_map.1 hd
    have := quiet_iff_defs.1 h d hd'
    exact ⟨(ih d hd').1 this.1, (ih d hd').2 this.2⟩

/-! ### Pages and search index -/

theorem Res.To.trans {α : Type} {a b c : Res α} (h : a.To b) (h' : b.To c) : a.To c := fun x e => h' x (h x e)

theorem Res.Same.to {α : Type} {r r' : Res α} (h : r.Same r') : r.To r' := by
  intro a e
  subst e
  cases r' <;> simp [Res.Same, Res.erased] at h
  rw [h]

theorem To.erased {α : Type} {r r' : Res α} (h : (r.erased id).To (r'.erased id)) : r.To r' := by
  intro a e
  subst e
  have := h a rfl
  cases r' <;> simp [Res.erased] at this
  rw [this]

/-- What is known of the results of deferred contents. -/
theorem force_erased {S : Site} (hS : ∀ i c, S.force i = some c → c.quiet = true) (i : Nat) (c : Content) (e : S.erased.force i = some c) :
    c.quiet = true := by
  simp only [Site.erased] at e
  cases h : S.force i with
  | none => rw [h] at e; cases e
  | some d =>
    rw [h] at e
    simp only [Option.map_some, Option.some.injEq] at e
    subst e
    exact quiet_erased d (hS i d h)

section
variable {h h' : Heap} (H : h.Apart h')
include H

theorem Heap.Apart.style (i : Nat) : (h'.get i).style = (h.get i).style := by
  have := H.parted.twin.style i
  rw [heap_erased h i, heap_erased h' i] at this
  exact this

theorem Heap.Apart.children (i : Nat) : (h'.get i).children = (h.get i).children := by
  have := H.parted.twin.children i
  rw [heap_erased h i, heap_erased h' i] at this
  exact this

theorem Heap.Apart.isPage (i : Nat) : h'.isPage i = h.isPage i := by
  rw [← h'.same_erased.isPage, ← h.same_erased.isPage]
  exact isPage_twin H.parted.twin i

theorem Heap.Apart.fileName (ext : Str) (i : Nat) : h'.fileName ext i = h.fileName ext i := by
  rw [← h'.same_erased.fileName, ← h.same_erased.fileName]
  exact fileName_twin H.parted.twin ext i

theorem Heap.Apart.filePathOf (dest ext : Str) (i : Nat) : h'.filePathOf dest ext i = h.filePathOf dest ext i := by
  rw [Heap.filePathOf, Heap.filePathOf, H.fileName]

theorem Heap.Apart.page {S : Site} (hS : ∀ i c, S.force i = some c → c.quiet = true) (n i : Nat) : (h.page S n i).To (h'.page S n i) := by
  refine To.erased ?_
  rw [← page_erased S (heap_erased h), ← page_erased S (heap_erased h')]
  exact page_twin H.parted.twin H.parted.quiet (force_erased hS) n i

theorem Heap.Apart.txtPage {S : Site} (hS : ∀ i c, S.force i = some c → c.quiet = true) (hst : ∀ i, (h.get i).style ≠ q%"string") (n i : Nat) :
    (h.txtPage S n i).To (h'.txtPage S n i) := by
  refine To.erased ?_
  rw [← txtPage_erased S (heap_erased h), ← txtPage_erased S (heap_erased h')]
  refine txtPage_twin H.parted.twin H.parted.quiet (force_erased hS) (fun i => ?_) n i
  show (h.erased.get i).style ≠ _
  rw [heap_erased h i]
  exact hst i

omit H in
theorem indexLoop_to {v v' : SearchIndex → Nat → Res SearchIndex} (hv : ∀ ix i, (v ix i).To (v' ix i)) (cs : List Nat) :
    ∀ ix, (indexLoop v ix cs).To (indexLoop v' ix cs) := by
  induction cs with
  | nil => intro ix; exact .rfl
  | cons c cs ih => intro ix; exact (hv ix c).bind fun _ _ => ih _

omit H in
theorem loadTags_twin {h h' : Heap} (H : Twin h h') (q : h.Quiet) (b : Bool) (ext : Str) (k n : Nat) : ∀ (ix : SearchIndex) (i : Nat),
    (h.loadTags b ext k n ix i).To (h'.loadTags b ext k n ix i) := by
  induction n with
  | zero => intro ix i; exact .more
  | succ n ih =>
    intro ix i
    rw [Heap.loadTags, Heap.loadTags, H.children, H.tags]
    refine .bind ?_ fun _ _ => indexLoop_to ih _ _
    have hq := (q i).tags
    generalize (h.get i).tags = gs at hq
    induction gs generalizing ix with
    | nil => exact .rfl
    | cons g gs ihg =>
      refine .bind ?_ fun _ _ => ihg _ fun g hg => hq g (by simp [hg])
      unfold Heap.searchDoc
      split
      · exact fun _ h => by cases h
      · rename_i j _
        rw [H.body, sectionURL_twin H, depth_twin H, H.primaryTag]
        refine .bind (text_to H q ?_) fun _ _ => .bind .rfl fun _ _ => .bind (text_to H q (hq g (by simp)).1) fun _ _ => .rfl
        split
        · exact (q j).body
        · exact (hq g (by simp)).2

theorem Heap.Apart.searchIndex (b : Bool) (ext : Str) (k i : Nat) : (h.searchIndex b ext k i).To (h'.searchIndex b ext k i) := by
  unfold Heap.searchIndex
  exact ((h.same_erased.loadTags b ext k k [] i).to.trans (loadTags_twin H.parted.twin H.parted.quiet b ext k k [] i)).trans
    (h'.same_erased.symm.loadTags b ext k k [] i).to

/-! ### Writing -/

omit H in
/-- If the first ends well then the second does just the same. -/
def WritesTo (a b : Res Unit × Disk) : Prop := a.1 = .ok () → b = a

omit H in
theorem save_to (O : Outside) (path : Str) {t t' : Res Str} (e : t.To t') (d : Disk) : WritesTo (O.save path t d) (O.save path t' d) := by
  unfold Outside.save WritesTo
  split
  · intro h; rfl
  · cases t with
    | ok a => rw [e a rfl]; intro _; rfl
    | _ => intro h; cases h

omit H in
theorem andNext_to {r r' : Res Unit × Disk} (hr : WritesTo r r') {f f' : Disk → Res Unit × Disk} (hf : ∀ d, WritesTo (f d) (f' d)) :
    WritesTo (andNext r f) (andNext r' f') := by
  obtain ⟨r, d⟩ := r
  intro h
  cases r with
  | ok u =>
    have : r' = (.ok u, d) := hr rfl
    subst this
    exact hf d h
  | _ => cases h

theorem Heap.Apart.write (O : Outside) {E : Engine} (hE : ∀ k i, (E.render h k i).To (E.render h' k i)) (dest : Str) (k n : Nat) :
    (∀ i d, WritesTo (h.writeSection O E dest k n i d) (h'.writeSection O E dest k n i d)) ∧
    (∀ cs d, WritesTo (h.writeChildren O E dest k n cs d) (h'.writeChildren O E dest k n cs d)) := by
  induction n with
  | zero =>
    refine ⟨fun i d => ?_, fun cs d => ?_⟩
    · rw [Heap.writeSection, Heap.writeSection]; exact fun _ => rfl
    · cases cs <;> rw [Heap.writeChildren, Heap.writeChildren] <;> exact fun _ => rfl
  | succ n ih =>
    refine ⟨fun i d => ?_, fun cs d => ?_⟩
    · rw [Heap.writeSection, Heap.writeSection, H.isPage, H.children]
      refine andNext_to ?_ fun d => ih.2 _ d
      split
      · rw [Heap.writeSingle, Heap.writeSingle, H.filePathOf]
        exact save_to O _ (hE k i) d
      · exact fun _ => rfl
    · cases cs with
      | nil => rw [Heap.writeChildren, Heap.writeChildren]; exact fun _ => rfl
      | cons c cs =>
        rw [Heap.writeChildren, Heap.writeChildren]
        exact andNext_to (ih.1 c d) fun d => ih.2 cs d

theorem Heap.Apart.writeIndex (O : Outside) (E : Engine) (b short : Bool) (dest : Str) (k i : Nat) (d : Disk) :
    WritesTo (h.writeIndex O E b short dest k i d) (h'.writeIndex O E b short dest k i d) := by
  have e := H.searchIndex b E.ext k i
  rw [Heap.writeIndex, Heap.writeIndex]
  cases hr : h.searchIndex b E.ext k i with
  | ok ix => rw [e ix hr]; exact fun _ => rfl
  | _ => intro h; cases h

theorem Heap.Apart.findTag {k i : Nat} {name : Str} {j : Nat} {g : Tag} {gs : List Tag} (e : h.findTag k i name = some (g :: gs)) (hj : g.sec = some j) :
    ∃ g' gs', h'.findTag k i name = some (g' :: gs') ∧ g'.sec = some j := by
  have a := h.same_erased.findTag k i name
  have b := h'.same_erased.findTag k i name
  rw [findTag_twin H.parted.twin] at b
  rw [a, e] at b
  cases hf : h'.findTag k i name with
  | none => rw [hf] at b; simp at b
  | some l =>
    cases l with
    | nil => rw [hf] at b; simp at b
    | cons g' gs' =>
      rw [hf] at b
      simp only [Option.map_some, List.map_cons, Option.some.injEq, List.cons.injEq] at b
      exact ⟨g', gs', rfl, by rw [← (Tag.same_fields b.1).2.1]; exact hj⟩

end

/-! ### Builds -/

section
variable {W W' : World} {E : Nat} {B : Str → Prop} (hr : W'.registry = W.registry) (hb : W'.brokenOk = W.brokenOk)
  (hW : ∀ p n, W.foreign p n = none) (hW' : ∀ p n, W'.foreign p n = none) (hF : FilesSplit E B (treesOf W.fs) (treesOf W'.fs))
include hr hb hW hW' hF

theorem choose_apart {J : Job} (hB : J.sectionPath ≠ [] → B J.sectionPath) {n N k i j : Nat} (hN : (E + 1) * n ≤ N) {s s' t : St} (hs : s.heap.Apart s'.heap) (hf : Fits W s.cache)
    (hf' : Fits W' s'.cache) (hi : i < s.heap.length) (e : J.choose W n k i s = (.ok j, t)) :
    ∃ t', J.choose W' N k i s' = (.ok j, t') ∧ t.heap.Apart t'.heap := by
  unfold Job.choose at e ⊢
  split at e
  · rename_i ht
    rw [if_pos ht]
    split at e
    · cases e
    · cases e
    · rename_i g gs hg
      split at e
      · rename_i j' hj
        cases e
        obtain ⟨g', gs', h1, h2⟩ := hs.findTag hg hj
        exact ⟨s', by rw [h1]; dsimp only; rw [h2], hs⟩
      · cases e
  · rename_i ht
    rw [if_neg ht]
    split at e
    · rename_i hp
      rw [if_pos hp]
      obtain ⟨t', h1, h2, _⟩ := load_apart hr hb hW hW' hF hp (hB hp) hN hs hf hf' (o := some i) (fun p e => by cases e; exact hi) e
      exact ⟨t', h1, h2⟩
    · rename_i hp
      rw [if_neg hp]
      cases e
      exact ⟨s', rfl, hs⟩

/-- The build of the one book, if successful, does what the build of the other does. -/
theorem job_apart {J : Job} (hJ : J.input ≠ []) (hB : B J.input) (hB' : J.sectionPath ≠ [] → B J.sectionPath) {O : Outside} {G : Engine} {b short : Bool} {n N k : Nat} (hN : (E + 1) * n ≤ N) {d : Disk}
    (hG : ∀ s h', J.Loads W n s → s.heap.Apart h' → ∀ k i, (G.render s.heap k i).To (G.render h' k i))
    (hok : (J.build W O G b short n k d).res = .ok ()) :
    J.build W' O G b short N k d = J.build W O G b short n k d ∧ ∃ s s', J.Loads W n s ∧ J.Loads W' N s' ∧ s.heap.Apart s'.heap := by
  unfold Job.build at hok ⊢
  cases hl : loadFile W n none J.input [0] ⟨[], []⟩ with
  | mk r s =>
    rw [hl] at hok
    cases r with
    | ok i =>
      obtain ⟨s', h1, h2, h3, h4, h5, h6⟩ := load_apart hr hb hW hW' hF hJ hB hN (s := ⟨[], []⟩) (s' := ⟨[], []⟩) .nil (Fits.empty _) (Fits.empty _)
        (o := none) (fun p e => by cases e) hl
      rw [h1]
      dsimp only at hok ⊢
      cases hc : J.choose W n k i s with
      | mk r t =>
        rw [hc] at hok
        cases r with
        | ok j =>
          obtain ⟨t', c1, c2⟩ := choose_apart hr hb hW hW' hF hB' hN h2 h4 h5 h6 hc
          have hL : J.Loads W n t := ⟨k, i, s, j, hl, hc⟩
          have hR := hG t t'.heap hL c2
          rw [c1]
          refine ⟨?_, t, t', hL, ⟨k, i, s', j, h1, c1⟩, c2⟩
          dsimp only at hok ⊢
          split at hok
          · rename_i ho
            rw [if_pos ho, if_pos ho]
            cases hx : G.render t.heap k j with
            | ok x => rw [hR k j x hx]
            | _ => rw [hx] at hok; cases hok
          · rename_i ho
            rw [if_neg ho, if_neg ho]
            split at hok
            · cases hok
            · rename_i hm
              rw [if_neg hm, if_neg hm]
              have w := andNext_to ((c2.write O hR J.out k k).1 j d)
                (f := fun d => if J.saveIndex then t.heap.writeIndex O G b short J.out k i d else (.ok (), d))
                (f' := fun d => if J.saveIndex then t'.heap.writeIndex O G b short J.out k i d else (.ok (), d)) fun d => by
                  split
                  · exact c2.writeIndex O G b short J.out k i d
                  · exact fun _ => rfl
              rw [w hok]
        | _ => cases hok
    | _ => cases hok

end

/-- What is loaded is determined. -/
theorem Job.Loads.unique {J : Job} {W : World} {n : Nat} {s s' : St} (h : J.Loads W n s) (h' : J.Loads W n s') : s' = s := by
  obtain ⟨k, i, s0, j, h1, h2⟩ := h
  obtain ⟨k', i', s0', j', h1', h2'⟩ := h'
  rw [h1] at h1'
  cases h1'
  unfold Job.choose at h2 h2'
  split at h2
  · rename_i ht
    rw [if_pos ht] at h2'
    split at h2 <;> split at h2' <;> first | (cases h2; done) | (cases h2'; done) | skip
    split at h2 <;> split at h2' <;> first | (cases h2; done) | (cases h2'; done) | skip
    cases h2
    cases h2'
    rfl
  · rename_i ht
    rw [if_neg ht] at h2'
    split at h2
    · rename_i hp
      rw [if_pos hp, h2] at h2'
      cases h2'
      rfl
    · rename_i hp
      rw [if_neg hp] at h2'
      cases h2
      cases h2'
      rfl

end Booklit
