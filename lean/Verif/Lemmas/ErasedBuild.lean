import Verif.Lemmas.ErasedLoad

/-!
Two builds whose books differ in places only.
-/

namespace Booklit
open Templates Tmpl

theorem Res.Same.rfl {α : Type} {r : Res α} : r.Same r := Eq.refl _

theorem Res.Same.bind {α β : Type} {r r' : Res α} (hr : r.Same r') {f f' : α → Res β} (hf : ∀ a, (f a).Same (f' a)) :
    (r.bind f).Same (r'.bind f') := by
  cases r <;> cases r' <;> simp_all [Res.Same, Res.erased, Res.bind]

theorem Res.Same.err {α β : Type} {e e' : Err} (h : (Res.err e : Res α).Same (.err e')) : (Res.err e : Res β).Same (.err e') := by
  simpa [Res.Same, Res.erased] using h

theorem Tag.same_fields {g g' : Tag} (e : g'.erased = g.erased) :
    g'.name = g.name ∧ g'.sec = g.sec ∧ g'.anchor = g.anchor ∧ g'.title.erased = g.title.erased ∧ g'.content.erased = g.content.erased := by
  obtain ⟨_, _, _, _, _, _⟩ := g
  obtain ⟨_, _, _, _, _, _⟩ := g'
  simp_all [Tag.erased]

section
variable {h h' : Heap} (H : h.Same h')
include H

theorem Heap.Same.filePathOf (dest ext : Str) (i : Nat) : h'.filePathOf dest ext i = h.filePathOf dest ext i := by
  rw [Heap.filePathOf, Heap.filePathOf, H.fileName]

theorem Heap.Same.sectionURL (ext : Str) (n i : Nat) (a : Str) : h'.sectionURL ext n i a = h.sectionURL ext n i a := by
  rw [← sectionURL_erased (heap_erased h), ← sectionURL_erased (heap_erased h'), H]

theorem Heap.Same.depth (n i : Nat) : h'.depth n i = h.depth n i := by
  rw [← depth_erased (heap_erased h), ← depth_erased (heap_erased h'), H]

theorem Heap.Same.searchDoc (b : Bool) (ext : Str) (k : Nat) {g g' : Tag} (e : g'.erased = g.erased) :
    (h.searchDoc b ext k g).Same (h'.searchDoc b ext k g') := by
  obtain ⟨_, hs, ha, ht, hc⟩ := Tag.same_fields e
  rw [Heap.searchDoc, Heap.searchDoc, hs]
  cases g.sec with
  | none => exact .rfl
  | some i =>
    dsimp only
    have hb : (h'.get i).body.erased = (h.get i).body.erased := by
      have := congrArg Sec.body (H.sec i)
      exact this
    have hp : (h'.get i).primaryTag.name = (h.get i).primaryTag.name := by
      have := congrArg (fun x => x.primaryTag.name) (H.sec i)
      exact this
    have hn : g'.content.isNil = g.content.isNil := by rw [← erased_isNil, hc, erased_isNil]
    rw [H.sectionURL, H.depth, hp, ha, hn]
    refine .bind (H.text b k ?_) fun text => .bind .rfl fun url => .bind (H.text b k ht) fun title => .rfl
    split
    · exact hb
    · exact hc

theorem Heap.Same.indexTags (b : Bool) (ext : Str) (k : Nat) (gs : List Tag) : ∀ (gs' : List Tag) (ix : SearchIndex),
    gs'.map Tag.erased = gs.map Tag.erased → (h.indexTags b ext k ix gs).Same (h'.indexTags b ext k ix gs') := by
  induction gs with
  | nil =>
    intro gs' ix e
    cases gs' with
    | nil => exact .rfl
    | cons g gs' => simp at e
  | cons g gs ih =>
    intro gs' ix e
    cases gs' with
    | nil => simp at e
    | cons g' gs' =>
      simp only [List.map_cons, List.cons.injEq] at e
      rw [Heap.indexTags, Heap.indexTags, (Tag.same_fields e.1).1]
      exact .bind (H.searchDoc b ext k e.1) fun d => ih gs' _ e.2

omit H in
theorem indexLoop_same {v v' : SearchIndex → Nat → Res SearchIndex} (hv : ∀ ix i, (v ix i).Same (v' ix i)) (cs : List Nat) :
    ∀ ix, (indexLoop v ix cs).Same (indexLoop v' ix cs) := by
  induction cs with
  | nil => intro ix; exact .rfl
  | cons c cs ih => intro ix; exact .bind (hv ix c) ih

theorem Heap.Same.loadTags (b : Bool) (ext : Str) (k n : Nat) : ∀ (ix : SearchIndex) (i : Nat),
    (h.loadTags b ext k n ix i).Same (h'.loadTags b ext k n ix i) := by
  induction n with
  | zero => intro ix i; exact .rfl
  | succ n ih =>
    intro ix i
    rw [Heap.loadTags, Heap.loadTags, H.children]
    refine .bind (H.indexTags b ext k _ _ ix ?_) fun ix' => indexLoop_same ih _ _
    have := congrArg Sec.tags (H.sec i)
    exact this

/-- Two outcomes of writing: the same files, and results that differ in places only. -/
def SameWrites (a b : Res Unit × Disk) : Prop := a.1.Same b.1 ∧ b.2 = a.2

omit H in
theorem save_same (O : Outside) (path : Str) {t t' : Res Str} (e : t.Same t') (d : Disk) : SameWrites (O.save path t d) (O.save path t' d) := by
  unfold Outside.save
  split
  · exact ⟨.rfl, rfl⟩
  · cases t <;> cases t' <;> simp_all [Res.Same, Res.erased, SameWrites]

omit H in
theorem andNext_same {r r' : Res Unit × Disk} (hr : SameWrites r r') {f f' : Disk → Res Unit × Disk} (hf : ∀ d, SameWrites (f d) (f' d)) :
    SameWrites (andNext r f) (andNext r' f') := by
  obtain ⟨r, d⟩ := r
  obtain ⟨r', d'⟩ := r'
  obtain ⟨a, b⟩ := hr
  dsimp only at a b
  subst b
  cases r <;> cases r' <;> simp_all [andNext, Res.Same, Res.erased, SameWrites]

theorem Heap.Same.write (O : Outside) {E : Engine} (hE : ∀ k i, (E.render h k i).Same (E.render h' k i)) (dest : Str) (k n : Nat) :
    (∀ i d, SameWrites (h.writeSection O E dest k n i d) (h'.writeSection O E dest k n i d)) ∧
    (∀ cs d, SameWrites (h.writeChildren O E dest k n cs d) (h'.writeChildren O E dest k n cs d)) := by
  induction n with
  | zero =>
    refine ⟨fun i d => ?_, fun cs d => ?_⟩
    · rw [Heap.writeSection, Heap.writeSection]; exact ⟨.rfl, rfl⟩
    · cases cs <;> rw [Heap.writeChildren, Heap.writeChildren] <;> exact ⟨.rfl, rfl⟩
  | succ n ih =>
    refine ⟨fun i d => ?_, fun cs d => ?_⟩
    · rw [Heap.writeSection, Heap.writeSection, H.isPage, H.children]
      refine andNext_same ?_ fun d => ih.2 _ d
      split
      · rw [Heap.writeSingle, Heap.writeSingle, H.filePathOf]
        exact save_same O _ (hE k i) d
      · exact ⟨.rfl, rfl⟩
    · cases cs with
      | nil => rw [Heap.writeChildren, Heap.writeChildren]; exact ⟨.rfl, rfl⟩
      | cons c cs =>
        rw [Heap.writeChildren, Heap.writeChildren]
        exact andNext_same (ih.1 c d) fun d => ih.2 cs d

theorem Heap.Same.writeIndex (O : Outside) (E : Engine) (b short : Bool) (dest : Str) (k i : Nat) (d : Disk) :
    SameWrites (h.writeIndex O E b short dest k i d) (h'.writeIndex O E b short dest k i d) := by
  have e := H.loadTags b E.ext k k [] i
  rw [Heap.writeIndex, Heap.writeIndex, Heap.searchIndex, Heap.searchIndex]
  generalize h.loadTags b E.ext k k [] i = r at e
  generalize h'.loadTags b E.ext k k [] i = r' at e
  cases r <;> cases r' <;> simp_all [Res.Same, Res.erased, SameWrites]

end

/-- Two builds with the same disk and output, whose results differ in places only. -/
structure Built.Same (a b : Built) : Prop where
  res : a.res.Same b.res
  disk : b.disk = a.disk
  stdout : b.stdout = a.stdout

/-- An engine that shows no places. -/
def Engine.Blind (E : Engine) : Prop := ∀ h h' : Heap, h.Same h' → ∀ k i, (E.render h k i).Same (E.render h' k i)

theorem choose_same {W W' : World} (hl : Blind W.foreign) (hw : W.Same W') {s s' : St} (hs : s.heap.Same s'.heap)
    (hf : Fits W s.cache) (hf' : Fits W' s'.cache) (J : Job) (n k i : Nat) :
    (J.choose W n k i s).1.Same (J.choose W' n k i s').1 ∧ (J.choose W n k i s).2.heap.Same (J.choose W' n k i s').2.heap := by
  unfold Job.choose
  split
  · have e := hs.findTag k i J.sectionTag
    generalize s.heap.findTag k i J.sectionTag = r at e
    generalize s'.heap.findTag k i J.sectionTag = r' at e
    match r, r', e with
    | none, none, _ => exact ⟨.rfl, hs⟩
    | some [], some [], _ => exact ⟨.rfl, hs⟩
    | some (g :: gs), some (g' :: gs'), e =>
      simp only [Option.map_some, List.map_cons, Option.some.injEq, List.cons.injEq] at e
      dsimp only
      rw [(Tag.same_fields e.1).2.1]
      cases g.sec <;> exact ⟨.rfl, hs⟩
    | none, some _, e | some _, none, e | some [], some (_ :: _), e | some (_ :: _), some [], e => simp at e
  · split
    · have := load_same hl hw hs hf hf' n (some i) J.sectionPath [0]
      exact ⟨this.1, this.2.1⟩
    · exact ⟨.rfl, hs⟩

theorem job_same {W W' : World} (hl : Blind W.foreign) (hw : W.Same W') (J : Job) (O : Outside) {E : Engine} (hE : E.Blind)
    (b short : Bool) (n k : Nat) (d : Disk) : (J.build W O E b short n k d).Same (J.build W' O E b short n k d) := by
  have a := load_same hl hw (s := ⟨[], []⟩) (s' := ⟨[], []⟩) rfl (Fits.empty _) (Fits.empty _) n none J.input [0]
  unfold Job.build
  generalize loadFile W n none J.input [0] ⟨[], []⟩ = r at a
  generalize loadFile W' n none J.input [0] ⟨[], []⟩ = r' at a
  obtain ⟨r, s⟩ := r
  obtain ⟨r', s'⟩ := r'
  obtain ⟨a1, a2, a3, a4⟩ := a
  dsimp only at a1 a2 a3 a4
  cases r with
  | ok i =>
    cases r' with
    | ok i' =>
      obtain rfl : i' = i := by simpa [Res.Same, Res.erased] using a1
      have c := choose_same hl hw a2 a3 a4 J n k i'
      dsimp only
      generalize J.choose W n k i' s = q at c
      generalize J.choose W' n k i' s' = q' at c
      obtain ⟨q, t⟩ := q
      obtain ⟨q', t'⟩ := q'
      obtain ⟨c1, c2⟩ := c
      dsimp only at c1 c2
      cases q with
      | ok j =>
        cases q' with
        | ok j' =>
          obtain rfl : j' = j := by simpa [Res.Same, Res.erased] using c1
          dsimp only
          split
          · have e := hE _ _ c2 k j'
            generalize E.render t.heap k j' = x at e
            generalize E.render t'.heap k j' = x' at e
            cases x <;> cases x' <;> first | (simp [Res.Same, Res.erased] at e; done) | (constructor <;> simp_all [Res.Same, Res.erased])
          · split
            · exact ⟨.rfl, rfl, rfl⟩
            · have w := andNext_same ((c2.write O (hE _ _ c2) J.out k k).1 j' d)
                (f := fun d => if J.saveIndex then t.heap.writeIndex O E b short J.out k i' d else (.ok (), d))
                (f' := fun d => if J.saveIndex then t'.heap.writeIndex O E b short J.out k i' d else (.ok (), d)) fun d => by
                  split
                  · exact c2.writeIndex O E b short J.out k i' d
                  · exact ⟨.rfl, rfl⟩
              exact ⟨w.1, w.2, rfl⟩
        | _ => simp [Res.Same, Res.erased] at c1
      | err e => cases q' <;> first | (simp [Res.Same, Res.erased] at c1; done) | exact ⟨c1.err, rfl, rfl⟩
      | panic => cases q' <;> first | (simp [Res.Same, Res.erased] at c1; done) | exact ⟨.rfl, rfl, rfl⟩
      | more => cases q' <;> first | (simp [Res.Same, Res.erased] at c1; done) | exact ⟨.rfl, rfl, rfl⟩
    | _ => simp [Res.Same, Res.erased] at a1
  | err e => cases r' <;> first | (simp [Res.Same, Res.erased] at a1; done) | exact ⟨a1.err, rfl, rfl⟩
  | panic => cases r' <;> first | (simp [Res.Same, Res.erased] at a1; done) | exact ⟨.rfl, rfl, rfl⟩
  | more => cases r' <;> first | (simp [Res.Same, Res.erased] at a1; done) | exact ⟨.rfl, rfl, rfl⟩

theorem engineWith_blind (M : Tmpl.Mode) (ts : TSet) (S : Site) : (engineWith M ts S).Blind :=
  fun _ _ H k i => H.page M ts S k i

end Booklit
