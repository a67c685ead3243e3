import Verif.Lemmas.ShippedText
import Verif.Lemmas.TypableL

/-!
The plain text templates that come with Booklit make the pages of `Model/TextEngine.lean`: whatever the one gives with some fuel, the
other gives with some fuel.
-/

namespace Booklit.Tmpl

open Booklit Booklit.Templates

section
variable {ext : Str} {S : Site} {h : Heap}

theorem txtL_eq (I : InnerTxt) (cs) : txtL I cs = resMap (Content.txt I) cs := by
  induction cs with
  | nil => rfl
  | cons c cs ih => rw [txtL, ih]; rfl

theorem R1_le {n m : Nat} (hm : n ≤ m) (c) : (R1 ext S h n c).Le (R1 ext S h m c) := run_le hm _

theorem K1_le {n m : Nat} (hm : n ≤ m) (i) : (K1 ext S h n i).Le (K1 ext S h m i) := run_le hm _

theorem sectTmpl_leOn {f g : Content → Res Str} {n m : Nat} (hm : n ≤ m) (i)
    (A : ∀ c ∈ (h.get i).title :: (h.get i).body :: (h.get i).children.map .sect, (f c).Le (g c)) :
    (h.sectTmpl n f i).Le (h.sectTmpl m g i) := by
  rw [Heap.sectTmpl, Heap.sectTmpl]
  refine Res.Le.bind ?_ fun num _ => (A _ (by simp)).bind fun title _ => (A _ (by simp)).bind fun body _ => Res.Le.map ?_
  · split
    · exact Res.Le.map (.ofFuel fun a e => number_mono hm e)
    · exact .rfl
  · split
    · exact .rfl
    · exact (Res.Le.resMap fun c hc => A _ (by simp [hc])).map

theorem pageTmpl_leOn {f g : Content → Res Str} {n m : Nat} (hm : n ≤ m) (i) (A : (f (.sect i)).Le (g (.sect i))) :
    (h.pageTmpl S n f i).Le (h.pageTmpl S m g i) := by
  rw [Heap.pageTmpl, Heap.pageTmpl]
  exact (heapText_le hm _).recover.bind fun _ _ => A.map

theorem sectTxt_leOn {f g : Content → Res Str} {k k' : Nat → Res Str} {n m : Nat} (hm : n ≤ m) (i)
    (A : ∀ c ∈ .sect i :: (h.get i).title :: (h.get i).body :: (h.get i).children.map .sect, (f c).Le (g c)) (B : (k i).Le (k' i)) :
    (h.sectTxt S n f k i).Le (h.sectTxt S m g k' i) := by
  rw [Heap.sectTxt, Heap.sectTxt]
  split
  · exact sectTmpl_leOn hm i fun c hc => A c (List.mem_cons_of_mem _ hc)
  · split
    · exact pageTmpl_leOn hm i (A _ (by simp))
    · split
      · exact (heapText_le hm _).recover
      · split
        · exact B
        · exact .rfl

theorem tocLine_leOn {f g : Content → Res Str} {k k' : Nat → Res Str} {n m : Nat} (hm : n ≤ m) (c)
    (A : ∀ d, stripAux (h.get c).title = some d → (f d).Le (g d)) (B : (k c).Le (k' c)) :
    (h.tocLine n f k c).Le (h.tocLine m g k' c) := by
  rw [Heap.tocLine, Heap.tocLine]
  refine Res.Le.bind (.ofFuel fun a e => number_mono (by omega) e) fun k _ => ?_
  cases hd : stripAux (h.get c).title with
  | none => exact .rfl
  | some d => exact (A d hd).bind fun title _ => B.map

theorem styledT_le {st : Str} {x y p q : Res Str} (hm : x.Le y) (hk : p.Le q) :
    (if st = q%"inset" then x.map fun t => q%"    " ++ joinLines q%"    " t
      else if st = q%"string" then p.recover else tmplErr : Res Str).Le
    (if st = q%"inset" then y.map fun t => q%"    " ++ joinLines q%"    " t
      else if st = q%"string" then q.recover else tmplErr) := by
  by_cases h1 : st = q%"inset"
  · rw [if_pos h1, if_pos h1]; exact hm.map
  · rw [if_neg h1, if_neg h1]
    by_cases h2 : st = q%"string"
    · rw [if_pos h2, if_pos h2]; exact hk.recover
    · rw [if_neg h2, if_neg h2]; exact .rfl

/-- (A) What `Content.txt` gives, the templates give. -/
theorem upT_step (I : InnerTxt)
    (hs : ∀ i, ∃ m, (I.sect i).Le (R1 ext S h m (.sect i)))
    (ht : ∀ i, ∃ m, (I.toc i).Le (R1 ext S h m (.toc i)))
    (hf : ∀ i, ∃ m, (I.force i).Le (match S.force i with | none => tmplErr | some d => R1 ext S h m d))
    (hx : ∀ c, ∃ m, (I.raw c).Le (h.text S.brokenOk m c)) (c : Content) : ∃ m, (c.txt I).Le (R1 ext S h m c) := by
  have list : ∀ cs : List Content, (∀ c ∈ cs, ∃ m, (c.txt I).Le (R1 ext S h m c)) →
      ∃ m, ∀ c ∈ cs, (c.txt I).Le (R1 ext S h m c) := fun cs ih => by
    obtain ⟨m, _, hm⟩ := bounded_le (g := R1 ext S h) R1_le cs ih 0
    exact ⟨m, hm⟩
  induction c using Content.ind with
  | nil => exact ⟨1, .rfl⟩
  | str s => exact ⟨2, by rw [runT_str]; exact .rfl⟩
  | seq cs ih =>
    obtain ⟨m, hm⟩ := list cs ih
    exact ⟨m + 2, by rw [runT_seq, Content.txt, txtL_eq]; exact (shape_le hm).map⟩
  | para cs ih =>
    obtain ⟨m, hm⟩ := list cs ih
    exact ⟨m + 2, by rw [runT_para, Content.txt, txtL_eq]; exact (shape_le hm).map⟩
  | pre cs ih =>
    obtain ⟨m, hm⟩ := list cs ih
    exact ⟨m + 2, by rw [runT_pre, Content.txt, txtL_eq]; exact (shape_le hm).map⟩
  | list cs o ih => exact ⟨2, by rw [runT_list]; exact .rfl⟩
  | table rs ih => exact ⟨2, by rw [runT_table]; exact .rfl⟩
  | defs ds ih => exact ⟨2, by rw [runT_defs]; exact .rfl⟩
  | ref s t c o l ih => exact ⟨2, by rw [runT_ref]; exact .rfl⟩
  | sect i => exact hs i
  | toc i => exact ht i
  | styled st b c ps ih ihp =>
    obtain ⟨m, hm⟩ := ih
    obtain ⟨k, hk⟩ := hx c
    refine ⟨max m k + 2, ?_⟩
    rw [runT_styled, Content.txt]
    exact styledT_le (hm.trans (R1_le (Nat.le_max_left _ _) c)) (hk.trans (heapText_le (Nat.le_max_right _ _) c))
  | target t l ti c => exact ⟨2, by rw [runT_target]; exact .rfl⟩
  | image p d => exact ⟨2, by rw [runT_image]; exact .rfl⟩
  | link c u ih => exact ⟨2, by rw [runT_link]; exact .rfl⟩
  | lazy b i =>
    obtain ⟨m, hm⟩ := hf i
    exact ⟨m + 1, hm⟩
  | aux c ih =>
    obtain ⟨m, hm⟩ := ih
    refine ⟨m + 1, ?_⟩
    rw [runT_aux, Content.txt]
    exact hm.trans (R1_le (by omega) c)

theorem upT_toc {f : Content → Res Str} (A : ∀ c, ∃ m, (f c).Le (R1 ext S h m c)) : ∀ n i, ∃ m, (h.tocTxt f n i).Le (K1 ext S h m i) := by
  intro n
  induction n with
  | zero => intro i; exact ⟨0, .inl rfl⟩
  | succ n ih =>
    intro i
    obtain ⟨m1, hn, h1⟩ := bounded_le (g := R1 ext S h) (x := f) R1_le
      ((h.get i).children.filterMap fun c => stripAux (h.get c).title) (fun d _ => A d) n
    obtain ⟨m2, hn2, h2⟩ := bounded_le (g := K1 ext S h) (x := h.tocTxt f n) K1_le (h.get i).children (fun c _ => ih c) m1
    refine ⟨m2 + 1, ?_⟩
    rw [runT_tocTemplate, Heap.tocTxt]
    split
    · exact .rfl
    · exact (Res.Le.resMap fun c hc => tocLine_leOn (by omega) c
        (fun d hd => (h1 d (List.mem_filterMap.2 ⟨c, hc, hd⟩)).trans (R1_le hn2 d)) (h2 c hc)).map

theorem upT (n : Nat) : ∀ c, ∃ m, (h.txt S n c).Le (R1 ext S h m c) := by
  induction n with
  | zero =>
    intro c
    rw [Heap.txt]
    exact upT_step _ (fun _ => ⟨0, .inl rfl⟩) (fun _ => ⟨0, .inl rfl⟩) (fun _ => ⟨0, .inl rfl⟩) (fun _ => ⟨0, .inl rfl⟩) c
  | succ n ih =>
    intro c
    rw [Heap.txt]
    refine upT_step _ ?_ ?_ ?_ ?_ c
    · intro i
      obtain ⟨m, hn, hm⟩ := bounded_le (g := R1 ext S h) (x := h.txt S n) R1_le
        (.sect i :: (h.get i).title :: (h.get i).body :: (h.get i).children.map .sect) (fun d _ => ih d) n
      obtain ⟨k, hk⟩ := upT_toc ih n i
      refine ⟨max m k + 2, ?_⟩
      rw [runT_sect]
      exact sectTxt_leOn (by omega) i (fun c hc => (hm c hc).trans (R1_le (Nat.le_max_left _ _) c)) (hk.trans (K1_le (by omega) i))
    · intro i
      obtain ⟨m, hm⟩ := upT_toc ih n i
      exact ⟨m + 1, by rw [runT_toc]; exact hm⟩
    · intro i
      dsimp only
      cases e : S.force i with
      | none => exact ⟨0, .rfl⟩
      | some d => exact ih d
    · exact fun c => ⟨n, .rfl⟩

/-- How `Heap.txt` renders the inner parts. -/
def innerTxtOf (S : Site) (h : Heap) : Nat → InnerTxt
  | 0 => ⟨fun _ => .more, fun _ => .more, fun _ => .more, fun _ => .more⟩
  | n + 1 => ⟨h.sectTxt S n (h.txt S n) (h.tocTxt (h.txt S n) n), h.tocTxt (h.txt S n) n,
      fun i => match S.force i with
        | none => tmplErr
        | some d => h.txt S n d,
      h.text S.brokenOk n⟩

theorem txt_inner (n : Nat) : h.txt S n = Content.txt (innerTxtOf S h n) := by
  funext c
  cases n <;> rfl

/-- (B) What the templates give, `Content.txt` gives: one step. -/
theorem downT_step (m : Nat) (ih : ∀ c, ∃ n, (R1 ext S h m c).Le (h.txt S n c))
    (ihk : ∀ i, ∃ n, (K1 ext S h (m + 1) i).Le (h.tocTxt (h.txt S n) n i)) (ih1 : ∀ c, ∃ n, (R1 ext S h (m + 1) c).Le (h.txt S n c))
    (c : Content) : ∃ n, (R1 ext S h (m + 2) c).Le (h.txt S n c) := by
  have list : ∀ cs : List Content, ∃ n, ∀ c ∈ cs, (R1 ext S h m c).Le (c.txt (innerTxtOf S h n)) := fun cs => by
    obtain ⟨n, _, hn⟩ := bounded_le (x := R1 ext S h m) (g := h.txt S) heapTxt_le cs (fun c _ => ih c) 0
    exact ⟨n, fun c hc => by rw [← txt_inner]; exact hn c hc⟩
  induction c using Content.ind with
  | nil => exact ⟨0, .rfl⟩
  | str s => exact ⟨0, by rw [runT_str]; exact .rfl⟩
  | seq cs =>
    obtain ⟨n, hn⟩ := list cs
    exact ⟨n, by rw [runT_seq, txt_inner, Content.txt, txtL_eq]; exact (shape_le hn).map⟩
  | para cs =>
    obtain ⟨n, hn⟩ := list cs
    exact ⟨n, by rw [runT_para, txt_inner, Content.txt, txtL_eq]; exact (shape_le hn).map⟩
  | pre cs =>
    obtain ⟨n, hn⟩ := list cs
    exact ⟨n, by rw [runT_pre, txt_inner, Content.txt, txtL_eq]; exact (shape_le hn).map⟩
  | list cs o => exact ⟨0, by rw [runT_list]; exact .rfl⟩
  | table rs => exact ⟨0, by rw [runT_table]; exact .rfl⟩
  | defs ds => exact ⟨0, by rw [runT_defs]; exact .rfl⟩
  | ref s t c o l => exact ⟨0, by rw [runT_ref]; exact .rfl⟩
  | target t l ti c => exact ⟨0, by rw [runT_target]; exact .rfl⟩
  | image p d => exact ⟨0, by rw [runT_image]; exact .rfl⟩
  | link c u => exact ⟨0, by rw [runT_link]; exact .rfl⟩
  | sect i =>
    obtain ⟨n, hmn, hn⟩ := bounded_le (g := h.txt S) (x := R1 ext S h m) heapTxt_le
      (.sect i :: (h.get i).title :: (h.get i).body :: (h.get i).children.map .sect) (fun d _ => ih d) m
    obtain ⟨k, hk⟩ := ihk i
    refine ⟨max n k + 1, ?_⟩
    rw [runT_sect]
    exact sectTxt_leOn (by omega) i (fun c hc => (hn c hc).trans (heapTxt_le (Nat.le_max_left _ _) c))
      (hk.trans (tocTxt_le (heapTxt_le (Nat.le_max_right _ _)) (Nat.le_max_right _ _) i))
  | toc i =>
    obtain ⟨n, hn⟩ := ihk i
    exact ⟨n + 1, by rw [runT_toc]; exact hn⟩
  | styled st b c ps =>
    obtain ⟨n, hn⟩ := ih c
    refine ⟨max m n + 1, ?_⟩
    have hn : (R1 ext S h m c).Le (h.txt S (max m n + 1) c) := hn.trans (heapTxt_le (by omega) c)
    rw [runT_styled, txt_inner, Content.txt]
    rw [txt_inner] at hn
    exact styledT_le hn (heapText_le (Nat.le_max_left _ _) c)
  | lazy b i =>
    cases e : S.force i with
    | none => exact ⟨1, by simp only [runT_lazy, Heap.txt, Content.txt, e]; exact .rfl⟩
    | some d =>
      obtain ⟨n, hn⟩ := ih1 d
      exact ⟨n + 1, by simp only [runT_lazy, Heap.txt, Content.txt, e]; exact hn⟩
  | aux c ih =>
    obtain ⟨n, hn⟩ := ih
    refine ⟨n, ?_⟩
    rw [txt_inner, Content.txt, ← txt_inner]
    exact hn

/-- With fuel 1 only nil content has a result, which is an error. -/
theorem downT_one (c : Content) : (R1 ext S h 1 c).Le (h.txt S 1 c) := by
  induction c using Content.ind with
  | nil => exact .rfl
  | lazy b i =>
    simp only [runT_lazy, Heap.txt, Content.txt]
    cases S.force i with
    | none => exact .rfl
    | some d => exact .inl rfl
  | aux c ih => exact ih
  | _ => exact .inl rfl

theorem downT_toc (m : Nat) (ih : ∀ c, ∃ n, (R1 ext S h m c).Le (h.txt S n c))
    (ihk : ∀ i, ∃ n, (K1 ext S h m i).Le (h.tocTxt (h.txt S n) n i)) (i : Nat) :
    ∃ n, (K1 ext S h (m + 1) i).Le (h.tocTxt (h.txt S n) n i) := by
  obtain ⟨m1, hn, h1⟩ := bounded_le (g := h.txt S) (x := R1 ext S h m) heapTxt_le
    ((h.get i).children.filterMap fun c => stripAux (h.get c).title) (fun d _ => ih d) m
  obtain ⟨m2, hn2, h2⟩ := bounded_le (g := fun n => h.tocTxt (h.txt S n) n) (x := K1 ext S h m)
    (fun hm c => tocTxt_le (heapTxt_le hm) hm c) (h.get i).children (fun c _ => ihk c) m1
  refine ⟨m2 + 1, ?_⟩
  rw [runT_tocTemplate, Heap.tocTxt]
  split
  · exact .rfl
  · refine (Res.Le.resMap fun c hc => tocLine_leOn (by omega) c (fun d hd => ?_) ?_).map
    · exact (h1 d (List.mem_filterMap.2 ⟨c, hc, hd⟩)).trans (heapTxt_le (by omega) d)
    · exact (h2 c hc).trans (tocTxt_le (heapTxt_le (by omega)) (by omega) c)

/-- (B) What the templates give, `Content.txt` gives. -/
theorem downT (m : Nat) : (∀ c, ∃ n, (R1 ext S h m c).Le (h.txt S n c)) ∧
    (∀ c, ∃ n, (R1 ext S h (m + 1) c).Le (h.txt S n c)) ∧
    (∀ i, ∃ n, (K1 ext S h m i).Le (h.tocTxt (h.txt S n) n i)) := by
  induction m with
  | zero => exact ⟨fun c => ⟨0, .inl rfl⟩, fun c => ⟨1, downT_one c⟩, fun i => ⟨0, .inl rfl⟩⟩
  | succ m ih =>
    have hk := downT_toc m ih.1 ih.2.2
    exact ⟨ih.2.1, downT_step m ih.1 hk ih.2.1, hk⟩

theorem pageT_eq (i : Nat) (r : Res Str) (hr : r ≠ .more) :
    (∃ n, h.pageTmpl S n (h.txt S n) i = r) ↔ ∃ n, run (textMode ext) (T1 ext) S h n (.template q%"page.tmpl" (.content (.sect i))) = r := by
  constructor
  · rintro ⟨n, e⟩
    obtain ⟨m, hm⟩ := upT (ext := ext) (h := h) (S := S) n (.sect i)
    refine ⟨max n m + 1, ?_⟩
    have : (h.pageTmpl S n (h.txt S n) i).Le (run (textMode ext) (T1 ext) S h (max n m + 1) (.template q%"page.tmpl" (.content (.sect i)))) := by
      rw [runT_page]
      exact pageTmpl_leOn (Nat.le_max_left _ _) i (hm.trans (R1_le (Nat.le_max_right _ _) _))
    rcases this with e' | e'
    · rw [e] at e'; exact absurd e' hr
    · rw [← e', e]
  · rintro ⟨m, e⟩
    cases m with
    | zero => exact absurd e.symm hr
    | succ m =>
      obtain ⟨n, hn⟩ := (downT m).1 (.sect i)
      refine ⟨max m n, ?_⟩
      have : (run (textMode ext) (T1 ext) S h (m + 1) (.template q%"page.tmpl" (.content (.sect i)))).Le
          (h.pageTmpl S (max m n) (h.txt S (max m n)) i) := by
        rw [runT_page]
        exact pageTmpl_leOn (Nat.le_max_left _ _) i (hn.trans (heapTxt_le (Nat.le_max_right _ _) _))
      rcases this with e' | e'
      · rw [e] at e'; exact absurd e' hr
      · rw [← e', e]

end
end Booklit.Tmpl
