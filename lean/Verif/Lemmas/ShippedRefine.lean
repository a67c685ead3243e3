import Verif.Lemmas.ShippedRun

/-!
The pages that the HTML templates that come with Booklit make are those of `Model/Html.lean`: whatever the one gives with some
fuel, the other gives with some fuel.
-/

namespace Booklit.Tmpl

open Booklit Booklit.Templates

/-- A bound for all elements of a list. -/
theorem bounded {α : Type} {P : Nat → α → Prop} (mono : ∀ {n m a}, n ≤ m → P n a → P m a) :
    ∀ l : List α, (∀ a ∈ l, ∃ n, P n a) → ∃ n, ∀ a ∈ l, P n a
  | [], _ => ⟨0, by simp⟩
  | a :: l, h => by
    obtain ⟨n, hn⟩ := h a (by simp)
    obtain ⟨m, hm⟩ := bounded (P := P) mono l (fun b hb => h b (by simp [hb]))
    refine ⟨max n m, fun b hb => ?_⟩
    rcases List.mem_cons.1 hb with rfl | hb
    · exact mono (Nat.le_max_left _ _) hn
    · exact mono (Nat.le_max_right _ _) (hm b hb)

theorem _root_.Booklit.Res.Le.trans {α : Type} {x y z : Res α} (h : x.Le y) (k : y.Le z) : x.Le z := by
  rcases h with rfl | rfl
  · exact .inl rfl
  · exact k

/-- The results with fuel `f` are got with enough fuel `g`. -/
theorem bounded_le {α β : Type} {x : α → Res β} {g : Nat → α → Res β} (mono : ∀ {n m}, n ≤ m → ∀ a, (g n a).Le (g m a)) (l : List α)
    (h : ∀ a ∈ l, ∃ n, (x a).Le (g n a)) (k : Nat) : ∃ n, k ≤ n ∧ ∀ a ∈ l, (x a).Le (g n a) := by
  obtain ⟨n, hn⟩ := bounded (P := fun n a => (x a).Le (g n a)) (fun hm h => h.trans (mono hm _)) l h
  exact ⟨max k n, Nat.le_max_left _ _, fun a ha => (hn a ha).trans (mono (Nat.le_max_right _ _) a)⟩

section
variable {S : Site} {h : Heap}

theorem refHtml_leOn {f g : Content → Res Str} {n m : Nat} (hm : n ≤ m) (s t c o l)
    (A : ∀ x d, h.refTag n S.brokenOk s t o l = some (.tag x) → stripAux (if c.isNil then x.title else c) = some d → (f d).Le (g d))
    (B : ∀ d, stripAux c = some d → (f d).Le (g d)) :
    (h.refHtml S n f s t c o l).Le (h.refHtml S m g s t c o l) := by
  rw [Heap.refHtml, Heap.refHtml]
  cases hr : h.refTag n S.brokenOk s t o l with
  | none => exact .inl rfl
  | some r =>
    rw [refTag_mono hm hr]
    cases r with
    | tag x =>
      dsimp only
      cases x.sec with
      | none => exact .rfl
      | some i =>
        dsimp only
        refine Res.Le.bind (.ofFuel fun a e => sectionURL_mono hm e) fun u _ => ?_
        have A := fun d => A x d hr
        cases hd : stripAux (if c.isNil = true then x.title else c) with
        | none => exact .rfl
        | some d => exact (A d hd).map
    | nothing =>
      dsimp only
      cases hd : stripAux c with
      | none => exact .rfl
      | some d => exact B d hd
    | unknown => exact unknownTag_le hm s t l
    | ambiguous ls => exact ambiguousTag_le hm s t l ls

theorem sectHtml_leOn {f g : Content → Res Str} {n m : Nat} (hm : n ≤ m) (i)
    (A : ∀ c ∈ (h.get i).title :: (h.get i).body :: (h.get i).children.map .sect, (f c).Le (g c)) :
    (h.sectHtml n f i).Le (h.sectHtml m g i) := by
  rw [Heap.sectHtml, Heap.sectHtml]
  split
  · exact .rfl
  · refine Res.Le.bind (.ofFuel fun a e => headerDepth_mono hm e) fun d _ => ?_
    refine Res.Le.bind ?_ fun num _ => (A _ (by simp)).bind fun title _ => (A _ (by simp)).bind fun body _ => Res.Le.map ?_
    · split
      · exact Res.Le.map (.ofFuel fun a e => number_mono hm e)
      · exact .rfl
    · split
      · exact .rfl
      · exact (Res.Le.resMap fun c hc => A _ (by simp [hc])).map

theorem tocEntry_leOn {f g : Content → Res Str} {k k' : Nat → Res Str} {n m : Nat} (hm : n ≤ m) (c)
    (A : ∀ d, stripAux (h.get c).title = some d → (f d).Le (g d)) (B : (k c).Le (k' c)) :
    (h.tocEntry n f k c).Le (h.tocEntry m g k' c) := by
  rw [Heap.tocEntry, Heap.tocEntry]
  cases (h.get c).primaryTag.sec with
  | none => exact .rfl
  | some j =>
    dsimp only
    refine Res.Le.bind (.ofFuel fun a e => sectionURL_mono (by omega) e) fun u _ => ?_
    refine Res.Le.bind (.ofFuel fun a e => number_mono (by omega) e) fun k _ => ?_
    cases hd : stripAux (h.get c).title with
    | none => exact .rfl
    | some d => exact (A d hd).bind fun title _ => B.map

theorem R0_le {n m : Nat} (hm : n ≤ m) (c) : (R0 S h n c).Le (R0 S h m c) := run_le hm _

theorem K0_le {n m : Nat} (hm : n ≤ m) (i) : (K0 S h n i).Le (K0 S h m i) := run_le hm _

/-- What is done with the parts of contents: `c.html I` does with the results of `Content.html I` what `R0` does with those of
`R0`, one level down. -/
theorem shape_le {f g : Content → Res Str} {cs : List Content} (A : ∀ c ∈ cs, (f c).Le (g c)) : (resMap f cs).Le (resMap g cs) :=
  Res.Le.resMap A

theorem shapeR_le {f g : Content → Res Str} {rs : List (List Content)} (A : ∀ c ∈ rs.flatten, (f c).Le (g c)) :
    (resMap (resMap f) rs).Le (resMap (resMap g) rs) :=
  Res.Le.resMap fun r hr => Res.Le.resMap fun c hc => A c (List.mem_flatten.2 ⟨r, hr, hc⟩)

theorem shapeD_le {f g : Content → Res Str} {ds : List (Content × Content)} (A : ∀ c ∈ ds.flatMap (fun d => [d.1, d.2]), (f c).Le (g c)) :
    (resMap (fun d => (f d.1).bind fun a => (f d.2).map fun b => (a, b)) ds).Le
      (resMap (fun d => (g d.1).bind fun a => (g d.2).map fun b => (a, b)) ds) :=
  Res.Le.resMap fun d hd => (A _ (List.mem_flatMap.2 ⟨d, hd, by simp⟩)).bind fun _ _ => (A _ (List.mem_flatMap.2 ⟨d, hd, by simp⟩)).map

theorem styled_le {st : Str} {b : Bool} {c : Content} {x y p q : Res Str} (hm : x.Le y) (hk : p.Le q) :
    (if st = q%"verbatim" then
        match if b then some false else isFlow c with
        | none => tmplErr
        | some true => x.map fun t => q%"<code>" ++ t ++ q%"</code>"
        | some false => x.map fun t => q%"<pre>" ++ t ++ q%"</pre>"
      else if st = q%"raw-html" then p.recover
      else match styleTags st with
        | none => tmplErr
        | some (a, z) => x.map fun t => a ++ t ++ z : Res Str).Le
    (if st = q%"verbatim" then
        match if b then some false else isFlow c with
        | none => tmplErr
        | some true => y.map fun t => q%"<code>" ++ t ++ q%"</code>"
        | some false => y.map fun t => q%"<pre>" ++ t ++ q%"</pre>"
      else if st = q%"raw-html" then q.recover
      else match styleTags st with
        | none => tmplErr
        | some (a, z) => y.map fun t => a ++ t ++ z) := by
  by_cases h1 : st = q%"verbatim"
  · rw [if_pos h1, if_pos h1]
    generalize (if b then some false else isFlow c) = fl
    match fl with
    | none => exact .rfl
    | some true => exact hm.map
    | some false => exact hm.map
  · rw [if_neg h1, if_neg h1]
    by_cases h2 : st = q%"raw-html"
    · rw [if_pos h2, if_pos h2]; exact hk.recover
    · rw [if_neg h2, if_neg h2]
      generalize styleTags st = z
      match z with
      | none => exact .rfl
      | some (a, z) => exact hm.map

/-- No content in it has the style `string`. -/
abbrev Ok (c : Content) : Prop := c.unstyled [q%"string"] = true

theorem Ok.all {c : Content} (hc : Ok c) : c.all (Content.notStyle [q%"string"]) = true := hc

/-- (A) What `Content.html` gives, the templates give. -/
theorem up_step (I : Inner)
    (hr : ∀ s t c o l, Ok c → ∃ m, (I.ref s t c o l).Le (R0 S h m (.ref s t c o l)))
    (hs : ∀ i, ∃ m, (I.sect i).Le (R0 S h m (.sect i)))
    (ht : ∀ i, ∃ m, (I.toc i).Le (R0 S h m (.toc i)))
    (hf : ∀ i, ∃ m, (I.force i).Le (match S.force i with | none => tmplErr | some d => R0 S h m d))
    (hx : ∀ c, ∃ m, (I.raw c).Le (h.text S.brokenOk m c)) (c : Content) : Ok c → ∃ m, (c.html I).Le (R0 S h m c) := by
  have list : ∀ cs : List Content, (∀ c ∈ cs, Ok c → ∃ m, (c.html I).Le (R0 S h m c)) → (∀ c ∈ cs, Ok c) →
      ∃ m, ∀ c ∈ cs, (c.html I).Le (R0 S h m c) := fun cs ih ok => by
    obtain ⟨m, _, hm⟩ := bounded_le (g := R0 S h) R0_le cs (fun c hc => ih c hc (ok c hc)) 0
    exact ⟨m, hm⟩
  induction c using Content.ind with
  | nil => intro _; exact ⟨1, .rfl⟩
  | str s => intro _; exact ⟨2, by rw [run_str]; exact .rfl⟩
  | seq cs ih =>
    intro ok
    have ok := ok.all
    simp only [Content.all, Bool.and_eq_true, allL_iff] at ok
    obtain ⟨m, hm⟩ := list cs ih ok.2
    exact ⟨m + 2, by rw [run_seq, Content.html, htmlL_eq]; exact (shape_le hm).map⟩
  | para cs ih =>
    intro ok
    have ok := ok.all
    simp only [Content.all, Bool.and_eq_true, allL_iff] at ok
    obtain ⟨m, hm⟩ := list cs ih ok.2
    exact ⟨m + 2, by rw [run_para, Content.html, htmlL_eq]; exact (shape_le hm).map⟩
  | pre cs ih =>
    intro ok
    have ok := ok.all
    simp only [Content.all, Bool.and_eq_true, allL_iff] at ok
    obtain ⟨m, hm⟩ := list cs ih ok.2
    exact ⟨m + 2, by rw [run_pre, Content.html, htmlL_eq]; exact (shape_le hm).map⟩
  | list cs o ih =>
    intro ok
    have ok := ok.all
    simp only [Content.all, Bool.and_eq_true, allL_iff] at ok
    obtain ⟨m, hm⟩ := list cs ih ok.2
    exact ⟨m + 2, by rw [run_list, Content.html, htmlL_eq]; exact (shape_le hm).map⟩
  | table rs ih =>
    intro ok
    have ok := ok.all
    simp only [Content.all, Bool.and_eq_true, allR_iff] at ok
    obtain ⟨m, hm⟩ := list rs.flatten (fun c hc => by
      obtain ⟨r, hr, hc⟩ := List.mem_flatten.1 hc
      exact ih r hr c hc) (fun c hc => by
      obtain ⟨r, hr, hc⟩ := List.mem_flatten.1 hc
      exact ok.2 r hr c hc)
    exact ⟨m + 2, by rw [run_table, Content.html, htmlR_eq]; exact (shapeR_le hm).map⟩
  | defs ds ih =>
    intro ok
    have ok := ok.all
    simp only [Content.all, Bool.and_eq_true, allD_iff] at ok
    obtain ⟨m, hm⟩ := list (ds.flatMap fun d => [d.1, d.2]) (fun c hc => by
      obtain ⟨d, hd, hc⟩ := List.mem_flatMap.1 hc
      simp only [List.mem_cons, List.not_mem_nil, or_false] at hc
      rcases hc with rfl | rfl
      · exact (ih d hd).1
      · exact (ih d hd).2) (fun c hc => by
      obtain ⟨d, hd, hc⟩ := List.mem_flatMap.1 hc
      simp only [List.mem_cons, List.not_mem_nil, or_false] at hc
      rcases hc with rfl | rfl
      · exact (ok.2 d hd).1
      · exact (ok.2 d hd).2)
    exact ⟨m + 2, by rw [run_defs, Content.html, htmlD_eq]; exact (shapeD_le hm).map⟩
  | ref s t c o l ih =>
    intro ok
    have ok := ok.all
    simp only [Content.all, Bool.and_eq_true] at ok
    exact hr s t c o l ok.2
  | sect i => intro _; exact hs i
  | toc i => intro _; exact ht i
  | styled st b c ps ih ihp =>
    intro ok
    have ok := ok.all
    simp only [Content.all, Bool.and_eq_true, Content.notStyle, decide_eq_true_eq] at ok
    obtain ⟨m, hm⟩ := ih ok.1.2
    obtain ⟨k, hk⟩ := hx c
    refine ⟨max m k + 2, ?_⟩
    have hm : (c.html I).Le (R0 S h (max m k) c) := hm.trans (R0_le (Nat.le_max_left _ _) c)
    have hk : (I.raw c).Le (h.text S.brokenOk (max m k) c) := hk.trans (heapText_le (Nat.le_max_right _ _) c)
    rw [R0, run_styled _ _ _ _ _ (by simpa using ok.1.1), Content.html]
    exact styled_le hm hk
  | target t l ti c => intro _; exact ⟨2, by rw [run_target]; exact .rfl⟩
  | image p d => intro _; exact ⟨2, by rw [run_image]; exact .rfl⟩
  | link c u ih =>
    intro ok
    have ok := ok.all
    simp only [Content.all, Bool.and_eq_true] at ok
    obtain ⟨m, hm⟩ := ih ok.2
    exact ⟨m + 2, by rw [run_link, Content.html]; exact hm.map⟩
  | lazy b i =>
    intro _
    obtain ⟨m, hm⟩ := hf i
    exact ⟨m + 1, hm⟩
  | aux c ih =>
    intro ok
    have ok := ok.all
    simp only [Content.all, Bool.and_eq_true] at ok
    obtain ⟨m, hm⟩ := ih ok.2
    refine ⟨m + 1, ?_⟩
    rw [run_aux, Content.html]
    exact hm.trans (R0_le (by omega) c)

variable (U : ShownUnstyled [q%"string"] S h) (V : ∀ i, (h.get i).style ∉ [q%"string", q%"toc", q%"page", q%"raw-html"])
include U

theorem tag_ok {n s t o l x} (e : h.refTag n S.brokenOk s t o l = some (.tag x)) : Ok x.title := by
  rcases refTag_mem (T := fun _ => True) (fun _ _ _ _ => trivial) (fun _ _ _ _ => trivial) trivial e with ⟨j, _, hj⟩ | ⟨_, rfl⟩
  · exact U.shown j _ (List.mem_cons_of_mem _ (List.mem_cons_of_mem _ (List.mem_map_of_mem hj)))
  · rfl

theorem up_toc {f : Content → Res Str} (A : ∀ c, Ok c → ∃ m, (f c).Le (R0 S h m c)) : ∀ n i, ∃ m, (h.tocHtml f n i).Le (K0 S h m i) := by
  intro n
  induction n with
  | zero => intro i; exact ⟨0, .inl rfl⟩
  | succ n ih =>
    intro i
    obtain ⟨m1, hn, h1⟩ := bounded_le (g := R0 S h) (x := f) R0_le
      ((h.get i).children.filterMap fun c => stripAux (h.get c).title) (fun d hd => by
        obtain ⟨c, _, hc⟩ := List.mem_filterMap.1 hd
        exact A d (strip_unstyled _ (U.shown c _ (by simp [Sec.shown])) _ hc)) n
    obtain ⟨m2, hn2, h2⟩ := bounded_le (g := K0 S h) (x := h.tocHtml f n) K0_le (h.get i).children (fun c _ => ih c) m1
    refine ⟨m2 + 1, ?_⟩
    rw [run_tocTemplate, Heap.tocHtml]
    split
    · exact .rfl
    · exact (Res.Le.resMap fun c hc => tocEntry_leOn (by omega) c
        (fun d hd => (h1 d (List.mem_filterMap.2 ⟨c, hc, hd⟩)).trans (R0_le hn2 d)) (h2 c hc)).map

include V

theorem up (n : Nat) : ∀ c, Ok c → ∃ m, (h.html S n c).Le (R0 S h m c) := by
  induction n with
  | zero =>
    intro c
    rw [Heap.html]
    exact up_step _ (fun _ _ _ _ _ _ => ⟨0, .inl rfl⟩) (fun _ => ⟨0, .inl rfl⟩) (fun _ => ⟨0, .inl rfl⟩) (fun _ => ⟨0, .inl rfl⟩)
      (fun _ => ⟨0, .inl rfl⟩) c
  | succ n ih =>
    intro c
    rw [Heap.html]
    refine up_step _ ?_ ?_ ?_ ?_ ?_ c
    · intro s t c o l ok
      have hL : ∀ d ∈ (stripAux c).toList ++ (match h.refTag n S.brokenOk s t o l with
          | some (.tag x) => (stripAux (if c.isNil then x.title else c)).toList
          | _ => []), Ok d := by
        intro d hd
        rcases List.mem_append.1 hd with hd | hd
        · exact strip_unstyled _ ok _ (by simpa using hd)
        · split at hd
          · rename_i x e
            refine strip_unstyled _ ?_ _ (by simpa using hd)
            split
            · exact tag_ok U e
            · exact ok
          · cases hd
      obtain ⟨m, hn, hm⟩ := bounded_le (g := R0 S h) (x := h.html S n) R0_le _ (fun d hd => ih d (hL d hd)) n
      refine ⟨m + 2, ?_⟩
      rw [run_ref]
      refine refHtml_leOn hn s t c o l (fun x d e hd => hm d ?_) (fun d hd => hm d ?_)
      · rw [e]; simp [hd]
      · simp [hd]
    · intro i
      obtain ⟨m, hn, hm⟩ := bounded_le (g := R0 S h) (x := h.html S n) R0_le ((h.get i).title :: (h.get i).body :: (h.get i).children.map .sect)
        (fun d hd => ih d (by
          simp only [List.mem_cons, List.mem_map] at hd
          rcases hd with rfl | rfl | ⟨_, _, rfl⟩
          · exact U.shown i _ (by simp [Sec.shown])
          · exact U.shown i _ (by simp [Sec.shown])
          · rfl)) n
      refine ⟨m + 2, ?_⟩
      rw [run_sect m i (V i)]
      exact sectHtml_leOn hn i hm
    · intro i
      obtain ⟨m, hm⟩ := up_toc U ih n i
      exact ⟨m + 1, by rw [run_toc]; exact hm⟩
    · intro i
      dsimp only
      cases e : S.force i with
      | none => exact ⟨0, .rfl⟩
      | some d => exact ih d (U.force i d e)
    · exact fun c => ⟨n, .rfl⟩

/-- How `Heap.html` renders the inner parts. -/
def innerOf (S : Site) (h : Heap) : Nat → Inner
  | 0 => ⟨fun _ _ _ _ _ => .more, fun _ => .more, fun _ => .more, fun _ => .more, fun _ => .more⟩
  | n + 1 => ⟨h.refHtml S n (h.html S n), h.sectHtml n (h.html S n), h.tocHtml (h.html S n) n,
      fun i => match S.force i with
        | none => tmplErr
        | some d => h.html S n d,
      h.text S.brokenOk n⟩

omit U V in
theorem html_inner (n : Nat) : h.html S n = Content.html (innerOf S h n) := by
  funext c
  cases n <;> rfl

/-- (B) What the templates give, `Content.html` gives: one step. -/
theorem down_step (m : Nat) (ih : ∀ c, Ok c → ∃ n, (R0 S h m c).Le (h.html S n c))
    (ihk : ∀ i, ∃ n, (K0 S h (m + 1) i).Le (h.tocHtml (h.html S n) n i)) (ih1 : ∀ c, Ok c → ∃ n, (R0 S h (m + 1) c).Le (h.html S n c))
    (c : Content) : Ok c → ∃ n, (R0 S h (m + 2) c).Le (h.html S n c) := by
  have list : ∀ cs : List Content, (∀ c ∈ cs, Ok c) → ∃ n, ∀ c ∈ cs, (R0 S h m c).Le (c.html (innerOf S h n)) := fun cs ok => by
    obtain ⟨n, _, hn⟩ := bounded_le (x := R0 S h m) (g := h.html S) heapHtml_le cs (fun c hc => ih c (ok c hc)) 0
    exact ⟨n, fun c hc => by rw [← html_inner]; exact hn c hc⟩
  induction c using Content.ind with
  | nil => intro _; exact ⟨0, .rfl⟩
  | str s => intro _; exact ⟨0, by rw [run_str]; exact .rfl⟩
  | seq cs =>
    intro ok
    have ok := ok.all
    simp only [Content.all, Bool.and_eq_true, allL_iff] at ok
    obtain ⟨n, hn⟩ := list cs ok.2
    exact ⟨n, by rw [run_seq, html_inner, Content.html, htmlL_eq]; exact (shape_le hn).map⟩
  | para cs =>
    intro ok
    have ok := ok.all
    simp only [Content.all, Bool.and_eq_true, allL_iff] at ok
    obtain ⟨n, hn⟩ := list cs ok.2
    exact ⟨n, by rw [run_para, html_inner, Content.html, htmlL_eq]; exact (shape_le hn).map⟩
  | pre cs =>
    intro ok
    have ok := ok.all
    simp only [Content.all, Bool.and_eq_true, allL_iff] at ok
    obtain ⟨n, hn⟩ := list cs ok.2
    exact ⟨n, by rw [run_pre, html_inner, Content.html, htmlL_eq]; exact (shape_le hn).map⟩
  | list cs o =>
    intro ok
    have ok := ok.all
    simp only [Content.all, Bool.and_eq_true, allL_iff] at ok
    obtain ⟨n, hn⟩ := list cs ok.2
    exact ⟨n, by rw [run_list, html_inner, Content.html, htmlL_eq]; exact (shape_le hn).map⟩
  | table rs =>
    intro ok
    have ok := ok.all
    simp only [Content.all, Bool.and_eq_true, allR_iff] at ok
    obtain ⟨n, hn⟩ := list rs.flatten (fun c hc => by
      obtain ⟨r, hr, hc⟩ := List.mem_flatten.1 hc
      exact ok.2 r hr c hc)
    exact ⟨n, by rw [run_table, html_inner, Content.html, htmlR_eq]; exact (shapeR_le hn).map⟩
  | defs ds =>
    intro ok
    have ok := ok.all
    simp only [Content.all, Bool.and_eq_true, allD_iff] at ok
    obtain ⟨n, hn⟩ := list (ds.flatMap fun d => [d.1, d.2]) (fun c hc => by
      obtain ⟨d, hd, hc⟩ := List.mem_flatMap.1 hc
      simp only [List.mem_cons, List.not_mem_nil, or_false] at hc
      rcases hc with rfl | rfl
      · exact (ok.2 d hd).1
      · exact (ok.2 d hd).2)
    exact ⟨n, by rw [run_defs, html_inner, Content.html, htmlD_eq]; exact (shapeD_le hn).map⟩
  | ref s t c o l =>
    intro ok
    have ok := ok.all
    simp only [Content.all, Bool.and_eq_true] at ok
    have hL : ∀ d ∈ (stripAux c).toList ++ (match h.refTag m S.brokenOk s t o l with
        | some (.tag x) => (stripAux (if c.isNil then x.title else c)).toList
        | _ => []), Ok d := by
      intro d hd
      rcases List.mem_append.1 hd with hd | hd
      · exact strip_unstyled _ ok.2 _ (by simpa using hd)
      · split at hd
        · rename_i x e
          refine strip_unstyled _ ?_ _ (by simpa using hd)
          split
          · exact tag_ok U e
          · exact ok.2
        · cases hd
    obtain ⟨n, hmn, hn⟩ := bounded_le (g := h.html S) (x := R0 S h m) heapHtml_le _ (fun d hd => ih d (hL d hd)) m
    refine ⟨n + 1, ?_⟩
    rw [run_ref]
    refine refHtml_leOn hmn s t c o l (fun x d e hd => hn d ?_) (fun d hd => hn d ?_)
    · rw [e]; simp [hd]
    · simp [hd]
  | sect i =>
    intro _
    obtain ⟨n, hmn, hn⟩ := bounded_le (g := h.html S) (x := R0 S h m) heapHtml_le ((h.get i).title :: (h.get i).body :: (h.get i).children.map .sect)
      (fun d hd => ih d (by
        simp only [List.mem_cons, List.mem_map] at hd
        rcases hd with rfl | rfl | ⟨_, _, rfl⟩
        · exact U.shown i _ (by simp [Sec.shown])
        · exact U.shown i _ (by simp [Sec.shown])
        · rfl)) m
    refine ⟨n + 1, ?_⟩
    rw [run_sect m i (V i)]
    exact sectHtml_leOn hmn i hn
  | toc i =>
    intro _
    obtain ⟨n, hn⟩ := ihk i
    exact ⟨n + 1, by rw [run_toc]; exact hn⟩
  | styled st b c ps =>
    intro ok
    have ok := ok.all
    simp only [Content.all, Bool.and_eq_true, Content.notStyle, decide_eq_true_eq] at ok
    obtain ⟨n, hn⟩ := ih c ok.1.2
    refine ⟨max m n + 1, ?_⟩
    have hn : (R0 S h m c).Le (h.html S (max m n + 1) c) := hn.trans (heapHtml_le (by omega) c)
    rw [R0, run_styled _ _ _ _ _ (by simpa using ok.1.1), html_inner, Content.html]
    rw [html_inner] at hn
    exact styled_le hn (heapText_le (Nat.le_max_left _ _) c)
  | target t l ti c => intro _; exact ⟨0, by rw [run_target]; exact .rfl⟩
  | image p d => intro _; exact ⟨0, by rw [run_image]; exact .rfl⟩
  | link c u =>
    intro ok
    have ok := ok.all
    simp only [Content.all, Bool.and_eq_true] at ok
    obtain ⟨n, hn⟩ := ih c ok.2
    rw [html_inner] at hn
    exact ⟨n, by rw [run_link, html_inner, Content.html]; exact hn.map⟩
  | lazy b i =>
    intro _
    cases e : S.force i with
    | none => exact ⟨1, by simp only [run_lazy, Heap.html, Content.html, e]; exact .rfl⟩
    | some d =>
      obtain ⟨n, hn⟩ := ih1 d (U.force i d e)
      exact ⟨n + 1, by simp only [run_lazy, Heap.html, Content.html, e]; exact hn⟩
  | aux c ih =>
    intro ok
    have ok := ok.all
    simp only [Content.all, Bool.and_eq_true] at ok
    obtain ⟨n, hn⟩ := ih ok.2
    refine ⟨n, ?_⟩
    rw [html_inner, Content.html, ← html_inner]
    exact hn

omit U V in
/-- With fuel 1 only nil content has a result, which is an error. -/
theorem down_one (c : Content) : (R0 S h 1 c).Le (h.html S 1 c) := by
  induction c using Content.ind with
  | nil => exact .rfl
  | lazy b i =>
    simp only [run_lazy, Heap.html, Content.html]
    cases S.force i with
    | none => exact .rfl
    | some d => exact .inl rfl
  | aux c ih => exact ih
  | _ => exact .inl rfl

omit V in
theorem down_toc (m : Nat) (ih : ∀ c, Ok c → ∃ n, (R0 S h m c).Le (h.html S n c))
    (ihk : ∀ i, ∃ n, (K0 S h m i).Le (h.tocHtml (h.html S n) n i)) (i : Nat) :
    ∃ n, (K0 S h (m + 1) i).Le (h.tocHtml (h.html S n) n i) := by
  obtain ⟨m1, hn, h1⟩ := bounded_le (g := h.html S) (x := R0 S h m) heapHtml_le
    ((h.get i).children.filterMap fun c => stripAux (h.get c).title) (fun d hd => by
      obtain ⟨c, _, hc⟩ := List.mem_filterMap.1 hd
      exact ih d (strip_unstyled _ (U.shown c _ (by simp [Sec.shown])) _ hc)) m
  obtain ⟨m2, hn2, h2⟩ := bounded_le (g := fun n => h.tocHtml (h.html S n) n) (x := K0 S h m)
    (fun hm c => tocHtml_le (heapHtml_le hm) hm c) (h.get i).children (fun c _ => ihk c) m1
  refine ⟨m2 + 1, ?_⟩
  rw [run_tocTemplate, Heap.tocHtml]
  split
  · exact .rfl
  · refine (Res.Le.resMap fun c hc => tocEntry_leOn (by omega) c (fun d hd => ?_) ?_).map
    · exact (h1 d (List.mem_filterMap.2 ⟨c, hc, hd⟩)).trans (heapHtml_le (by omega) d)
    · exact (h2 c hc).trans (tocHtml_le (heapHtml_le (by omega)) (by omega) c)

/-- (B) What the templates give, `Content.html` gives. -/
theorem down (m : Nat) : (∀ c, Ok c → ∃ n, (R0 S h m c).Le (h.html S n c)) ∧
    (∀ c, Ok c → ∃ n, (R0 S h (m + 1) c).Le (h.html S n c)) ∧
    (∀ i, ∃ n, (K0 S h m i).Le (h.tocHtml (h.html S n) n i)) := by
  induction m with
  | zero => exact ⟨fun c _ => ⟨0, .inl rfl⟩, fun c _ => ⟨1, down_one c⟩, fun i => ⟨0, .inl rfl⟩⟩
  | succ m ih =>
    have hk := down_toc U m ih.1 ih.2.2
    exact ⟨ih.2.1, down_step U V m ih.1 hk ih.2.1, hk⟩

theorem page_eq (i : Nat) (r : Res Str) (hr : r ≠ .more) :
    (∃ n, h.page S n i = r) ↔ ∃ n, run htmlMode T0 S h n (.template q%"page.tmpl" (.content (.sect i))) = r := by
  constructor
  · rintro ⟨n, e⟩
    obtain ⟨m, hm⟩ := up U V n (.sect i) rfl
    refine ⟨max n m + 1, ?_⟩
    have : (h.page S n i).Le (run htmlMode T0 S h (max n m + 1) (.template q%"page.tmpl" (.content (.sect i)))) := by
      rw [run_page, Heap.page]
      exact (heapText_le (Nat.le_max_left _ _) _).recover.bind fun _ _ => (hm.trans (R0_le (Nat.le_max_right _ _) _)).map
    rcases this with e' | e'
    · rw [e] at e'; exact absurd e' hr
    · rw [← e', e]
  · rintro ⟨m, e⟩
    cases m with
    | zero => exact absurd e.symm hr
    | succ m =>
      obtain ⟨n, hn⟩ := (down U V m).1 (.sect i) rfl
      refine ⟨max m n, ?_⟩
      have : (run htmlMode T0 S h (m + 1) (.template q%"page.tmpl" (.content (.sect i)))).Le (h.page S (max m n) i) := by
        rw [run_page, Heap.page]
        exact (heapText_le (Nat.le_max_left _ _) _).recover.bind fun _ _ => (hn.trans (heapHtml_le (Nat.le_max_right _ _) _)).map
      rcases this with e' | e'
      · rw [e] at e'; exact absurd e' hr
      · rw [← e', e]

end
end Booklit.Tmpl
