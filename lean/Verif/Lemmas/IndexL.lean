import Verif.Lemmas.RendersL
import Verif.Lemmas.OutputL
import Verif.Lemmas.LinksL

/-!
Sane books have a search index.
-/

namespace Booklit

open Tree

section
variable {S : Site} {h : Heap} {t : Tree}

/-- The text can be had, with enough fuel. -/
def Told (S : Site) (h : Heap) (c : Content) : Prop := ∃ n x, h.text S.brokenOk n c = .ok x

theorem Told.at {c : Content} (d : Told S h c) : ∃ N, ∀ n, N ≤ n → ∃ x, h.text S.brokenOk n c = .ok x := by
  obtain ⟨N, x, e⟩ := d
  exact ⟨N, fun n hn => ⟨x, (heapText_le hn c).ok e⟩⟩

theorem text_inner (S : Site) (h : Heap) (n : Nat) : ∃ R T, ∀ c, h.text S.brokenOk n c = c.text R T := by
  cases n with
  | zero => exact ⟨_, _, fun c => by rw [Heap.text]⟩
  | succ n => exact ⟨_, _, fun c => by rw [Heap.text]⟩

theorem textL_ok {R T} {cs : List Content} (hd : ∀ c ∈ cs, ∃ x, c.text R T = .ok x) : ∃ ts, textL R T cs = .ok ts := by
  induction cs with
  | nil => exact ⟨[], rfl⟩
  | cons c cs ih => exact Res.bind_oks (hd c (by simp)) fun _ => Res.map_oks (ih fun d hc => hd d (by simp [hc]))

theorem told_of {cs : List Content} (hd : ∀ c ∈ cs, Told S h c) {c : Content}
    (hc : ∀ R T, (∀ d ∈ cs, ∃ x, d.text R T = .ok x) → ∃ x, c.text R T = .ok x) : Told S h c := by
  obtain ⟨N, hN⟩ := common fun c hc => (hd c hc).at
  obtain ⟨R, T, hI⟩ := text_inner S h N
  obtain ⟨x, e⟩ := hc R T fun d hd => by
    rw [← hI]
    exact hN N (Nat.le_refl _) d hd
  exact ⟨N, x, by rw [hI]; exact e⟩

theorem self_mem {b : Bool} (c : Content) : c ∈ c.parts b := by
  cases c <;> simp [Content.parts]

/-- Titles without holes have a text. -/
theorem plain_text {c : Content} (R T) : (∀ d ∈ c.parts true, d.isNil = false ∧ ∀ i, d ≠ .sect i) → ∃ x, c.text R T = .ok x := by
  induction c using Content.ind with
  | nil => exact fun hc => by simpa [Content.isNil] using (hc .nil (by simp [Content.parts])).1
  | sect i => exact fun hc => ((hc (.sect i) (by simp [Content.parts])).2 i rfl).elim
  | str | toc | lazy | image | target => exact fun _ => ⟨_, rfl⟩
  | seq cs ih | para cs ih | pre cs ih | list cs o ih =>
    exact fun hc => Res.map_oks (textL_ok fun c h1 => ih c h1 fun d hd => hc d (by
      rw [Content.parts]; exact List.mem_cons_of_mem _ (mem_partsL.2 ⟨c, h1, hd⟩)))
  | ref s name c o l ih =>
    intro hc
    have hcc : ∀ d ∈ c.parts true, d.isNil = false ∧ ∀ i, d ≠ .sect i := fun d hd => hc d (by
      rw [Content.parts]; exact List.mem_cons_of_mem _ (by simpa using hd))
    have : c.isNil = false := (hcc c (self_mem c)).1
    rw [Content.text, this]
    exact ih hcc
  | styled st k c ps ih ihp =>
    exact fun hc => ih fun d hd => hc d (by
      rw [Content.parts]; exact List.mem_cons_of_mem _ (List.mem_append_left _ hd))
  | link c u ih | aux c ih => exact fun hc => ih fun d hd => hc d (by
      rw [Content.parts]; exact List.mem_cons_of_mem _ hd)
  | table rs ih =>
    intro hc
    refine Res.map_oks ?_
    have hcs : ∀ r ∈ rs, ∀ c ∈ r, ∃ x, c.text R T = .ok x := fun r hr c h1 => ih r hr c h1 fun d hd => hc d (by
      rw [Content.parts]; exact List.mem_cons_of_mem _ (mem_partsR.2 ⟨r, hr, c, h1, hd⟩))
    clear hc ih
    induction rs with
    | nil => exact ⟨[], rfl⟩
    | cons r rs ih => exact Res.bind_oks (textL_ok (hcs r (by simp))) fun _ => Res.map_oks (ih fun d hc => hcs d (by simp [hc]))
  | defs ds ih =>
    intro hc
    refine Res.map_oks ?_
    have hcs : ∀ x ∈ ds, (∃ y, x.1.text R T = .ok y) ∧ ∃ y, x.2.text R T = .ok y := fun x hx =>
      ⟨(ih x hx).1 fun d hd => hc d (by
        rw [Content.parts]; exact List.mem_cons_of_mem _ (mem_partsD.2 ⟨x, hx, .inl hd⟩)),
       (ih x hx).2 fun d hd => hc d (by
        rw [Content.parts]; exact List.mem_cons_of_mem _ (mem_partsD.2 ⟨x, hx, .inr hd⟩))⟩
    clear hc ih
    induction ds with
    | nil => exact ⟨[], rfl⟩
    | cons d ds ih =>
      obtain ⟨a, z⟩ := d
      have h1 := hcs (a, z) (by simp)
      refine Res.bind_oks ?_ fun _ => Res.bind_oks ?_ fun _ => Res.map_oks (ih fun d hc => hcs d (by simp [hc]))
      · split
        · exact ⟨_, rfl⟩
        · exact h1.1
      · split
        · exact ⟨_, rfl⟩
        · exact h1.2

theorem plain_told {c : Content} (hc : ∀ d ∈ c.parts true, d.isNil = false ∧ ∀ i, d ≠ .sect i) (n : Nat) :
    ∃ x, h.text S.brokenOk n c = .ok x := by
  obtain ⟨R, T, e⟩ := text_inner S h n
  rw [e]
  exact plain_text R T hc

/-- A reference that is not optional has a text if all titles do. -/
theorem ref_told (b : Book h t) (ht : ∀ i ∈ t.ids, ∀ g ∈ (h.get i).tags, ∀ n, ∃ x, h.text S.brokenOk n g.title = .ok x)
    {s : Nat} (hs : s ∈ t.ids) (name : Str) (l : Location) : Told S h (.ref s name .nil false l) := by
  obtain ⟨z, hz, rfl⟩ := mem_ids.1 hs
  obtain ⟨r, ⟨N, hr⟩, hm⟩ := Props.C22_references b z hz name false
  have hr := hr N (Nat.le_refl _)
  refine ⟨N + 1, ?_⟩
  rw [Heap.text, Content.text]
  simp only [Content.isNil, if_true, Heap.refTag]
  simp only at hr
  rw [hr]
  have str : ∀ bo, ∀ s : Str, ∃ x, h.text bo N (.str s) = .ok x := fun bo s =>
    plain_told (S := ⟨bo, fun _ => none⟩) (by simp [Content.parts, Content.isNil]) N
  cases r with
  | tag g =>
    have : g ∈ t.tagsNamed h name := by
      generalize t.tagsNamed h name = gs at hm
      match gs, hm with
      | [], hm => cases hm
      | [g'], hm => cases hm; simp
      | _ :: _ :: _, ⟨_, hm, _⟩ => cases hm
    obtain ⟨i, hi, hg⟩ := named_mem this
    exact ht i hi g hg N
  | nothing =>
    generalize t.tagsNamed h name = gs at hm
    match gs, hm with
    | [], hm => cases hm
    | [g'], hm => cases hm
    | _ :: _ :: _, ⟨_, hm, _⟩ => cases hm
  | unknown =>
    cases S.brokenOk with
    | true => exact str true _
    | false => exact ⟨_, rfl⟩
  | ambiguous ls =>
    cases S.brokenOk with
    | true => exact str true _
    | false => exact ⟨_, rfl⟩

/-- Parts of contents whose text can be had. -/
def Content.inText (t : Tree) : Content → Prop
  | .ref s _ _ o _ => s ∈ t.ids ∧ o = false
  | .sect _ => False
  | d => d.noHoles = true

theorem body_told (b : Book h t) (ht : ∀ i ∈ t.ids, ∀ g ∈ (h.get i).tags, ∀ n, ∃ x, h.text S.brokenOk n g.title = .ok x)
    {c : Content} : c.isNil = false → (∀ d ∈ c.parts true, d.inText t) → Told S h c := by
  induction c using Content.ind with
  | nil => exact fun hn => by cases hn
  | sect i => exact fun _ hc => (hc (.sect i) (by simp [Content.parts])).elim
  | str | toc | lazy | image | target => exact fun _ _ => told_of (cs := []) (by simp) fun _ _ _ => ⟨_, rfl⟩
  | seq cs ih | para cs ih | pre cs ih | list cs o ih =>
    intro _ hc
    have h0 := hc _ (self_mem _)
    simp only [Content.inText, Content.noHoles, List.all_eq_true, Bool.not_eq_true'] at h0
    exact told_of (cs := cs) (fun c h1 => ih c h1 (h0 c h1) fun d hd => hc d (by
      rw [Content.parts]; exact List.mem_cons_of_mem _ (mem_partsL.2 ⟨c, h1, hd⟩))) fun _ _ hI => Res.map_oks (textL_ok hI)
  | ref s name c o l ih =>
    intro _ hc
    obtain ⟨h1, rfl⟩ := hc (.ref s name c o l) (self_mem _)
    by_cases hn : c.isNil = true
    · cases c with
      | nil => exact ref_told b ht h1 name l
      | _ => cases hn
    · have hn : c.isNil = false := by simpa using hn
      refine told_of (cs := [c]) (by
        intro c' h1
        rw [List.mem_singleton.1 h1]
        exact ih hn fun d hd => hc d (by
          rw [Content.parts]; exact List.mem_cons_of_mem _ (by simpa using hd))) fun R T hI => ?_
      rw [Content.text, hn]
      exact hI c (by simp)
  | styled st k c ps ih ihp =>
    intro _ hc
    have h0 := hc _ (self_mem _)
    simp only [Content.inText, Content.noHoles, Bool.not_eq_true'] at h0
    exact told_of (cs := [c]) (by
      intro c' h1
      rw [List.mem_singleton.1 h1]
      exact ih h0 fun d hd => hc d (by
        rw [Content.parts]; exact List.mem_cons_of_mem _ (List.mem_append_left _ hd))) fun _ _ hI => hI c (by simp)
  | link c u ih | aux c ih =>
    intro _ hc
    have h0 := hc _ (self_mem _)
    simp only [Content.inText, Content.noHoles, Bool.not_eq_true'] at h0
    exact told_of (cs := [c]) (by
      intro c' h1
      rw [List.mem_singleton.1 h1]
      exact ih h0 fun d hd => hc d (by
        rw [Content.parts]; exact List.mem_cons_of_mem _ hd)) fun _ _ hI => hI c (by simp)
  | table rs ih =>
    intro _ hc
    have h0 := hc _ (self_mem _)
    simp only [Content.inText, Content.noHoles, List.all_eq_true, Bool.not_eq_true'] at h0
    refine told_of (cs := rs.flatten) (fun c h1 => ?_) fun R T hI => Res.map_oks ?_
    · obtain ⟨r, hr, h1⟩ := List.mem_flatten.1 h1
      exact ih r hr c h1 (h0 r hr c h1) fun d hd => hc d (by
        rw [Content.parts]; exact List.mem_cons_of_mem _ (mem_partsR.2 ⟨r, hr, c, h1, hd⟩))
    · have hcs : ∀ r ∈ rs, ∀ c ∈ r, ∃ x, c.text R T = .ok x := fun r hr c h1 => hI c (List.mem_flatten.2 ⟨r, hr, h1⟩)
      clear hc ih hI h0
      induction rs with
      | nil => exact ⟨[], rfl⟩
      | cons r rs ih => exact Res.bind_oks (textL_ok (hcs r (by simp))) fun _ => Res.map_oks (ih rfl fun d hc => hcs d (by simp [hc]))
  | defs ds ih =>
    intro _ hc
    have h0 := hc _ (self_mem _)
    simp only [Content.inText, Content.noHoles, List.all_eq_true, Bool.not_eq_true', Bool.and_eq_true] at h0
    refine told_of (cs := ds.flatMap fun d => [d.1, d.2]) (fun c h1 => ?_) fun R T hI => Res.map_oks ?_
    · obtain ⟨x, hx, h1⟩ := List.mem_flatMap.1 h1
      simp only [List.mem_cons, List.not_mem_nil, or_false] at h1
      rcases h1 with rfl | rfl
      · exact (ih x hx).1 (h0 x hx).1 fun d hd => hc d (by
          rw [Content.parts]; exact List.mem_cons_of_mem _ (mem_partsD.2 ⟨x, hx, .inl hd⟩))
      · exact (ih x hx).2 (h0 x hx).2 fun d hd => hc d (by
          rw [Content.parts]; exact List.mem_cons_of_mem _ (mem_partsD.2 ⟨x, hx, .inr hd⟩))
    · have hcs : ∀ x ∈ ds, (∃ y, x.1.text R T = .ok y) ∧ ∃ y, x.2.text R T = .ok y := fun x hx =>
        ⟨hI x.1 (List.mem_flatMap.2 ⟨x, hx, by simp⟩), hI x.2 (List.mem_flatMap.2 ⟨x, hx, by simp⟩)⟩
      clear hc ih hI h0
      induction ds with
      | nil => exact ⟨[], rfl⟩
      | cons d ds ih =>
        obtain ⟨a, z⟩ := d
        have h1 := hcs (a, z) (by simp)
        refine Res.bind_oks ?_ fun _ => Res.bind_oks ?_ fun _ => Res.map_oks (ih rfl fun d hc => hcs d (by simp [hc]))
        · split
          · exact ⟨_, rfl⟩
          · exact h1.1
        · split
          · exact ⟨_, rfl⟩
          · exact h1.2

/-! ### Entries -/

/-- What has to hold for the entries. -/
structure TagsTold (S : Site) (h : Heap) (t : Tree) : Prop where
  owned : ∀ i ∈ t.ids, ∀ g ∈ (h.get i).tags, g.sec = some i
  title : ∀ i ∈ t.ids, ∀ g ∈ (h.get i).tags, Told S h g.title
  content : ∀ i ∈ t.ids, ∀ g ∈ (h.get i).tags, g.content.isNil = false → Told S h g.content
  body : ∀ i ∈ t.ids, Told S h (h.get i).body

theorem depth_at (b : Book h t) {i : Nat} (hi : i ∈ t.ids) : ∃ u, Ends (fun n => h.depth n i) u := by
  obtain ⟨s, ⟨ks, hs⟩, rfl⟩ := mem_ids.1 hi
  exact ⟨_, depth_ends b hs⟩

theorem url_at (b : Book h t) {i : Nat} (hi : i ∈ t.ids) (ext a : Str) : ∃ u, Ends (fun n => h.sectionURL ext n i a) u := by
  obtain ⟨s, ⟨ks, hs⟩, rfl⟩ := mem_ids.1 hi
  obtain ⟨o, h1, h2, h3, -, h5, h6⟩ := owner_ends b hs
  exact ⟨_, url_ends ext a h1 h5⟩

theorem doc_told (b : Book h t) (tt : TagsTold S h t) (ext : Str) {i : Nat} (hi : i ∈ t.ids) {g : Tag} (hg : g ∈ (h.get i).tags) :
    ∃ d N, ∀ n, N ≤ n → h.searchDoc S.brokenOk ext n g = .ok d := by
  obtain ⟨u, N1, h1⟩ := url_at b hi ext g.anchor
  obtain ⟨dp, N2, h2⟩ := depth_at b hi
  obtain ⟨N3, ti, h3⟩ := tt.title i hi g hg
  have h4 : Told S h (if g.content.isNil then (h.get i).body else g.content) := by
    split
    · exact tt.body i hi
    · rename_i e
      exact tt.content i hi g hg (by simpa using e)
  obtain ⟨N4, tx, h4⟩ := h4
  refine ⟨⟨u, ti, tx, dp, (h.get i).primaryTag.name⟩, max (max N1 N2) (max N3 N4), fun n hn => ?_⟩
  rw [Heap.searchDoc, tt.owned i hi g hg]
  have e4 := (heapText_le (show N4 ≤ n by omega) _).ok h4
  have e3 := (heapText_le (show N3 ≤ n by omega) _).ok h3
  have e1 := h1 n (by omega)
  have e2 := h2 n (by omega)
  simp only at e1 e2
  simp only [e4, e3, e1, e2, Res.bind, Res.ofFuel]

theorem tags_told (b : Book h t) (tt : TagsTold S h t) (ext : Str) {i : Nat} (hi : i ∈ t.ids) : ∀ (gs : List Tag),
    (∀ g ∈ gs, g ∈ (h.get i).tags) → ∃ N, ∀ ix, ∃ ix', ∀ n, N ≤ n → h.indexTags S.brokenOk ext n ix gs = .ok ix'
  | [], _ => ⟨0, fun ix => ⟨ix, fun _ _ => rfl⟩⟩
  | g :: gs, hg => by
    obtain ⟨d, N1, h1⟩ := doc_told b tt ext hi (hg g (by simp))
    obtain ⟨N2, h2⟩ := tags_told b tt ext hi gs fun g' h' => hg g' (by simp [h'])
    refine ⟨max N1 N2, fun ix => ?_⟩
    obtain ⟨ix', h2⟩ := h2 (ix.put g.name d)
    refine ⟨ix', fun n hn => ?_⟩
    rw [Heap.indexTags, h1 n (by omega)]
    exact h2 n (by omega)

theorem load_told (b : Book h t) (tt : TagsTold S h t) (ext : Str) {s : Tree} (hs : t.Sub s) :
    ∃ N, ∀ ix, ∃ ix', ∀ n, N ≤ n → ∀ k, N ≤ k → h.loadTags S.brokenOk ext k n ix s.root = .ok ix' := by
  induction s using Tree.ind with
  | h i ks ih =>
    have hid : i ∈ t.ids := mem_ids.2 ⟨_, hs, rfl⟩
    obtain ⟨N1, h1⟩ := tags_told b tt ext hid (h.get i).tags fun _ h => h
    have hch : (h.get i).children = ks.map root := b.children _ hs
    have : ∀ ks' : List Tree, (∀ k ∈ ks', k ∈ ks) → ∃ N, ∀ ix, ∃ ix', ∀ n, N ≤ n → ∀ k, N ≤ k →
        indexLoop (h.loadTags S.brokenOk ext k n) ix (ks'.map root) = .ok ix' := by
      intro ks'
      induction ks' with
      | nil => exact fun _ => ⟨0, fun ix => ⟨ix, fun _ _ _ _ => rfl⟩⟩
      | cons c cs ih' =>
        intro hsub
        obtain ⟨N1, h1⟩ := ih c (hsub c (by simp)) (hs.kid (hsub c (by simp)))
        obtain ⟨N2, h2⟩ := ih' fun c' h' => hsub c' (by simp [h'])
        refine ⟨max N1 N2, fun ix => ?_⟩
        obtain ⟨ix1, h1⟩ := h1 ix
        obtain ⟨ix2, h2⟩ := h2 ix1
        refine ⟨ix2, fun n hn k hk => ?_⟩
        rw [List.map_cons, indexLoop, h1 n (by omega) k (by omega)]
        exact h2 n (by omega) k (by omega)
    obtain ⟨N2, h2⟩ := this ks fun _ h => h
    refine ⟨max N1 N2 + 1, fun ix => ?_⟩
    obtain ⟨ix1, h1⟩ := h1 ix
    obtain ⟨ix2, h2⟩ := h2 ix1
    refine ⟨ix2, fun n hn k hk => ?_⟩
    obtain ⟨n, rfl⟩ : ∃ m, n = m + 1 := ⟨n - 1, by omega⟩
    rw [root, Heap.loadTags, h1 k (by omega), hch]
    exact h2 n (by omega) k (by omega)

theorem index_told (b : Book h t) (tt : TagsTold S h t) (ext : Str) :
    ∃ ix N, ∀ n, N ≤ n → h.searchIndex S.brokenOk ext n t.root = .ok ix := by
  obtain ⟨N, hN⟩ := load_told b tt ext (Sub.refl t)
  obtain ⟨ix, hN⟩ := hN []
  exact ⟨ix, N, fun n hn => hN n hn n hn⟩

/-! ### Loaded documents -/

/-- The contents of tags too come from somewhere. -/
theorem tags_parts {P : Nat → Content → Prop} {W : World} {F : Content → Prop} (hF : W.Makes F) (hfs : W.fs [] = none) {s : St}
    (hr : Reach W s) (hP : ∀ p i c, Origin W F p i c → P i c) (i : Nat) :
    ∀ g ∈ (s.heap.get i).tags, ∀ d ∈ g.content.parts true, P i d := by
  intro g hg d hd
  by_cases hi : i < s.heap.length
  · obtain ⟨p, f⟩ := FileOf.exists hr.sound i hi
    have x := (hr.between hF hfs).heap i p hi f
    exact hP p i d ((x.tags g hg).2.2 d hd)
  · rw [Heap.get_out hi] at hg
    cases hg

theorem books_told (S : Site) (b : Book h t) (owned : ∀ i ∈ t.ids, ∀ g ∈ (h.get i).tags, g.sec = some i)
    (titles : ∀ i ∈ t.ids, ∀ g ∈ (h.get i).tags, ∀ d ∈ g.title.parts true, d.isNil = false ∧ ∀ i, d ≠ .sect i)
    (contents : ∀ i ∈ t.ids, ∀ g ∈ (h.get i).tags, ∀ d ∈ g.content.parts true, d.inText t)
    (bodies : ∀ i ∈ t.ids, (h.get i).body.isNil = false ∧ ∀ d ∈ (h.get i).body.parts true, d.inText t) : TagsTold S h t := by
  have ht : ∀ i ∈ t.ids, ∀ g ∈ (h.get i).tags, ∀ n, ∃ x, h.text S.brokenOk n g.title = .ok x :=
    fun i hi g hg n => plain_told (titles i hi g hg) n
  refine ⟨owned, fun i hi g hg => ?_, fun i hi g hg hn => body_told b ht hn (contents i hi g hg),
    fun i hi => body_told b ht (bodies i hi).1 (bodies i hi).2⟩
  obtain ⟨x, e⟩ := ht i hi g hg 0
  exact ⟨0, x, e⟩

/-- References made by documents are never optional. -/
def Content.needed : Content → Prop
  | .ref _ _ _ o _ => o = false
  | _ => True

theorem Origin.needed {W : World} {F : Content → Prop} (hF : ∀ c, F c → c.simple = true) {p : Str} {i : Nat} {c : Content}
    (o : Origin W F p i c) : c.needed := by
  cases o
  case plugin h =>
    have := hF c h
    cases c with
    | ref => cases this
    | _ => trivial
  case ref => rfl
  all_goals trivial

theorem inText_of {i : Nat} {d : Content} (hi : i ∈ t.ids) (h1 : d.ordinary i) (h2 : d.needed) (h3 : d.noHoles = true) :
    d.inText t := by
  cases d with
  | ref s n c o l => exact ⟨by rw [show s = i from h1]; exact hi, h2⟩
  | sect => exact h1
  | _ => exact h3

/-- A title that is a reference to itself has no text. -/
theorem text_loop {bo : Bool} {s N : Nat} {name : Str} {l0 : Location} {g : Tag} (hr : h.resolve N s name false = some (.tag g))
    (hg : g.title = .ref s name .nil false l0) : ∀ n l x, h.text bo n (.ref s name .nil false l) ≠ .ok x
  | 0, l, x, e => by rw [Heap.text, Content.text] at e; cases e
  | n + 1, l, x, e => by
    rw [Heap.text, Content.text] at e
    simp only [Content.isNil, if_true] at e
    have h1 : ∀ m, N ≤ m → h.refTag m bo s name false l = some (.tag g) := fun m hm =>
      refTag_mono hm (by rw [Heap.refTag, hr]; rfl)
    cases h2 : h.refTag n bo s name false l with
    | none => rw [h2] at e; cases e
    | some r =>
      have h3 := refTag_mono (Nat.le_max_left n N) h2
      rw [h1 _ (Nat.le_max_right n N)] at h3
      cases h3
      rw [h2] at e
      simp only [hg] at e
      exact text_loop hr hg n l0 x e

end

end Booklit
