import Verif.Spec.MsRefs
import Verif.Lemmas.MsSite
import Verif.Lemmas.MsCheck
import Verif.Lemmas.RendersL

/-!
The first reference of a loaded manuscript that cannot be resolved.
-/

namespace Booklit.Ms

open Booklit Booklit.Src

variable {S : Site} {h : Heap} {b : Part} {t : Tree}

/-- A reference that makes rendering fail. -/
def bad (S : Site) (b : Part) (name : Str) : Bool := !S.brokenOk && decide (b.names.count name ≠ 1)

/-- With enough fuel there is one result: it is an error about the first bad name, or there is none. -/
def Fares (S : Site) (b : Part) {α : Type} (F : Nat → Res α) (refs : List Str) : Prop :=
  ∃ N r, (∀ m, N ≤ m → F m = r) ∧ match refs.find? (bad S b) with
    | none => ∃ a, r = .ok a
    | some name => ∃ e, r = .err e ∧ Blames b name e

theorem Fares.const {α : Type} {F : Nat → Res α} {a : α} {N : Nat} (hF : ∀ m, N ≤ m → F m = .ok a) : Fares S b F [] :=
  ⟨N, .ok a, hF, a, rfl⟩

theorem Fares.late {α : Type} {F G : Nat → Res α} {refs : List Str} (hF : Fares S b F refs) (hg : ∃ N, ∀ m, N ≤ m → G (m + 1) = F m) :
    Fares S b G refs := by
  obtain ⟨N, r, h1, h2⟩ := hF
  obtain ⟨M, h3⟩ := hg
  refine ⟨N + M + 1, r, fun m hm => ?_, h2⟩
  obtain ⟨m, rfl⟩ : ∃ k, m = k + 1 := ⟨m - 1, by omega⟩
  rw [h3 m (by omega), h1 m (by omega)]

theorem Fares.as {α : Type} {F G : Nat → Res α} {refs : List Str} (hF : Fares S b F refs) (hg : ∃ N, ∀ m, N ≤ m → G m = F m) :
    Fares S b G refs := by
  obtain ⟨N, r, h1, h2⟩ := hF
  obtain ⟨M, h3⟩ := hg
  exact ⟨N + M, r, fun m hm => by rw [h3 m (by omega), h1 m (by omega)], h2⟩

theorem Fares.map {α β : Type} {F : Nat → Res α} {refs : List Str} (hF : Fares S b F refs) (f : α → β) :
    Fares S b (fun m => (F m).map f) refs := by
  obtain ⟨N, r, h1, h2⟩ := hF
  refine ⟨N, r.map f, fun m hm => by simp only [h1 m hm], ?_⟩
  split at h2
  · obtain ⟨a, rfl⟩ := h2
    exact ⟨_, rfl⟩
  · obtain ⟨e, rfl, he⟩ := h2
    exact ⟨e, rfl, he⟩

theorem Fares.bind {α β : Type} {F : Nat → Res α} {G : α → Nat → Res β} {r1 r2 : List Str} (hF : Fares S b F r1)
    (hG : ∀ a, Fares S b (G a) r2) : Fares S b (fun m => (F m).bind fun a => G a m) (r1 ++ r2) := by
  obtain ⟨N, r, h1, h2⟩ := hF
  cases e : r1.find? (bad S b) with
  | none =>
    rw [e] at h2
    obtain ⟨a, rfl⟩ := h2
    obtain ⟨M, r', h3, h4⟩ := hG a
    refine ⟨N + M, r', fun m hm => ?_, ?_⟩
    · simp only [h1 m (by omega), Res.bind]
      exact h3 m (by omega)
    · rw [List.find?_append, e]
      exact h4
  | some name =>
    rw [e] at h2
    obtain ⟨x, rfl, hx⟩ := h2
    refine ⟨N, .err x, fun m hm => by simp only [h1 m hm, Res.bind], ?_⟩
    rw [List.find?_append, e]
    exact ⟨x, rfl, hx⟩

theorem fares_done {c : Content} (hd : Done S h c) : Fares S b (fun m => h.html S m c) [] := by
  obtain ⟨N, x, e⟩ := hd
  exact .const (N := N) fun m hm => (heapHtml_le hm c).ok e

/-! ### Contents one after the other -/

/-- What rendering goes on with. -/
def inn (S : Site) (h : Heap) : Nat → Inner
  | 0 => ⟨fun _ _ _ _ _ => .more, fun _ => .more, fun _ => .more, fun _ => .more, fun _ => .more⟩
  | n + 1 => ⟨h.refHtml S n (h.html S n), h.sectHtml n (h.html S n), h.tocHtml (h.html S n) n,
      fun i => match S.force i with
        | none => tmplErr
        | some d => h.html S n d,
      h.text S.brokenOk n⟩

theorem html_inn (m : Nat) (c : Content) : h.html S m c = c.html (inn S h m) := by cases m <;> rfl

theorem htmlL_app {I : Inner} (as bs : List Content) : htmlL I (as ++ bs) = (htmlL I as).bind fun x => (htmlL I bs).map (x ++ ·) := by
  induction as with
  | nil =>
    rw [List.nil_append, htmlL]
    show htmlL I bs = (htmlL I bs).map _
    cases htmlL I bs <;> rfl
  | cons a as ih =>
    rw [List.cons_append, htmlL, htmlL, ih]
    cases a.html I with
    | ok x =>
      simp only [Res.bind]
      cases htmlL I as with
      | ok y => simp only [Res.bind, Res.map]; cases htmlL I bs <;> rfl
      | _ => rfl
    | _ => rfl

/-- Contents, one after the other. -/
def FaresL (S : Site) (h : Heap) (b : Part) (cs : List Content) (refs : List Str) : Prop :=
  Fares S b (fun m => htmlL (inn S h m) cs) refs

theorem FaresL.nil : FaresL S h b [] [] := .const (N := 0) fun _ _ => rfl

theorem FaresL.app {as bs : List Content} {r1 r2 : List Str} (ha : FaresL S h b as r1) (hb : FaresL S h b bs r2) :
    FaresL S h b (as ++ bs) (r1 ++ r2) :=
  (Fares.bind ha fun _ => Fares.map hb _).as ⟨0, fun m _ => htmlL_app as bs⟩

theorem FaresL.cons {c : Content} {cs : List Content} {r1 r2 : List Str} (ha : Fares S b (fun m => h.html S m c) r1)
    (hb : FaresL S h b cs r2) : FaresL S h b (c :: cs) (r1 ++ r2) :=
  (Fares.bind ha fun _ => Fares.map hb _).as ⟨0, fun m _ => by rw [htmlL, html_inn]⟩

theorem FaresL.one {c : Content} {r : List Str} (ha : Fares S b (fun m => h.html S m c) r) : FaresL S h b [c] r := by
  have := FaresL.cons ha FaresL.nil
  rwa [List.append_nil] at this

theorem FaresL.strs (ss : List Str) : FaresL S h b (ss.map .str) [] := by
  induction ss with
  | nil => exact .nil
  | cons s ss ih => exact FaresL.cons (r1 := []) (fares_done (done_str s)) ih

theorem FaresL.whole {cs : List Content} {c : Content} {r : List Str} (hw : Whole cs c) (hf : FaresL S h b cs r) :
    Fares S b (fun m => h.html S m c) r := by
  rcases hw with ⟨hn, rfl⟩ | rfl
  · match cs, hn with
    | [c], _ =>
      refine (Fares.map hf List.flatten).as ⟨0, fun m _ => ?_⟩
      show h.html S m c = _
      rw [html_inn, htmlL, htmlL]
      cases c.html (inn S h m) <;> simp [Res.bind, Res.map]
    | a :: b :: r, _ =>
      refine (Fares.map hf List.flatten).as ⟨0, fun m _ => ?_⟩
      rw [html_inn]
      show (Content.seq (a :: b :: r)).html _ = _
      rw [Content.html]
  · exact (Fares.map hf List.flatten).as ⟨0, fun m _ => by rw [html_inn, Content.html]⟩

theorem fares_style {st : Str} (hs : (styling st).isSome = true ∧ st ≠ q%"verbatim" ∧ st ≠ q%"raw-html") {x : Bool} {c : Content}
    {ps : List (Str × Content)} {r : List Str} (hc : Fares S b (fun m => h.html S m c) r) :
    Fares S b (fun m => h.html S m (.styled st x c ps)) r := by
  have : ∃ p, styleTags st = some p := by
    cases e : styleTags st with
    | some p => exact ⟨p, rfl⟩
    | none =>
      have hr := style_reads (st := st) (t := []) (ds := []) .nil
      rw [e, styling_eq] at hr
      cases e2 : styling st with
      | none => rw [e2] at hs; cases hs.1
      | some q => rw [e2] at hr; exact hr.elim
  obtain ⟨⟨a, z⟩, e⟩ := this
  refine (Fares.map hc fun t => a ++ t ++ z).as ⟨0, fun m _ => ?_⟩
  rw [html_inn, Content.html, if_neg hs.2.1, if_neg hs.2.2, e, html_inn]

theorem fares_verbatim {x : Bool} {c : Content} {ps : List (Str × Content)} {r : List Str} (hf : ∃ x, isFlow c = some x)
    (hc : Fares S b (fun m => h.html S m c) r) : Fares S b (fun m => h.html S m (.styled q%"verbatim" x c ps)) r := by
  obtain ⟨f, hf⟩ := hf
  cases x <;> cases f
  · exact (Fares.map hc fun t => q%"<pre>" ++ t ++ q%"</pre>").as ⟨0, fun m _ => by rw [html_inn, Content.html, if_pos rfl, hf, html_inn]; rfl⟩
  · exact (Fares.map hc fun t => q%"<code>" ++ t ++ q%"</code>").as ⟨0, fun m _ => by rw [html_inn, Content.html, if_pos rfl, hf, html_inn]; rfl⟩
  · exact (Fares.map hc fun t => q%"<pre>" ++ t ++ q%"</pre>").as ⟨0, fun m _ => by rw [html_inn, Content.html, if_pos rfl, hf, html_inn]; rfl⟩
  · exact (Fares.map hc fun t => q%"<pre>" ++ t ++ q%"</pre>").as ⟨0, fun m _ => by rw [html_inn, Content.html, if_pos rfl, hf, html_inn]; rfl⟩

/-! ### References -/

theorem filePath_ends {h : Heap} {i : Nat} {p : Str} (f : FileOf h i p) : ∃ N, ∀ n, N ≤ n → h.filePath n i = some p := by
  induction f with
  | own e =>
    refine ⟨1, fun n hn => ?_⟩
    obtain ⟨n, rfl⟩ : ∃ k, n = k + 1 := ⟨n - 1, by omega⟩
    rw [Heap.filePath, if_pos e]
  | up e e' _ ih =>
    obtain ⟨N, ih⟩ := ih
    refine ⟨N + 1, fun n hn => ?_⟩
    obtain ⟨n, rfl⟩ : ∃ k, n = k + 1 := ⟨n - 1, by omega⟩
    rw [Heap.filePath, if_neg (by simp [e]), e']
    exact ih n (by omega)
  | top e e' =>
    refine ⟨1, fun n hn => ?_⟩
    obtain ⟨n, rfl⟩ : ∃ k, n = k + 1 := ⟨n - 1, by omega⟩
    rw [Heap.filePath, if_neg (by simp [e]), e']

theorem Loaded.file (L : Loaded h b t) (hs : Sound h) {i : Nat} (hi : i ∈ t.ids) : ∃ p N, ∀ n, N ≤ n → h.filePath n i = some p := by
  obtain ⟨p, f⟩ := FileOf.exists hs i ((L.ids i).1 hi)
  exact ⟨p, filePath_ends f⟩

theorem places_end {P : Nat → Option Nat × Location → Res (Str × Location)} : ∀ {ls : List (Option Nat × Location)},
    (∀ x ∈ ls, ∃ y N, ∀ n, N ≤ n → P n x = .ok y) → ∃ ds N, ds.length = ls.length ∧ ∀ n, N ≤ n → resMap (P n) ls = .ok ds
  | [], _ => ⟨[], 0, rfl, fun _ _ => rfl⟩
  | x :: ls, hp => by
    obtain ⟨y, N, h1⟩ := hp x List.mem_cons_self
    obtain ⟨ds, M, h2, h3⟩ := places_end fun z hz => hp z (List.mem_cons_of_mem _ hz)
    refine ⟨y :: ds, N + M, by simp [h2], fun n hn => ?_⟩
    rw [resMap, h1 n (by omega), h3 n (by omega)]
    rfl

theorem Loaded.owned (L : Loaded h b t) : ∀ i ∈ t.ids, ∀ g ∈ (h.get i).tags, g.sec = some i := by
  intro i hi g hg
  obtain ⟨s, ks, n, os, o, p, par, hs, rfl, hp, hm⟩ := L.at hi
  exact (hm.inv.2.1.tag_title hg).2.1

/-- A reference: it stands for what has its name, or nothing or several things have it. -/
theorem Loaded.ref (L : Loaded h b t) (hs : Sound h) {i : Nat} (hi : i ∈ t.ids) {name : Str} {l : Location} {c : Content} {refs : List Str}
    (hc : (c.isNil = true ∧ refs = []) ∨ ∃ d, c.isNil = false ∧ stripAux c = some d ∧ Fares S b (fun m => h.html S m d) refs) :
    Fares S b (fun m => h.html S m (.ref i name c false l)) (name :: refs) := by
  have bk := L.made.book L.nodup
  obtain ⟨z, hz, rfl⟩ := Tree.mem_ids.1 hi
  have hcount := tagsNamed_count L.made name
  -- a tag whose title can be shown
  have found : ∀ g : Tag, Ends (fun n => h.refTag n S.brokenOk z.root name false l) (.tag g) → (∃ j ∈ t.ids, g.sec = some j) →
      (∃ d, stripAux g.title = some d ∧ Done S h d) → bad S b name = false → Fares S b (fun m => h.html S m (.ref z.root name c false l)) (name :: refs) := by
    rintro g ⟨N1, h1⟩ ⟨j, hj, hg⟩ ⟨d, h3, h4⟩ hbad
    obtain ⟨u, N2, h2⟩ := url_in bk hj g.anchor
    have hdisp : ∃ d, stripAux (if c.isNil then g.title else c) = some d ∧ Fares S b (fun m => h.html S m d) refs := by
      rcases hc with ⟨e, rfl⟩ | ⟨d', e, e1, e2⟩
      · exact ⟨d, by rw [e, if_pos rfl, h3], fares_done h4⟩
      · exact ⟨d', by rw [e, if_neg (by simp), e1], e2⟩
    obtain ⟨d', e1, e2⟩ := hdisp
    obtain ⟨N, r, k1, k2⟩ := Fares.late (G := fun m => h.html S m (.ref z.root name c false l))
      (Fares.map e2 fun x => q%"<a href=\"" ++ escURL u ++ q%"\">" ++ x ++ q%"</a>") ⟨N1 + N2, fun m hm => by
        have a1 : h.refTag m S.brokenOk z.root name false l = some (.tag g) := h1 m (by omega)
        have a2 : h.sectionURL htmlExt m j g.anchor = some u := h2 m (by omega)
        simp only [Heap.html, Content.html, Heap.refHtml, a1, hg, a2, e1, Res.ofFuel, Res.bind]⟩
    exact ⟨N, r, k1, by rwa [List.find?_cons, hbad]⟩
  -- an error
  have failed : bad S b name = true → ∀ e : Err, Blames b name e → (∃ N, ∀ m, N ≤ m → h.html S (m + 1) (.ref z.root name c false l) = .err e) →
      Fares S b (fun m => h.html S m (.ref z.root name c false l)) (name :: refs) := by
    rintro hbad e he ⟨N, hN⟩
    refine ⟨N + 1, .err e, fun m hm => ?_, by rw [List.find?_cons, hbad]; exact ⟨e, rfl, he⟩⟩
    obtain ⟨m, rfl⟩ : ∃ k, m = k + 1 := ⟨m - 1, by omega⟩
    exact hN m (by omega)
  obtain ⟨r, hr, hm⟩ := Props.C22_references bk z hz name false
  have plain : ∀ {r'}, (∀ n, h.resolve n z.root name false = some r → h.refTag n S.brokenOk z.root name false l = some r') →
      Ends (fun n => h.refTag n S.brokenOk z.root name false l) r' := fun he => hr.congr he
  -- a tag made up for what is broken
  have madeUp : S.brokenOk = true → (r = .unknown ∨ ∃ ls, r = .ambiguous ls) → Fares S b (fun m => h.html S m (.ref z.root name c false l)) (name :: refs) := by
    intro hb hr'
    refine found ⟨name, .str (q%"{broken reference: " ++ name ++ q%"}"), some z.root, q%"broken", .nil, l⟩ (plain fun n e => ?_) ⟨z.root, hi, rfl⟩
      ⟨_, rfl, done_str _⟩ (by simp [bad, hb])
    rw [Heap.refTag, e, hb]
    rcases hr' with rfl | ⟨ls, rfl⟩ <;> rfl
  match hgs : t.tagsNamed h name, hm with
  | [g], hm =>
    subst hm
    rw [hgs] at hcount
    obtain ⟨h1, j, hj, h2⟩ := mem_tagsNamed (hgs ▸ List.mem_singleton.2 rfl : g ∈ t.tagsNamed h name)
    obtain ⟨s, ks, n, os, o, p, par, hs', rfl, hp, hmp⟩ := L.at hj
    exact found g (plain fun n e => by rw [Heap.refTag, e]; rfl) ⟨_, hj, L.owned _ hj _ h2⟩
      (title_shown bk L.owned (hmp.inv.2.1.allTag h2).ok) (by simp [bad, ← hcount])
  | [], hm =>
    subst hm
    rw [hgs] at hcount
    cases hb : S.brokenOk with
    | true => exact madeUp hb (.inl rfl)
    | false =>
      obtain ⟨p, N1, h1⟩ := L.file hs hi
      obtain ⟨ks, ha⟩ := hz
      obtain ⟨gs, ⟨N2, h2⟩, h3⟩ := tagsUp_ends bk (fun _ => true) ha none [] (.inl ⟨rfl, rfl⟩)
      obtain ⟨N3, h4⟩ := plain (r' := .unknown) fun n e => by rw [Heap.refTag, e, hb]; rfl
      refine failed (by simp [bad, hb, ← hcount]) (.unknownTag name (gs.map Tag.name) p l) ⟨rfl, by simp [← hcount], ?_⟩
        ⟨N1 + N2 + N3, fun m hm => ?_⟩
      · rw [List.append_nil] at h3
        have := h3.map Tag.name
        have e : tagsOf h (fun _ => true) t.ids = t.ids.flatMap fun i => (h.get i).tags := by
          have e' : ∀ xs : List Tag, xs.filter (fun _ => true) = xs := fun xs => List.filter_eq_self.2 fun _ _ => rfl
          simp only [tagsOf, e']
        rwa [e, L.made.names] at this
      · have a1 : h.refTag m S.brokenOk z.root name false l = some .unknown := h4 m (by omega)
        have a2 : h.tagsUp (fun _ => true) m none z.root = some gs := h2 m (by omega)
        simp only [Heap.html, Content.html, Heap.refHtml, a1, Heap.unknownTag, h1 m (by omega), a2, Res.ofFuel, Res.bind]
  | g1 :: g2 :: gs, ⟨ls, hm, hperm⟩ =>
    subst hm
    rw [hgs] at hcount
    cases hb : S.brokenOk with
    | true => exact madeUp hb (.inr ⟨ls, rfl⟩)
    | false =>
      obtain ⟨p, N1, h1⟩ := L.file hs hi
      obtain ⟨N3, h4⟩ := plain (r' := .ambiguous ls) fun n e => by rw [Heap.refTag, e, hb]; rfl
      obtain ⟨ds, N2, h2, h3⟩ := places_end (P := fun m x => match x.1 with
          | none => tmplErr
          | some i => (Res.ofFuel (h.filePath m i)).map fun p => (p, x.2)) (ls := ls) fun x hx => by
        have hx := hperm.mem_iff.1 hx
        obtain ⟨g, hg, rfl⟩ := List.mem_map.1 hx
        obtain ⟨-, j, hj, h2⟩ := mem_tagsNamed (hgs ▸ hg : g ∈ t.tagsNamed h name)
        obtain ⟨p, N, hN⟩ := L.file hs hj
        exact ⟨(p, g.loc), N, fun n hn => by simp only [L.owned j hj g h2, hN n hn, Res.ofFuel, Res.map]⟩
      have hl : ds.length = b.names.count name := by rw [h2, hperm.length_eq, List.length_map, hcount]
      refine failed (by simp [bad, hb, ← hcount]) (.ambiguous name ds p l) ⟨rfl, by rw [← hcount]; simp, hl⟩
        ⟨N1 + N2 + N3, fun m hm => ?_⟩
      have a1 : h.refTag m S.brokenOk z.root name false l = some (.ambiguous ls) := h4 m (by omega)
      simp only [Heap.html, Content.html, Heap.refHtml, a1, Heap.ambiguousTag]
      refine (congrArg (fun r => Res.bind r _) (h3 m (by omega))).trans ?_
      simp only [h1 m (by omega), Res.ofFuel, Res.bind]

/-! ### Running text -/

theorem face_style (f : Face) : (styling f.fn).isSome = true ∧ f.fn ≠ q%"verbatim" ∧ f.fn ≠ q%"raw-html" := by cases f <;> decide

mutual
theorem SpanIs.fares (L : Loaded h b t) (hs : Sound h) {i : Nat} (hi : i ∈ t.ids) : ∀ {s : Span} {cs : List Content}, SpanIs i s cs →
    FaresL S h b cs s.refs
  | _, _, .text (ss := ss) _ => .strs ss
  | _, _, .code (ss := ss) hn => .one (fares_verbatim ⟨true, isFlow_oneBody (by simpa using hn) (isFlow_strs _)⟩
      (FaresL.whole (.inl ⟨by simpa using hn, rfl⟩) (.strs ss)))
  | _, _, .styled (f := f) h1 hn => .one (fares_style (face_style f) (FaresL.whole (.inl ⟨hn, rfl⟩) (h1.fares L hs hi)))
  | _, _, .link (url := url) h1 hn => .one (((h1.fares L hs hi).whole (.inl ⟨hn, rfl⟩)).map
      (fun t => q%"<a href=\"" ++ escURL url ++ q%"\">" ++ t ++ q%"</a>") |>.as ⟨0, fun m _ => by rw [html_inn, Content.html, html_inn]⟩)
  | _, _, .ref => .one (L.ref hs hi (.inl ⟨rfl, rfl⟩))
  | _, _, .see (ss := ss) hfull h1 hn => .one (L.ref hs hi (.inr ⟨_, (good_oneBody hn h1.good).notNil, strip_many hn (h1.strips hfull), (h1.fares L hs hi).whole (.inl ⟨hn, rfl⟩)⟩))
  | _, _, .image => .one (fares_done (done_image ..))
  | _, _, .target _ _ _ => .one (fares_done (done_target ..))
  | _, _, .aux h1 hn => .one (((h1.fares L hs hi).whole (.inl ⟨hn, rfl⟩)).as ⟨0, fun m _ => by rw [html_inn, Content.html, html_inn]⟩)
theorem SpansIs.fares (L : Loaded h b t) (hs : Sound h) {i : Nat} (hi : i ∈ t.ids) : ∀ {ss : List Span} {cs : List Content}, SpansIs i ss cs →
    FaresL S h b cs (refsSpans ss)
  | _, _, .nil => .nil
  | _, _, .cons h1 h2 => (h1.fares L hs hi).app (h2.fares L hs hi)
end

theorem LinesIs.fares (L : Loaded h b t) (hs : Sound h) {i : Nat} (hi : i ∈ t.ids) {ls : List (List Span)} {cs : List Content} (hl : LinesIs i ls cs) :
    FaresL S h b cs (ls.flatMap refsSpans) := by
  induction hl with
  | nil => exact .nil
  | cons h1 hn _ ih => exact .cons ((h1.fares L hs hi).whole (.inl ⟨hn, rfl⟩)) ih

theorem GridIs.fares (L : Loaded h b t) (hs : Sound h) {i : Nat} (hi : i ∈ t.ids) {rs : List (List (List Span))} {css : List (List Content)}
    (hl : GridIs i rs css) : Fares S b (fun m => htmlR (inn S h m) css) (rs.flatMap (·.flatMap refsSpans)) := by
  induction hl with
  | nil => exact .const (N := 0) fun _ _ => rfl
  | cons h1 _ ih => exact (Fares.bind (h1.fares L hs hi) fun _ => Fares.map ih _).as ⟨0, fun m _ => by rw [htmlR]⟩

theorem PairsIs.fares (L : Loaded h b t) (hs : Sound h) {i : Nat} (hi : i ∈ t.ids) {ds : List (List Span × List Span)}
    {prs : List (Content × Content)} (hl : PairsIs i ds prs) :
    Fares S b (fun m => htmlD (inn S h m) prs) (ds.flatMap fun d => refsSpans d.1 ++ refsSpans d.2) := by
  induction hl with
  | nil => exact .const (N := 0) fun _ _ => rfl
  | @cons a b ds cs es prs h1 hn h2 hn' _ ih =>
    rw [List.flatMap_cons, List.append_assoc]
    exact (Fares.bind ((h1.fares L hs hi).whole (.inl ⟨hn, rfl⟩)) fun ta => Fares.bind ((h2.fares L hs hi).whole (.inl ⟨hn', rfl⟩)) fun tb =>
      Fares.map ih fun xs => (ta, tb) :: xs).as ⟨0, fun m _ => by rw [htmlD, html_inn, html_inn]⟩

theorem RowsIs.fares {ls : List Str} {cs : List Content} (hl : RowsIs ls cs) : FaresL S h b cs [] := by
  induction hl with
  | nil => exact .nil
  | @cons ss _ _ hn _ ih => exact FaresL.cons (r1 := []) ((FaresL.strs ss).whole (.inl ⟨by simpa using hn, rfl⟩)) ih

/-! ### Blocks -/

theorem Loaded.tocFares (L : Loaded h b t) {i : Nat} (hi : i ∈ t.ids) : Fares S b (fun m => h.html S m (.toc i)) [] := by
  have bk := L.made.book L.nodup
  obtain ⟨s, hs, rfl⟩ := Tree.mem_ids.1 hi
  obtain ⟨N, hN⟩ := toc_done (S := S) bk L.owned (fun i hi => L.titleOk hi) (fun j hj _ => by
    obtain ⟨s', ks', n', os', o', p', par', hs', rfl, hp', hm'⟩ := L.at hj
    obtain ⟨l, e⟩ := hm'.inv.2.1.tag
    rw [e]) hs
  obtain ⟨x, e⟩ := hN N (Nat.le_refl _)
  exact fares_done ⟨N + 1, x, by rw [Heap.html, Content.html]; exact e⟩

theorem pre_flow (cs : List Content) : isFlow (.pre cs) = some false := by rw [isFlow]

mutual
theorem BlkIs.fares (L : Loaded h b t) (hs : Sound h) {i : Nat} (hi : i ∈ t.ids) : ∀ {x : Blk} {c : Content}, BlkIs i x c →
    Fares S b (fun m => h.html S m c) x.refs
  | _, _, .para h1 => (Fares.map (h1.fares L hs hi) fun ts => q%"<p>" ++ joinWith [' '] ts ++ q%"</p>").as
      ⟨0, fun m _ => by rw [html_inn, Content.html]⟩
  | _, _, .code h1 => fares_verbatim ⟨false, pre_flow _⟩ ((Fares.map h1.fares (joinWith ['\n'])).as ⟨0, fun m _ => by rw [html_inn, Content.html]⟩)
  | _, _, .list (o := o) h1 => (Fares.map (h1.fares L hs hi) fun ts =>
      (if o then q%"<ol>" else q%"<ul>") ++ q%"\n" ++ (ts.flatMap fun t => q%"\n  <li>" ++ t ++ q%"</li>\n") ++ q%"\n"
        ++ (if o then q%"</ol>" else q%"</ul>")).as ⟨0, fun m _ => by rw [html_inn, Content.html]⟩
  | _, _, .table h1 => (Fares.map (h1.fares L hs hi) _).as ⟨0, fun m _ => by rw [html_inn, Content.html]⟩
  | _, _, .defs h1 => (Fares.map (h1.fares L hs hi) _).as ⟨0, fun m _ => by rw [html_inn, Content.html]⟩
  | _, _, .box (a := a) h1 hn => fares_style (by cases a <;> decide) ((h1.fares L hs hi).whole (.inl ⟨hn, rfl⟩))
  | _, _, .toc => L.tocFares hi
theorem BlksIs.fares (L : Loaded h b t) (hs : Sound h) {i : Nat} (hi : i ∈ t.ids) : ∀ {xs : List Blk} {cs : List Content}, BlksIs i xs cs →
    FaresL S h b cs (refsBlks xs)
  | _, _, .nil => .nil
  | _, _, .cons h1 h2 => .cons (h1.fares L hs hi) (h2.fares L hs hi)
end

theorem Bodied.fares (L : Loaded h b t) (hs : Sound h) {i : Nat} (hi : i ∈ t.ids) {x : Sec} {p : Part} (hb : Bodied x p i) :
    Fares S b (fun m => h.html S m x.body) (refsBlks p.body) := by
  rcases hb with ⟨e, e'⟩ | ⟨cs, hn, hc, e⟩
  · rw [e, e']
    exact .const (N := 0) (a := []) fun m _ => by rw [html_inn]; rfl
  · rw [e]
    exact (hc.fares L hs hi).whole (.inl ⟨hn, rfl⟩)

/-! ### Sections and pages -/

mutual
theorem Made.fares (L : Loaded h b t) (hs : Sound h) : ∀ (p : Part) {par : Option Nat} {s : Tree}, Made true h par p s → t.Sub s →
    Fares S b (fun m => h.html S m (.sect s.root)) p.shownRefs
  | .mk title tags split hide body subs, par, s, hm, hsub => by
    have bk := L.made.book L.nodup
    have hi : s.root ∈ t.ids := Tree.mem_ids.2 ⟨s, hsub, rfl⟩
    obtain ⟨l, N1, h1⟩ := level_at bk hi
    obtain ⟨w, N2, h2⟩ := number_at bk hi
    have h3 := fares_done (b := b) (title_done (S := S) bk L.owned (L.titleOk hi)).1
    have h4 := hm.inv.2.2.1.fares (S := S) L hs hi
    have h5 : Fares S b _ _ := MadeL.fares L hs subs hm.inv.2.2.2 (fun k hk => hsub.kid hk)
    have num : ∃ x, ∀ m, N2 ≤ m → (if (h.get s.root).parent.isSome then
        (Res.ofFuel (h.number m s.root)).map fun k => q%"<span class=\"section-number\">" ++ escText k ++ q%" </span>" else .ok []) = .ok x := by
      by_cases e : (h.get s.root).parent.isSome = true
      · refine ⟨q%"<span class=\"section-number\">" ++ escText w ++ q%" </span>", fun m hm => ?_⟩
        have : h.number m s.root = some w := h2 m hm
        rw [if_pos e, this]
        rfl
      · exact ⟨[], fun m _ => by rw [if_neg e]⟩
    obtain ⟨num, hnum⟩ := num
    have kids : Fares S b (fun m => if (h.get s.root).split then .ok []
        else (resMap (fun c => h.html S m (.sect c)) (h.get s.root).children).map fun ts =>
          q%"\n  " ++ (ts.flatMap fun t => q%"\n    " ++ t ++ q%"\n  ") ++ q%"\n") (if split then [] else shownRefsParts subs) := by
      rw [hm.inv.2.1.split, hm.inv.2.1.children, show (Part.mk title tags split hide body subs).split = split from rfl]
      cases split with
      | true => exact .const (N := 0) (a := []) fun _ _ => rfl
      | false => exact (Fares.map h5 _).as ⟨0, fun _ _ => rfl⟩
    refine Fares.late (F := fun m => (h.html S m (h.get s.root).title).bind fun title => (h.html S m (h.get s.root).body).bind fun body => _)
      (Fares.bind (r1 := []) h3 fun title => Fares.bind h4 fun body => Fares.map kids fun kids =>
      q%"<h" ++ decimal l ++ q%" class=\"section-header\"><a id=\"" ++ escAttr (h.get s.root).primaryTag.name ++ q%"\"></a>"
      ++ num ++ title ++ q%"</h" ++ decimal l ++ q%">\n\n" ++ body ++ q%"\n\n" ++ kids) ⟨N1 + N2, fun m hm' => ?_⟩
    have a1 : h.headerDepth m s.root = some l := h1 m (by omega)
    show h.sectHtml m (h.html S m) s.root = _
    rw [Heap.sectHtml]
    rw [if_neg (by rw [hm.inv.2.1.style]; simp), a1, hnum m (by omega)]
    rfl
theorem MadeL.fares (L : Loaded h b t) (hs : Sound h) : ∀ (ps : List Part) {par : Option Nat} {kids : List Tree}, MadeL true h par ps kids →
    (∀ k ∈ kids, t.Sub k) → Fares S b (fun m => resMap (fun c => h.html S m (.sect c)) (kids.map Tree.root)) (shownRefsParts ps)
  | [], par, kids, hm, ha => by
    cases hm
    exact .const (N := 0) (a := []) fun _ _ => rfl
  | p :: ps, par, _, .cons (t := c) (ts := cs) h1 h2, ha => by
    exact (Fares.bind (Made.fares L hs p h1 (ha c List.mem_cons_self)) fun _ =>
      Fares.map (MadeL.fares L hs ps h2 fun k hk => ha k (List.mem_cons_of_mem _ hk)) _).as ⟨0, fun m _ => by rw [List.map_cons, resMap]⟩
end

theorem Made.pageFares (L : Loaded h b t) (hs : Sound h) (p : Part) {par : Option Nat} {s : Tree} (hm : Made true h par p s) (hsub : t.Sub s) :
    Fares S b (fun m => h.page S m s.root) p.shownRefs := by
  have e : ∀ m, h.text S.brokenOk m (h.get s.root).title = .ok (plainSpans p.title) := fun m => hm.inv.2.1.text _ m
  refine (Fares.map (Made.fares (S := S) L hs p hm hsub) fun t =>
    q%"<!DOCTYPE html>\n<html>\n  <head>\n    <meta http-equiv=\"content-type\" content=\"text/html; charset=utf-8\" />\n    <title>"
    ++ escText (plainSpans p.title) ++ q%"</title>\n  </head>\n  <body>\n    " ++ t ++ q%"\n  </body>\n</html>").as ⟨0, fun m _ => ?_⟩
  rw [Heap.page, e]
  rfl

theorem All2.app {α β : Type} {R : α → β → Prop} {as as' : List α} {bs bs' : List β} (h1 : All2 R as bs) (h2 : All2 R as' bs') :
    All2 R (as ++ as') (bs ++ bs') := by
  induction h1 with
  | nil => exact h2
  | cons h _ ih => exact .cons h ih

mutual
theorem Made.sitePages (L : Loaded h b t) (hs : Sound h) : ∀ (p : Part) {par : Option Nat} {s : Tree}, Made true h par p s → t.Sub s →
    ∃ rs, All2 (fun q r => Fares S b (fun m => h.page S m q) r) ((s.pages h).map Tree.root) rs ∧ rs.flatten = siteRefsParts p.split p.subs
  | .mk title tags split hide body subs, par, .node i ks, hm, hsub => by
    rw [Tree.pages, show (h.get i).split = split from hm.inv.2.1.split]
    exact MadeL.sitePages L hs split subs hm.inv.2.2.2 fun k hk => hsub.kid hk
theorem MadeL.sitePages (L : Loaded h b t) (hs : Sound h) (sp : Bool) : ∀ (ps : List Part) {par : Option Nat} {kids : List Tree},
    MadeL true h par ps kids → (∀ k ∈ kids, t.Sub k) →
    ∃ rs, All2 (fun q r => Fares S b (fun m => h.page S m q) r) ((Tree.pages.pagesL h sp kids).map Tree.root) rs ∧
      rs.flatten = siteRefsParts sp ps
  | [], par, kids, hm, ha => by
    cases hm
    exact ⟨[], .nil, rfl⟩
  | .mk title tags split hide body subs :: ps, par, _, .cons (t := c) (ts := cs) h1 h2, ha => by
    have hc := ha c List.mem_cons_self
    obtain ⟨rs1, a1, a2⟩ := Made.sitePages L hs _ h1 hc
    obtain ⟨rs2, a3, a4⟩ := MadeL.sitePages L hs sp ps h2 fun k hk => ha k (List.mem_cons_of_mem _ hk)
    rw [Tree.pages.pagesL, List.map_append, List.map_append, siteRefsParts, Part.siteRefs]
    cases sp with
    | true =>
      refine ⟨_ :: (rs1 ++ rs2), .cons (Made.pageFares L hs _ h1 hc) (All2.app a1 a3), ?_⟩
      rw [List.flatten_cons, List.flatten_append, a2, a4, List.append_assoc]
      rfl
    | false =>
      refine ⟨rs1 ++ rs2, All2.app a1 a3, ?_⟩
      rw [List.flatten_append, a2, a4]
      rfl
end

theorem Loaded.sitePages (L : Loaded h b t) (hs : Sound h) {ps : List Nat} (hps : Ends (fun n => h.written n t.root) ps) :
    ∃ rs, All2 (fun q r => Fares S b (fun m => h.page S m q) r) ps rs ∧ rs.flatten = b.siteRefs true := by
  have bk := L.made.book L.nodup
  have e := (written_ends bk t (.refl t)).unique hps
  have hp : h.isPage t.root = true := by rw [Heap.isPage, bk.top]
  rw [hp, if_pos rfl] at e
  subst e
  obtain ⟨rs, h1, h2⟩ := Made.sitePages (S := S) L hs b L.made (.refl t)
  refine ⟨_ :: rs, .cons (Made.pageFares L hs _ L.made (.refl t)) h1, ?_⟩
  rw [List.flatten_cons, h2]
  cases b
  rfl

/-! ### All references -/

mutual
/-- The names in a section and below. -/
def Part.allRefs : Part → List Str
  | .mk _ _ _ _ body subs => refsBlks body ++ allRefsParts subs
def allRefsParts : List Part → List Str
  | [] => []
  | p :: ps => p.allRefs ++ allRefsParts ps
end

mutual
theorem Part.shown_or (x : Str) : ∀ p : Part, x ∈ p.allRefs ↔ x ∈ p.shownRefs ∨ x ∈ p.siteRefs false
  | .mk title tags split hide body subs => by
    have e : (Part.mk title tags split hide body subs).siteRefs false = siteRefsParts split subs := by rw [Part.siteRefs]; rfl
    rw [e, Part.allRefs, Part.shownRefs, List.mem_append, List.mem_append]
    cases split with
    | true =>
      rw [parts_true x subs]
      simp
    | false =>
      rw [parts_false x subs]
      simp [or_assoc]
theorem parts_true (x : Str) : ∀ ps : List Part, x ∈ allRefsParts ps ↔ x ∈ siteRefsParts true ps
  | [] => Iff.rfl
  | .mk title tags split hide body subs :: ps => by
    have := Part.shown_or x (.mk title tags split hide body subs)
    rw [allRefsParts, siteRefsParts, List.mem_append, List.mem_append, parts_true x ps, this]
    rw [Part.siteRefs, if_neg (by simp), List.nil_append, Part.siteRefs, if_pos rfl, List.mem_append]
theorem parts_false (x : Str) : ∀ ps : List Part, x ∈ allRefsParts ps ↔ x ∈ shownRefsParts ps ∨ x ∈ siteRefsParts false ps
  | [] => by simp [allRefsParts, shownRefsParts, siteRefsParts]
  | p :: ps => by
    rw [allRefsParts, siteRefsParts, shownRefsParts, List.mem_append, List.mem_append, List.mem_append, parts_false x ps, Part.shown_or x p]
    constructor
    · rintro ((h | h) | h | h)
      · exact .inl (.inl h)
      · exact .inr (.inl h)
      · exact .inl (.inr h)
      · exact .inr (.inr h)
    · rintro ((h | h) | h | h)
      · exact .inl (.inl h)
      · exact .inr (.inl h)
      · exact .inl (.inr h)
      · exact .inr (.inr h)
end

theorem site_all (x : Str) (b : Part) : x ∈ b.siteRefs true ↔ x ∈ b.allRefs := by
  have := Part.shown_or x b
  cases b with
  | mk title tags split hide body subs =>
    rw [this, Part.siteRefs, if_pos rfl, List.mem_append, Part.siteRefs, if_neg (by simp), List.nil_append]

theorem mem_allParts {x : Str} {ps : List Part} : x ∈ allRefsParts ps ↔ ∃ (k : Nat) (q : Part), ps[k]? = some q ∧ x ∈ q.allRefs := by
  induction ps with
  | nil => simp [allRefsParts]
  | cons p ps ih =>
    rw [allRefsParts, List.mem_append, ih]
    constructor
    · rintro (h | ⟨k, q, h1, h2⟩)
      · exact ⟨0, p, rfl, h⟩
      · exact ⟨k + 1, q, h1, h2⟩
    · rintro ⟨k, q, h1, h2⟩
      cases k with
      | zero => cases h1; exact .inl h2
      | succ k => exact .inr ⟨k, q, h1, h2⟩

theorem place_refs {ks os : List Nat} {n : Nat} {o p : Part} (hp : Place b ks n os o p) : ∀ x ∈ p.allRefs, x ∈ b.allRefs := by
  have sub : ∀ {p q : Part} {k : Nat}, p.subs[k]? = some q → ∀ x ∈ q.allRefs, x ∈ p.allRefs := by
    intro p q k e x hx
    cases p
    rw [Part.allRefs, List.mem_append]
    exact .inr (mem_allParts.2 ⟨k, q, e, hx⟩)
  induction hp with
  | top => exact fun x h => h
  | page _ _ e ih => exact fun x h => ih x (sub e x h)
  | same _ _ e ih => exact fun x h => ih x (sub e x h)

mutual
theorem refs_place : ∀ (p : Part) {ks os : List Nat} {n : Nat} {o : Part}, Place b ks n os o p → ∀ {x : Str}, x ∈ p.allRefs →
    ∃ ks n os o q, Place b ks n os o q ∧ x ∈ refsBlks q.body
  | .mk title tags split hide body subs, ks, os, n, o, hp, x, hx => by
    rw [Part.allRefs, List.mem_append] at hx
    rcases hx with hx | hx
    · exact ⟨_, _, _, _, _, hp, hx⟩
    · exact refs_places subs (fun j q hq => ⟨_, kids_place hp j q hq⟩) hx
theorem refs_places : ∀ (ps : List Part), (∀ (j : Nat) q, ps[j]? = some q → ∃ ks n os o, Place b ks n os o q) → ∀ {x : Str},
    x ∈ allRefsParts ps → ∃ ks n os o q, Place b ks n os o q ∧ x ∈ refsBlks q.body
  | [], _, x, hx => by cases hx
  | p :: ps, hp, x, hx => by
    rw [allRefsParts, List.mem_append] at hx
    rcases hx with hx | hx
    · obtain ⟨ks, n, os, o, h1⟩ := hp 0 p rfl
      exact refs_place p h1 hx
    · exact refs_places ps (fun j q hq => hp (j + 1) q hq) hx
end

/-- The references are in order if none is the first that is not. -/
theorem broken_iff (b : Part) : b.broken = none ↔ RefsOk b := by
  rw [Part.broken, List.find?_eq_none]
  constructor
  · intro h ks n os o p hp x hx
    have : x ∈ p.allRefs := by cases p; exact List.mem_append_left _ hx
    simpa using h x ((site_all x b).2 (place_refs hp x this))
  · intro h x hx
    obtain ⟨ks, n, os, o, q, h1, h2⟩ := refs_place b .top ((site_all x b).1 hx)
    simpa using h ks n os o q h1 x h2

end Booklit.Ms
