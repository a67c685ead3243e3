import Verif.Spec.MsLetters
import Verif.Lemmas.MsRefsL
import Verif.Lemmas.TextEngineL

/-!
The letters that a loaded manuscript is rendered to.
-/

set_option linter.unusedSectionVars false

namespace Booklit.Ms

open Booklit Booklit.Src

variable {S : Site} {h : Heap} {b : Part} {t : Tree}

/-! ### Escaping -/

theorem escText_append (a b : Str) : escText (a ++ b) = escText a ++ escText b := by
  rw [escText, escText, escText, List.flatMap_append]

theorem escText_flatten (ss : List Str) : escText ss.flatten = (ss.map escText).flatten := by
  induction ss with
  | nil => rfl
  | cons s ss ih => rw [List.flatten_cons, escText_append, ih, List.map_cons, List.flatten_cons]

theorem escText_same {s : Str} (hs : ∀ c ∈ s, escChar c = [c]) : escText s = s := by
  induction s with
  | nil => rfl
  | cons c s ih =>
    rw [escText, List.flatMap_cons, hs c List.mem_cons_self]
    exact congrArg (c :: ·) (ih fun d hd => hs d (List.mem_cons_of_mem _ hd))

theorem escChar_digit {c : Char} (hc : c.isDigit = true) : escChar c = [c] := by
  have hn : ∀ d : Char, d.isDigit = false → c ≠ d := fun d hd e => by rw [e, hd] at hc; cases hc
  unfold escChar
  rw [if_neg (hn _ (by decide)), if_neg (hn _ (by decide)), if_neg (hn _ (by decide)), if_neg (hn _ (by decide)), if_neg (hn _ (by decide)),
    if_neg (hn _ (by decide)), if_neg (hn _ (by decide))]

theorem escText_dotted : ∀ ns : List Nat, escText (dotted ns) = dotted ns
  | [] => rfl
  | [n] => escText_same fun c hc => escChar_digit (Nat.isDigit_of_mem_toDigits (by decide) (by decide) hc)
  | n :: m :: r => by
    have ih := escText_dotted (m :: r)
    rw [dotted, escText_append, escText_same fun c hc => escChar_digit (Nat.isDigit_of_mem_toDigits (by decide) (by decide) hc)]
    refine congrArg (Nat.toDigits 10 n ++ ·) ?_
    show escChar '.' ++ escText (dotted (m :: r)) = _
    rw [ih]
    rfl

theorem escText_numeral (ks : List Nat) : escText (numeral ks) = numeral ks := escText_dotted _

/-! ### Results -/

/-- With enough fuel there is this result. -/
def Gives {α : Type} (F : Nat → Res α) (x : α) : Prop := ∃ N, ∀ m, N ≤ m → F m = .ok x

theorem Gives.late {α : Type} {F G : Nat → Res α} {x : α} (hF : Gives F x) (hg : ∃ N, ∀ m, N ≤ m → G (m + 1) = F m) : Gives G x := by
  obtain ⟨N, h1⟩ := hF
  obtain ⟨M, h3⟩ := hg
  refine ⟨N + M + 1, fun m hm => ?_⟩
  obtain ⟨m, rfl⟩ : ∃ k, m = k + 1 := ⟨m - 1, by omega⟩
  rw [h3 m (by omega), h1 m (by omega)]

theorem Gives.as {α : Type} {F G : Nat → Res α} {x : α} (hF : Gives F x) (hg : ∃ N, ∀ m, N ≤ m → G m = F m) : Gives G x := by
  obtain ⟨N, h1⟩ := hF
  obtain ⟨M, h3⟩ := hg
  exact ⟨N + M, fun m hm => by rw [h3 m (by omega), h1 m (by omega)]⟩

theorem Gives.map {α β : Type} {F : Nat → Res α} {x : α} (hF : Gives F x) (f : α → β) : Gives (fun m => (F m).map f) (f x) := by
  obtain ⟨N, h1⟩ := hF
  exact ⟨N, fun m hm => by simp only [h1 m hm, Res.map]⟩

theorem Gives.bind {α β : Type} {F : Nat → Res α} {x : α} (hF : Gives F x) {G : Nat → α → Res β} {y : β} (hG : Gives (fun m => G m x) y) :
    Gives (fun m => (F m).bind (G m)) y := by
  obtain ⟨N, h1⟩ := hF
  obtain ⟨M, h2⟩ := hG
  exact ⟨N + M, fun m hm => by simp only [h1 m (by omega), Res.bind]; exact h2 m (by omega)⟩

theorem Gives.ok {α : Type} (x : α) : Gives (fun _ => Res.ok x) x := ⟨0, fun _ _ => rfl⟩

/-- Contents one after the other. -/
def GivesL (S : Site) (h : Heap) (cs : List Content) (x : Str) : Prop :=
  ∃ ts, Gives (fun m => htmlL (inn S h m) cs) ts ∧ ts.flatten = x

theorem GivesL.nil : GivesL S h [] [] := ⟨[], ⟨0, fun _ _ => rfl⟩, rfl⟩

theorem GivesL.app {as bs : List Content} {x y : Str} (ha : GivesL S h as x) (hb : GivesL S h bs y) : GivesL S h (as ++ bs) (x ++ y) := by
  obtain ⟨ts, h1, rfl⟩ := ha
  obtain ⟨us, h2, rfl⟩ := hb
  exact ⟨ts ++ us, (Gives.bind h1 (h2.map (ts ++ ·))).as ⟨0, fun m _ => htmlL_app as bs⟩, List.flatten_append⟩

theorem gives_cons {c : Content} {cs : List Content} {x : Str} {ts : List Str} (ha : Gives (fun m => h.html S m c) x)
    (hb : Gives (fun m => htmlL (inn S h m) cs) ts) : Gives (fun m => htmlL (inn S h m) (c :: cs)) (x :: ts) :=
  (Gives.bind ha (hb.map (x :: ·))).as ⟨0, fun m _ => by rw [htmlL, html_inn]⟩

theorem GivesL.cons {c : Content} {cs : List Content} {x y : Str} (ha : Gives (fun m => h.html S m c) x) (hb : GivesL S h cs y) :
    GivesL S h (c :: cs) (x ++ y) := by
  obtain ⟨ts, h1, rfl⟩ := hb
  exact ⟨x :: ts, gives_cons ha h1, rfl⟩

theorem GivesL.one {c : Content} {x : Str} (ha : Gives (fun m => h.html S m c) x) : GivesL S h [c] x := by
  have := GivesL.cons ha GivesL.nil
  rwa [List.append_nil] at this

theorem gives_str (s : Str) : Gives (fun m => h.html S m (.str s)) (escText s) :=
  (Gives.ok (escText s)).as ⟨0, fun m _ => by rw [html_inn, Content.html]⟩

theorem GivesL.strs (ss : List Str) : GivesL S h (ss.map .str) (escText ss.flatten) := by
  induction ss with
  | nil => exact .nil
  | cons s ss ih =>
    rw [List.flatten_cons, escText_append]
    exact GivesL.cons (gives_str s) ih

theorem GivesL.whole {cs : List Content} {c : Content} {x : Str} (hw : Whole cs c) (hf : GivesL S h cs x) :
    Gives (fun m => h.html S m c) x := by
  obtain ⟨ts, hf, rfl⟩ := hf
  rcases hw with ⟨hn, rfl⟩ | rfl
  · match cs, hn with
    | [c], _ =>
      refine (Gives.map hf List.flatten).as ⟨0, fun m _ => ?_⟩
      show h.html S m c = _
      rw [html_inn, htmlL, htmlL]
      cases c.html (inn S h m) <;> simp [Res.bind, Res.map]
    | a :: b :: r, _ =>
      refine (Gives.map hf List.flatten).as ⟨0, fun m _ => ?_⟩
      rw [html_inn]
      show (Content.seq (a :: b :: r)).html _ = _
      rw [Content.html]
  · exact (Gives.map hf List.flatten).as ⟨0, fun m _ => by rw [html_inn, Content.html]⟩

theorem gives_style {st : Str} {a z : Str} (e : styleTags st = some (a, z)) (hs : st ≠ q%"verbatim" ∧ st ≠ q%"raw-html") {c : Content} {x : Str}
    (hc : Gives (fun m => h.html S m c) x) : Gives (fun m => h.html S m (.styled st false c [])) (a ++ x ++ z) :=
  (Gives.map hc fun t => a ++ t ++ z).as ⟨0, fun m _ => by rw [html_inn, Content.html, if_neg hs.1, if_neg hs.2, e, html_inn]⟩

theorem gives_face (f : Face) {c : Content} {x : Str} (hc : Gives (fun m => h.html S m c) x) :
    Gives (fun m => h.html S m (.styled f.fn false c [])) (f.around.1 ++ x ++ f.around.2) :=
  gives_style (by cases f <;> decide) (by cases f <;> decide) hc

theorem gives_code {c : Content} {x : Str} (hf : isFlow c = some true) (hc : Gives (fun m => h.html S m c) x) :
    Gives (fun m => h.html S m (.styled q%"verbatim" false c [])) (q%"<code>" ++ x ++ q%"</code>") :=
  (Gives.map hc fun t => q%"<code>" ++ t ++ q%"</code>").as ⟨0, fun m _ => by rw [html_inn, Content.html, if_pos rfl, hf, html_inn]; rfl⟩

theorem gives_pre {c : Content} {x : Str} (hf : isFlow c = some false) (hc : Gives (fun m => h.html S m c) x) :
    Gives (fun m => h.html S m (.styled q%"verbatim" false c [])) (q%"<pre>" ++ x ++ q%"</pre>") :=
  (Gives.map hc fun t => q%"<pre>" ++ t ++ q%"</pre>").as ⟨0, fun m _ => by rw [html_inn, Content.html, if_pos rfl, hf, html_inn]; rfl⟩

theorem gives_link {c : Content} {x u : Str} (hc : Gives (fun m => h.html S m c) x) :
    Gives (fun m => h.html S m (.link c u)) (hyper u x) :=
  (Gives.map hc fun t => q%"<a href=\"" ++ escURL u ++ q%"\">" ++ t ++ q%"</a>").as ⟨0, fun m _ => by rw [html_inn, Content.html, html_inn]⟩

theorem gives_image {path alt : Str} : Gives (fun m => h.html S m (.image path alt))
    (q%"<img src=\"" ++ escURL path ++ q%"\" alt=\"" ++ escAttr alt ++ q%"\" />") := (Gives.ok _).as ⟨0, fun m _ => by rw [html_inn, Content.html]⟩

theorem gives_aux {c : Content} {x : Str} (hc : Gives (fun m => h.html S m c) x) : Gives (fun m => h.html S m (.aux c)) x :=
  hc.as ⟨0, fun m _ => by rw [html_inn, Content.html, html_inn]⟩

/-! ### Titles -/

theorem flow_whole {ss : List Str} {c : Content} (hw : Whole (ss.map .str) c) : isFlow c = some true := by
  rcases hw with ⟨hn, rfl⟩ | rfl
  · exact isFlow_oneBody hn (isFlow_strs _)
  · rw [isFlow]
    exact isFlow_strs _

mutual
theorem TitleIs.gives (r : Str → Str × Str) : ∀ {s : Span} {cs : List Content}, TitleIs s cs → GivesL S h cs (s.web r)
  | _, _, .text (ss := ss) _ => .strs ss
  | _, _, .code (ss := ss) hw => .one (gives_code (flow_whole hw) ((GivesL.strs ss).whole hw))
  | _, _, .styled (f := f) h1 hw => .one (gives_face f ((h1.gives r).whole hw))
  | _, _, .image => .one gives_image
  | _, _, .aux h1 hn => .one (gives_aux ((h1.gives r).whole (.inl ⟨hn, rfl⟩)))
theorem TitlesIs.gives (r : Str → Str × Str) : ∀ {ss : List Span} {cs : List Content}, TitlesIs ss cs → GivesL S h cs (webSpans r ss)
  | _, _, .nil => .nil
  | _, _, .cons h1 h2 => (h1.gives r).app (h2.gives r)
end

theorem Headed.gives {title : List Span} {c : Content} (hh : Headed title c) : Gives (fun m => h.html S m c) (webTitle title) := by
  obtain ⟨-, -, cs, hn, ht, rfl⟩ := hh
  exact (ht.gives _).whole (.inl ⟨hn, rfl⟩)

/-- What is shown of a title elsewhere. -/
theorem Headed.shown {title : List Span} {c : Content} (hh : Headed title c) :
    ∃ d, stripAux c = some d ∧ Gives (fun m => h.html S m d) (webTitle (essence title)) := by
  obtain ⟨d, ds, h1, h2, h3⟩ := hh.strip
  exact ⟨d, h1, (h2.gives _).whole h3⟩

/-! ### Where names lead to -/

mutual
theorem Part.aims_names : ∀ (p : Part) (top : Bool) (page : Str), (p.aims top page).map (·.1) = p.names
  | .mk title tags split hide body subs, top, page => by
    rw [Part.aims, Part.names, List.map_append, List.map_append, aimsParts_names subs]
    simp [Function.comp_def]
theorem aimsParts_names : ∀ (ps : List Part) (split : Bool) (page : Str), (aimsParts split page ps).map (·.1) = namesParts ps
  | [], _, _ => rfl
  | p :: ps, split, page => by rw [aimsParts, namesParts, List.map_append, Part.aims_names p, aimsParts_names ps]
end

theorem url_on (ks os : List Nat) (o p : Part) : url ks os o p = urlOn (decide (os = ks)) o.name p.name := by
  rw [url, urlOn]
  by_cases e : os = ks <;> cases hn : p.name <;> simp [e]

mutual
theorem Part.mem_aims : ∀ (p : Part) {ks os : List Nat} {n : Nat} {o : Part}, Place b ks n os o p → ∀ {a : Str × Str × List Span},
    a ∈ p.aims (decide (os = ks)) o.name → ∃ ks q, Aim b a.1 ks q a.2.1 a.2.2
  | .mk title tags split hide body subs, ks, os, n, o, hp, a, ha => by
    rw [Part.aims, List.mem_append, List.mem_append] at ha
    rcases ha with (ha | ha) | ha
    · obtain ⟨g, hg, rfl⟩ := List.mem_map.1 ha
      have := url_on ks os o (.mk title tags split hide body subs)
      exact ⟨ks, .mk title tags split hide body subs, by
        show Aim b g ks _ (urlOn (decide (os = ks)) o.name (Part.mk title tags split hide body subs).name) title
        rw [← this]
        exact .sect hp hg⟩
    · obtain ⟨m, hm, rfl⟩ := List.mem_map.1 ha
      exact ⟨ks, _, .target hp hm⟩
    · exact mem_aimsParts subs (k := 0) hp (fun j q hq => by rw [Nat.zero_add]; exact hq) ha
theorem mem_aimsParts : ∀ (qs : List Part) {ks os : List Nat} {k n : Nat} {o : Part} {title : List Span} {tags : List Str} {split hide : Bool}
    {body : List Blk} {subs : List Part}, Place b ks n os o (.mk title tags split hide body subs) → (∀ j q, qs[j]? = some q → subs[k + j]? = some q) →
    ∀ {a : Str × Str × List Span}, a ∈ aimsParts split o.name qs → ∃ ks q, Aim b a.1 ks q a.2.1 a.2.2
  | [], _, _, _, _, _, _, _, _, _, _, _, _, _, a, ha => by cases ha
  | q :: qs, ks, os, k, n, o, title, tags, split, hide, body, subs, hp, hk, a, ha => by
    have h0 : subs[k]? = some q := hk 0 q rfl
    rw [aimsParts, List.mem_append] at ha
    rcases ha with ha | ha
    · cases split with
      | true =>
        have hq := Place.page hp rfl h0
        exact Part.mem_aims q hq (by rw [decide_eq_true rfl]; exact ha)
      | false =>
        have hq := Place.same hp rfl h0
        have hne : ¬ os = ks ++ [k] := fun e => by
          have := place_le hp
          rw [e, List.length_append, List.length_singleton] at this
          omega
        exact Part.mem_aims q hq (by rw [decide_eq_false hne]; exact ha)
    · exact mem_aimsParts qs hp (fun j r hr => by have := hk (j + 1) r hr; rwa [show k + 1 + j = k + (j + 1) by omega]) ha
end

theorem mem_all2_left {α β : Type} {R : α → β → Prop} {as : List α} {bs : List β} (h : All2 R as bs) {x : α} (hx : x ∈ as) : ∃ y ∈ bs, R x y := by
  induction h with
  | nil => cases hx
  | cons h1 _ ih =>
    rcases List.mem_cons.1 hx with rfl | hx
    · exact ⟨_, List.mem_cons_self, h1⟩
    · obtain ⟨y, hy, h2⟩ := ih hx
      exact ⟨y, List.mem_cons_of_mem _ hy, h2⟩

/-- What has a name has a tag. -/
theorem Aim.tag (L : Loaded h b t) {name : Str} {ks : List Nat} {p : Part} {u : Str} {title : List Span} (ha : Aim b name ks p u title) :
    ∃ g ∈ t.tagsNamed h name, Headed title g.title ∧ Address h g u := by
  have named : ∀ {s : Tree} {g : Tag}, t.At ks s → g ∈ (h.get s.root).tags → g.name = name → g ∈ t.tagsNamed h name := by
    intro s g hs hg hn
    rw [Tree.tagsNamed, List.mem_flatMap]
    exact ⟨s.root, Tree.mem_ids.2 ⟨s, ⟨ks, hs⟩, rfl⟩, List.mem_filter.2 ⟨hg, by simpa using hn⟩⟩
  cases ha with
  | @sect _ os n o _ _ hp hn =>
    obtain ⟨s, so, par, par', a1, a2, a3, a4, a5, a6⟩ := place_at L.made hp
    obtain ⟨l, gs, e, -⟩ := a2.inv.2.1.tags
    have hg : (⟨name, (h.get s.root).title, some s.root, [], .nil, l⟩ : Tag) ∈ (h.get s.root).tags := by
      rw [e]
      exact List.mem_append_left _ (List.mem_map.2 ⟨name, hn, rfl⟩)
    refine ⟨_, named a1 hg rfl, a2.inv.2.1.headed, ?_⟩
    have : Address h ⟨name, (h.get s.root).title, some s.root, [], .nil, l⟩ _ := ⟨_, _, rfl, a5, rfl⟩
    have e2 := address_url L hp a1 rfl rfl this
    rwa [e2] at this
  | @target _ os n o _ _ title hp hm =>
    obtain ⟨s, so, par, par', a1, a2, a3, a4, a5, a6⟩ := place_at L.made hp
    obtain ⟨l, gs, e, hgs⟩ := a2.inv.2.1.tags
    obtain ⟨g, hg, ss, l', h1, h2, h3, rfl⟩ := mem_all2_left hgs hm
    obtain ⟨l2, e2⟩ := a4.inv.2.1.tag
    refine ⟨_, named a1 (by rw [e]; exact List.mem_append_right _ hg) rfl, ?_, _, _, rfl, a5, ?_⟩
    · have h3 : ss.flatten = title := h3
      rw [← h3]
      exact headed_strs h2
    · rw [e2, if_pos h1]
      simp

/-- What a name that is given once stands for. -/
theorem refTo_sole (L : Loaded h b t) {name : Str} (hu : Sole b name) (page : Str) : ∃ g u title, t.tagsNamed h name = [g] ∧
    Headed title g.title ∧ Address h g u ∧ refTo b page name = (u, webTitle (essence title)) := by
  have hl : ((b.aims true b.name).filter fun a => a.1 = name).length = 1 := by
    rw [← hu, ← Part.aims_names b true b.name, List.count, List.countP_map, List.countP_eq_length_filter]
    congr 2
    funext a
    by_cases e : a.1 = name <;> simp [e]
  obtain ⟨a, ha⟩ := List.length_eq_one_iff.1 hl
  have hm := List.mem_filter.1 (ha ▸ List.mem_singleton.2 rfl : a ∈ (b.aims true b.name).filter fun a => a.1 = name)
  have e : a.1 = name := by simpa using hm.2
  obtain ⟨ks, p, haim⟩ := Part.mem_aims b (.top : Place b [] 1 [] b b) (a := a) hm.1
  rw [e] at haim
  obtain ⟨g, hg, h1, h2⟩ := haim.tag L
  have hc := tagsNamed_count L.made name
  rw [hu] at hc
  obtain ⟨g', hg'⟩ := List.length_eq_one_iff.1 hc
  rw [hg', List.mem_singleton] at hg
  subst hg
  exact ⟨g, a.2.1, a.2.2, hg', h1, h2, by rw [refTo, ha]⟩

/-- What a name stands for that is not given once. -/
theorem refTo_broken {name : Str} (hu : ¬ Sole b name) (page : Str) :
    refTo b page name = (page ++ q%".html#broken", escText (q%"{broken reference: " ++ name ++ q%"}")) := by
  have hl : ((b.aims true b.name).filter fun a => a.1 = name).length = b.names.count name := by
    rw [← Part.aims_names b true b.name, List.count, List.countP_map, List.countP_eq_length_filter]
    congr 2
    funext a
    by_cases e : a.1 = name <;> simp [e]
  rw [refTo]
  split
  · rename_i a ha
    rw [ha] at hl
    exact absurd hl.symm hu
  · rfl

/-! ### References -/

/-- The URL of what is in a section of the book. -/
theorem Loaded.urlAt (L : Loaded h b t) {ks os : List Nat} {n : Nat} {o p : Part} (hp : Place b ks n os o p) {s : Tree} (ha : t.At ks s) {g : Tag}
    (hg : g.sec = some s.root) {u : Str} (hu : Address h g u) : Ends (fun n => h.sectionURL htmlExt n s.root g.anchor) u := by
  have bk := L.made.book L.nodup
  obtain ⟨v, hv⟩ := url_in bk (Tree.mem_ids.2 ⟨s, ⟨ks, ha⟩, rfl⟩) g.anchor
  obtain ⟨N, hN⟩ := hv
  have : Address h g v := sectionURL_address hg (hN N (Nat.le_refl _))
  obtain ⟨i, j, e1, e2, e3⟩ := hu
  obtain ⟨i', j', e1', e2', e3'⟩ := this
  rw [e1] at e1'
  cases e1'
  obtain rfl := e2.unique e2'
  rw [e3, ← e3']
  exact ⟨N, hN⟩

theorem Loaded.link (L : Loaded h b t) {ks os : List Nat} {n : Nat} {o p : Part} (hp : Place b ks n os o p) {z : Tree} (ha : t.At ks z)
    {name : Str} (hr : S.brokenOk = true ∨ Sole b name) {l : Location} {c : Content} {x : Str}
    (hc : (c.isNil = true ∧ x = (refTo b o.name name).2) ∨ ∃ d, c.isNil = false ∧ stripAux c = some d ∧ Gives (fun m => h.html S m d) x) :
    Gives (fun m => h.html S m (.ref z.root name c false l)) (hyper (refTo b o.name name).1 x) := by
  have bk := L.made.book L.nodup
  have hz : t.Sub z := ⟨ks, ha⟩
  have hcount := tagsNamed_count L.made name
  obtain ⟨r, hres, hm⟩ := Props.C22_references bk z hz name false
  have found : ∀ (g : Tag) (j : Nat) (d : Content) (y u : Str), Ends (fun n => h.refTag n S.brokenOk z.root name false l) (.tag g) → g.sec = some j →
      Ends (fun n => h.sectionURL htmlExt n j g.anchor) u → stripAux g.title = some d → Gives (fun m => h.html S m d) y →
      refTo b o.name name = (u, y) → Gives (fun m => h.html S m (.ref z.root name c false l)) (hyper (refTo b o.name name).1 x) := by
    rintro g j d y u ⟨N1, h1⟩ hg ⟨N2, h2⟩ h3 h4 he
    have hdisp : ∃ d, stripAux (if c.isNil then g.title else c) = some d ∧ Gives (fun m => h.html S m d) x := by
      rcases hc with ⟨e, rfl⟩ | ⟨d', e, e1, e2⟩
      · exact ⟨d, by rw [e, if_pos rfl, h3], by rw [he]; exact h4⟩
      · exact ⟨d', by rw [e, if_neg (by simp), e1], e2⟩
    obtain ⟨d', e1, e2⟩ := hdisp
    rw [he]
    refine Gives.late (Gives.map e2 fun x => q%"<a href=\"" ++ escURL u ++ q%"\">" ++ x ++ q%"</a>") ⟨N1 + N2, fun m hm => ?_⟩
    have a1 : h.refTag m S.brokenOk z.root name false l = some (.tag g) := h1 m (by omega)
    have a2 : h.sectionURL htmlExt m j g.anchor = some u := h2 m (by omega)
    simp only [Heap.html, Content.html, Heap.refHtml, a1, hg, a2, e1, Res.ofFuel, Res.bind]
  by_cases hu : Sole b name
  · obtain ⟨g, u, title, h1, h2, h3, h4⟩ := refTo_sole L hu o.name
    rw [h1] at hm
    subst hm
    obtain ⟨-, j, hj, hgj⟩ := mem_tagsNamed (h1 ▸ List.mem_singleton.2 rfl : g ∈ t.tagsNamed h name)
    obtain ⟨s, ks', n', os', o', p', par', hs', rfl, hp', hm'⟩ := L.at hj
    obtain ⟨d, h5, h6⟩ := h2.shown (S := S) (h := h)
    have hg := L.owned _ hj _ hgj
    exact found g s.root d _ u (hres.congr fun n e => by rw [Heap.refTag, e]; rfl) hg (L.urlAt hp' hs' hg h3) h5 h6 h4
  · have hb : S.brokenOk = true := hr.resolve_right hu
    have hr' : r = .unknown ∨ ∃ ls, r = .ambiguous ls := by
      match hgs : t.tagsNamed h name, hm with
      | [g], hm => rw [hgs] at hcount; exact absurd hcount.symm hu
      | [], hm => exact .inl hm
      | g1 :: g2 :: gs, ⟨ls, hm, _⟩ => exact .inr ⟨ls, hm⟩
    obtain ⟨s, so, par, par', a1, a2, a3, a4, a5, a6⟩ := place_at L.made hp
    obtain rfl := ha.inj a1
    obtain ⟨l', e'⟩ := a4.inv.2.1.tag
    refine found ⟨name, .str (q%"{broken reference: " ++ name ++ q%"}"), some z.root, q%"broken", .nil, l⟩ z.root _ _ _ (hres.congr fun n e => ?_) rfl
      (L.urlAt hp ha (g := ⟨name, .str (q%"{broken reference: " ++ name ++ q%"}"), some z.root, q%"broken", .nil, l⟩) rfl ⟨_, _, rfl, a5, rfl⟩) rfl
      (gives_str _) ?_
    · rw [Heap.refTag, e, hb]
      rcases hr' with rfl | ⟨ls, rfl⟩ <;> rfl
    · rw [refTo_broken hu, e']
      simp

/-! ### Running text -/

section
variable (L : Loaded h b t) {ks os : List Nat} {n : Nat} {o p : Part} (hp : Place b ks n os o p) {z : Tree} (ha : t.At ks z)
  (hr : S.brokenOk = true ∨ RefsOk b)
include L hp ha hr

mutual
theorem SpanIs.gives : ∀ {s : Span} {cs : List Content}, SpanIs z.root s cs → (∀ x ∈ s.refs, x ∈ refsBlks p.body) →
    GivesL S h cs (s.web (refTo b o.name))
  | _, _, .text (ss := ss) _, _ => .strs ss
  | _, _, .code (ss := ss) hn, _ => .one (gives_code (isFlow_oneBody (by simpa using hn) (isFlow_strs _))
      (GivesL.whole (.inl ⟨by simpa using hn, rfl⟩) (.strs ss)))
  | _, _, .styled (f := f) h1 hn, hi => .one (gives_face f (GivesL.whole (.inl ⟨hn, rfl⟩) (SpansIs.gives h1 hi)))
  | _, _, .link (url := url) h1 hn, hi => .one (gives_link (GivesL.whole (.inl ⟨hn, rfl⟩) (SpansIs.gives h1 hi)))
  | _, _, .ref (name := name), hi => .one (L.link hp ha (hr.imp_right fun hr => hr _ _ _ _ _ hp name (hi name List.mem_cons_self)) (.inl ⟨rfl, rfl⟩))
  | _, _, .see (name := name) (ss := ss) hfull h1 hn, hi =>
      .one (L.link hp ha (hr.imp_right fun hr => hr _ _ _ _ _ hp name (hi name List.mem_cons_self))
        (.inr ⟨_, (good_oneBody hn h1.good).notNil, strip_many hn (h1.strips hfull),
          GivesL.whole (.inl ⟨hn, rfl⟩) (SpansIs.gives h1 fun x hx => hi x (List.mem_cons_of_mem _ hx))⟩))
  | _, _, .image, _ => .one gives_image
  | _, _, .target _ _ _, _ => .one ((Gives.ok _).as ⟨0, fun m _ => by rw [html_inn, Content.html]; rfl⟩)
  | _, _, .aux h1 hn, hi => .one (gives_aux (GivesL.whole (.inl ⟨hn, rfl⟩) (SpansIs.gives h1 hi)))
theorem SpansIs.gives : ∀ {ss : List Span} {cs : List Content}, SpansIs z.root ss cs → (∀ x ∈ refsSpans ss, x ∈ refsBlks p.body) →
    GivesL S h cs (webSpans (refTo b o.name) ss)
  | _, _, .nil, _ => .nil
  | _, _, .cons h1 h2, hi => GivesL.app (SpanIs.gives h1 fun x hx => hi x (List.mem_append_left _ hx))
      (SpansIs.gives h2 fun x hx => hi x (List.mem_append_right _ hx))
end

theorem LinesIs.gives {ls : List (List Span)} {cs : List Content} (hl : LinesIs z.root ls cs) (hi : ∀ x ∈ ls.flatMap refsSpans, x ∈ refsBlks p.body) :
    Gives (fun m => htmlL (inn S h m) cs) (ls.map (webSpans (refTo b o.name))) := by
  induction hl with
  | nil => exact .ok []
  | cons h1 hn _ ih =>
    rw [List.flatMap_cons] at hi
    exact gives_cons (GivesL.whole (.inl ⟨hn, rfl⟩) (SpansIs.gives L hp ha hr h1 fun x hx => hi x (List.mem_append_left _ hx)))
      (ih fun x hx => hi x (List.mem_append_right _ hx))

theorem GridIs.gives {rs : List (List (List Span))} {css : List (List Content)} (hl : GridIs z.root rs css)
    (hi : ∀ x ∈ rs.flatMap (·.flatMap refsSpans), x ∈ refsBlks p.body) :
    Gives (fun m => htmlR (inn S h m) css) (rs.map (·.map (webSpans (refTo b o.name)))) := by
  induction hl with
  | nil => exact .ok []
  | cons h1 _ ih =>
    rw [List.flatMap_cons] at hi
    exact (Gives.bind (LinesIs.gives L hp ha hr h1 fun x hx => hi x (List.mem_append_left _ hx))
      (Gives.map (ih fun x hx => hi x (List.mem_append_right _ hx)) _)).as ⟨0, fun m _ => by rw [htmlR]⟩

theorem PairsIs.gives {ds : List (List Span × List Span)} {prs : List (Content × Content)} (hl : PairsIs z.root ds prs)
    (hi : ∀ x ∈ ds.flatMap fun d => refsSpans d.1 ++ refsSpans d.2, x ∈ refsBlks p.body) :
    Gives (fun m => htmlD (inn S h m) prs) (ds.map fun d => (webSpans (refTo b o.name) d.1, webSpans (refTo b o.name) d.2)) := by
  induction hl with
  | nil => exact .ok []
  | @cons a c ds cs es prs h1 hn h2 hn' _ ih =>
    rw [List.flatMap_cons] at hi
    obtain ⟨N1, g1⟩ := GivesL.whole (.inl ⟨hn, rfl⟩) (SpansIs.gives L hp ha hr h1 fun x hx => hi x (List.mem_append_left _ (List.mem_append_left _ hx)))
    obtain ⟨N2, g2⟩ := GivesL.whole (.inl ⟨hn', rfl⟩) (SpansIs.gives L hp ha hr h2 fun x hx => hi x (List.mem_append_left _ (List.mem_append_right _ hx)))
    obtain ⟨N3, g3⟩ := ih fun x hx => hi x (List.mem_append_right _ hx)
    refine ⟨N1 + N2 + N3, fun m hm => ?_⟩
    have e1 := g1 m (by omega)
    have e2 := g2 m (by omega)
    have e3 := g3 m (by omega)
    simp only [html_inn] at e1 e2 e3
    simp only [htmlD, e1, e2, e3, Res.bind, Res.map, List.map_cons]
end

theorem RowsIs.gives {ls : List Str} {cs : List Content} (hl : RowsIs ls cs) : Gives (fun m => htmlL (inn S h m) cs) (ls.map escText) := by
  induction hl with
  | nil => exact .ok []
  | @cons ss _ _ hn _ ih => exact gives_cons (GivesL.whole (.inl ⟨by simpa using hn, rfl⟩) (GivesL.strs ss)) ih

/-! ### Tables of contents -/

theorem MadeL.length {f : Bool} {par : Option Nat} : ∀ {ps : List Part} {ts : List Tree}, MadeL f h par ps ts → ps.length = ts.length
  | _, _, .nil => rfl
  | _, _, .cons _ h2 => by rw [List.length_cons, List.length_cons, h2.length]

theorem at_parent (bk : Book h t) {ks : List Nat} {k : Nat} {s : Tree} (ha : t.At (ks ++ [k]) s) : ∃ x, (h.get s.root).parent = some x := by
  generalize e : ks ++ [k] = ks' at ha
  cases ha with
  | here => simp at e
  | step hp hk => exact ⟨_, bk.parent _ ⟨_, hp⟩ _ (List.mem_of_getElem? hk)⟩

mutual
theorem Made.webToc (L : Loaded h b t) : ∀ (p : Part) {ks os : List Nat} {n : Nat} {o : Part} {par : Option Nat} {s : Tree},
    Place b ks n os o p → Made true h par p s → t.At ks s → ∃ N, ∀ m, N ≤ m → ∀ k, N ≤ k → h.tocHtml (h.html S k) m s.root = .ok (p.webToc ks o.name)
  | .mk title tags split hide body subs, ks, os, n, o, par, s, hp, hm, ha => by
    obtain ⟨N, hN⟩ := MadeL.webToc L subs hm.inv.2.2.2 (k := 0) hp (fun j q hq => by rw [Nat.zero_add]; exact hq) (kids_at ha)
    refine ⟨N + 1, fun m hm' k hk => ?_⟩
    obtain ⟨m, rfl⟩ : ∃ k, m = k + 1 := ⟨m - 1, by omega⟩
    rw [Heap.tocHtml, hm.inv.2.1.omitToc, hm.inv.2.1.children, show (Part.mk title tags split hide body subs).hide = hide from rfl, Part.webToc]
    have hlen := hm.inv.2.2.2.length
    by_cases e : subs = []
    · subst e
      have : s.kids = [] := List.length_eq_zero_iff.1 hlen.symm
      rw [this]
      simp
    · have e1 : s.kids.map Tree.root ≠ [] := fun e1 => e (List.length_eq_zero_iff.1 (by
        have := congrArg List.length e1
        rw [List.length_map, List.length_nil] at this
        exact hlen.trans this))
      have e2 : subs.isEmpty = false := by cases subs with | nil => exact absurd rfl e | cons => rfl
      rw [e2, Bool.false_or]
      cases hide with
      | true => rw [if_pos (.inr rfl), if_pos rfl]
      | false =>
        rw [if_neg (by simpa using e1), if_neg (by simp)]
        obtain ⟨ts, h1, h2⟩ := hN m (by omega) k (by omega)
        rw [h1, ← h2]
        rfl
theorem MadeL.webToc (L : Loaded h b t) : ∀ (qs : List Part) {ks os : List Nat} {k n : Nat} {o : Part} {title : List Span} {tags : List Str}
    {split hide : Bool} {body : List Blk} {subs : List Part} {par : Option Nat} {cs : List Tree}, MadeL true h par qs cs →
    Place b ks n os o (.mk title tags split hide body subs) → (∀ j q, qs[j]? = some q → subs[k + j]? = some q) →
    (∀ j c, cs[j]? = some c → t.At (ks ++ [k + j]) c) → ∃ N, ∀ m, N ≤ m → ∀ f, N ≤ f →
      ∃ ts, resMap (h.tocEntry m (h.html S f) (h.tocHtml (h.html S f) m)) (cs.map Tree.root) = .ok ts ∧ ts.flatten = webEntries ks k split o.name qs
  | [], _, _, _, _, _, _, _, _, _, _, _, _, cs, hm, _, _, _ => by
    cases hm
    exact ⟨0, fun _ _ _ _ => ⟨[], rfl, rfl⟩⟩
  | q :: qs, ks, os, k, n, o, title, tags, split, hide, body, subs, par, _, .cons (t := c) (ts := cs) h1 h2, hp, hk, hat => by
    have bk := L.made.book L.nodup
    have h0 : subs[k]? = some q := hk 0 q rfl
    have hc : t.At (ks ++ [k]) c := hat 0 c rfl
    obtain ⟨N1, hN1⟩ := MadeL.webToc L qs h2 hp (fun j r hr => by have := hk (j + 1) r hr; rwa [show k + 1 + j = k + (j + 1) by omega])
      (fun j c' hc' => by have := hat (j + 1) c' hc'; rwa [show k + 1 + j = k + (j + 1) by omega])
    obtain ⟨l, et⟩ := h1.inv.2.1.tag
    obtain ⟨d, e1, N2, hN2⟩ := h1.inv.2.1.headed.shown (S := S) (h := h)
    obtain ⟨N3, hN3⟩ := number_ends bk hc
    have place : ∃ n' os' o', Place b (ks ++ [k]) n' os' o' q ∧ o'.name = (if split then q.name else o.name) ∧ decide (os' = ks ++ [k]) = split := by
      cases split with
      | true => exact ⟨1, _, q, .page hp rfl h0, rfl, by simp⟩
      | false =>
        refine ⟨n + 1, os, o, .same hp rfl h0, rfl, decide_eq_false fun e => ?_⟩
        have := place_le hp
        rw [e, List.length_append, List.length_singleton] at this
        omega
    obtain ⟨n', os', o', hq, e2, e3⟩ := place
    obtain ⟨N4, hN4⟩ := Made.webToc L q hq h1 hc
    obtain ⟨s', so, par1, par2, a1, a2, a3, a4, a5, a6⟩ := place_at L.made hq
    obtain rfl := hc.inj a1
    have hg : (h.get c.root).primaryTag.sec = some c.root := by rw [et]
    have had : Address h (h.get c.root).primaryTag (url (ks ++ [k]) os' o' q) := by
      have : Address h (h.get c.root).primaryTag _ := ⟨_, _, hg, a5, rfl⟩
      have e := address_url L hq hc hg (by rw [et]) this
      rwa [e] at this
    obtain ⟨N5, hN5⟩ := L.urlAt hq hc hg had
    refine ⟨N1 + N2 + N3 + N4 + N5, fun m hm f hf => ?_⟩
    obtain ⟨ts, t1, t2⟩ := hN1 m (by omega) f (by omega)
    have b1 : h.sectionURL htmlExt m c.root (h.get c.root).primaryTag.anchor = some _ := hN5 m (by omega)
    have b2 : h.number m c.root = some _ := hN3 m (by omega)
    have b3 : h.html S f d = .ok _ := hN2 f (by omega)
    have b4 := hN4 m (by omega) f (by omega)
    rw [List.map_cons, resMap, Heap.tocEntry, hg]
    simp only [b1, b2, e1, b3, b4, t1, Res.ofFuel, Res.bind, Res.map]
    refine ⟨_, rfl, ?_⟩
    rw [List.flatten_cons, t2, webEntries, url_on, e2, e3, show dotted _ = numeral (ks ++ [k]) from rfl, escText_numeral, hyper]
    simp only [List.append_assoc, List.cons_append, List.nil_append]
end

/-! ### Blocks -/

theorem flatMap_maps {α β γ : Type} (f : α → β) (g : β → List γ) (l : List α) : (l.map f).flatMap g = l.flatMap fun x => g (f x) := by
  rw [List.flatMap_map]

section
variable (L : Loaded h b t) {ks os : List Nat} {n : Nat} {o p : Part} (hp : Place b ks n os o p) {z : Tree} (ha : t.At ks z)
  {par : Option Nat} (hm : Made true h par p z) (hr : S.brokenOk = true ∨ RefsOk b)
include L hp ha hm hr

mutual
theorem BlkIs.gives : ∀ {x : Blk} {c : Content}, BlkIs z.root x c → (∀ y ∈ x.refs, y ∈ refsBlks p.body) →
    Gives (fun m => h.html S m c) (x.web (refTo b o.name) (p.webToc ks o.name))
  | _, _, .para (ls := ls) h1, hi => by
    rw [Blk.web, ← joinWith_intercalate]
    exact (Gives.map (LinesIs.gives L hp ha hr h1 hi) fun ts => q%"<p>" ++ joinWith [' '] ts ++ q%"</p>").as ⟨0, fun m _ => by rw [html_inn, Content.html]⟩
  | _, _, .code h1, _ => by
    rw [Blk.web, ← joinWith_intercalate]
    exact gives_pre (pre_flow _) ((Gives.map h1.gives (joinWith ['\n'])).as ⟨0, fun m _ => by rw [html_inn, Content.html]⟩)
  | _, _, .list (o := o') h1, hi => by
    rw [Blk.web, ← flatMap_maps (webSpans (refTo b o.name)) fun t => q%"\n  <li>" ++ t ++ q%"</li>\n"]
    exact (Gives.map (LinesIs.gives L hp ha hr h1 hi) fun ts =>
      (if o' then q%"<ol>" else q%"<ul>") ++ q%"\n" ++ (ts.flatMap fun t => q%"\n  <li>" ++ t ++ q%"</li>\n") ++ q%"\n"
        ++ (if o' then q%"</ol>" else q%"</ul>")).as ⟨0, fun m _ => by rw [html_inn, Content.html]⟩
  | _, _, .table (rows := rows) (css := css) h1, hi => by
    have : Gives (fun m => h.html S m (.table css)) _ := (Gives.map (GridIs.gives L hp ha hr h1 hi) fun rows => q%"<table>\n  " ++ (rows.flatMap fun r =>
      q%"\n  <tr>\n    " ++ (r.flatMap fun t => q%"\n    <td>" ++ t ++ q%"</td>\n    ") ++ q%"\n  </tr>\n  ")
      ++ q%"\n</table>").as ⟨0, fun m _ => by rw [html_inn, Content.html]⟩
    simpa only [Blk.web, List.flatMap_map] using this
  | _, _, .defs (ds := ds) (prs := prs) h1, hi => by
    have : Gives (fun m => h.html S m (.defs prs)) _ := (Gives.map (PairsIs.gives L hp ha hr h1 hi) fun prs => q%"<dl>\n  " ++
      (prs.flatMap fun p => q%"\n  <dt>" ++ p.1 ++ q%"</dt>\n    <dd>" ++ p.2 ++ q%"</dd>\n  ") ++ q%"\n</dl>").as
      ⟨0, fun m _ => by rw [html_inn, Content.html]⟩
    simpa only [Blk.web, List.flatMap_map] using this
  | _, _, .box (a := a) h1 hn, hi => by
    cases a
    · exact gives_style (by decide) (by decide) (GivesL.whole (.inl ⟨hn, rfl⟩) (BlksIs.gives h1 hi))
    · exact gives_style (by decide) (by decide) (GivesL.whole (.inl ⟨hn, rfl⟩) (BlksIs.gives h1 hi))
  | _, _, .toc, _ => by
    obtain ⟨N, hN⟩ := Made.webToc (S := S) L p hp hm ha
    refine ⟨N + 1, fun m hm' => ?_⟩
    obtain ⟨m, rfl⟩ : ∃ k, m = k + 1 := ⟨m - 1, by omega⟩
    exact hN m (by omega) m (by omega)
theorem BlksIs.gives : ∀ {xs : List Blk} {cs : List Content}, BlksIs z.root xs cs → (∀ y ∈ refsBlks xs, y ∈ refsBlks p.body) →
    GivesL S h cs (webBlks (refTo b o.name) (p.webToc ks o.name) xs)
  | _, _, .nil, _ => .nil
  | _, _, .cons h1 h2, hi => GivesL.cons (BlkIs.gives h1 fun x hx => hi x (List.mem_append_left _ hx))
      (BlksIs.gives h2 fun x hx => hi x (List.mem_append_right _ hx))
end

theorem Bodied.gives {x : Sec} (hb : Bodied x p z.root) : Gives (fun m => h.html S m x.body) (webBlks (refTo b o.name) (p.webToc ks o.name) p.body) := by
  rcases hb with ⟨e, e'⟩ | ⟨cs, hn, hc, e⟩
  · rw [e, e']
    exact gives_str []
  · rw [e]
    exact GivesL.whole (.inl ⟨hn, rfl⟩) (BlksIs.gives L hp ha hm hr hc fun _ h => h)
end

/-! ### Sections and pages -/

mutual
theorem Made.web (L : Loaded h b t) (hr : S.brokenOk = true ∨ RefsOk b) : ∀ (p : Part) {ks os : List Nat} {n : Nat} {o : Part} {par : Option Nat} {s : Tree},
    Place b ks n os o p → Made true h par p s → t.At ks s → Gives (fun m => h.html S m (.sect s.root)) (p.web (refTo b o.name) ks n o.name)
  | .mk title tags split hide body subs, ks, os, n, o, par, s, hp, hm, ha => by
    have bk := L.made.book L.nodup
    obtain ⟨s', so, par1, par2, a1, a2, a3, a4, a5, a6⟩ := place_at L.made hp
    obtain rfl := ha.inj a1
    obtain ⟨l, ⟨N1, h1⟩, -, -, el⟩ := Props.C23_header_levels bk ha
    rw [← a6] at el
    subst el
    obtain ⟨N2, h2⟩ := number_ends bk ha
    have h3 := hm.inv.2.1.headed.gives (S := S) (h := h)
    have h4 := Bodied.gives L hp ha hm hr hm.inv.2.2.1
    have num : ∀ m, N2 ≤ m → (if (h.get s.root).parent.isSome then
        (Res.ofFuel (h.number m s.root)).map fun k => q%"<span class=\"section-number\">" ++ escText k ++ q%" </span>" else .ok []) =
        .ok (if ks.isEmpty then [] else q%"<span class=\"section-number\">" ++ numeral ks ++ q%" </span>") := by
      intro m hm'
      have hnum : h.number m s.root = some (numeral ks) := h2 m hm'
      cases hp with
      | top =>
        obtain rfl := ha.inj .here
        rw [L.made.inv.2.1.parent]
        rfl
      | page hp0 hs hk =>
        obtain ⟨x, e⟩ := at_parent bk ha
        rw [e, if_neg (show ¬ (_ ++ [_] : List Nat).isEmpty = true by simp), hnum]
        show Res.ok (q%"<span class=\"section-number\">" ++ escText (numeral _) ++ q%" </span>") = _
        rw [escText_numeral]
      | same hp0 hs hk =>
        obtain ⟨x, e⟩ := at_parent bk ha
        rw [e, if_neg (show ¬ (_ ++ [_] : List Nat).isEmpty = true by simp), hnum]
        show Res.ok (q%"<span class=\"section-number\">" ++ escText (numeral _) ++ q%" </span>") = _
        rw [escText_numeral]
    have kids : Gives (fun m => if (h.get s.root).split then .ok []
        else (resMap (fun c => h.html S m (.sect c)) (h.get s.root).children).map fun ts =>
          q%"\n  " ++ (ts.flatMap fun t => q%"\n    " ++ t ++ q%"\n  ") ++ q%"\n")
        (if split then [] else q%"\n  " ++ webParts (refTo b o.name) ks 0 n o.name subs ++ q%"\n") := by
      rw [hm.inv.2.1.split, hm.inv.2.1.children, show (Part.mk title tags split hide body subs).split = split from rfl]
      cases split with
      | true => exact .ok []
      | false =>
        obtain ⟨ts, h5, h6⟩ := MadeL.web L hr subs hm.inv.2.2.2 (k := 0) hp (fun j q hq => by rw [Nat.zero_add]; exact hq) (kids_at ha)
        rw [← h6]
        exact (Gives.map h5 _).as ⟨0, fun _ _ => rfl⟩
    obtain ⟨lt, et⟩ := hm.inv.2.1.tag
    have ename : (h.get s.root).primaryTag.name = tags.headD (slug (plainSpans (essence title))) := by rw [et]; rfl
    obtain ⟨N3, h3⟩ := h3
    obtain ⟨N4, h4⟩ := h4
    obtain ⟨N5, h5⟩ := kids
    refine ⟨N1 + N2 + N3 + N4 + N5 + 1, fun m hm' => ?_⟩
    obtain ⟨m, rfl⟩ : ∃ k, m = k + 1 := ⟨m - 1, by omega⟩
    have b1 : h.headerDepth m s.root = some _ := h1 m (by omega)
    have b3 : h.html S m (h.get s.root).title = .ok _ := h3 m (by omega)
    have b4 : h.html S m (h.get s.root).body = .ok _ := h4 m (by omega)
    have b5 := h5 m (by omega)
    show h.sectHtml m (h.html S m) s.root = _
    rw [Heap.sectHtml]
    simp only at b5
    rw [if_neg (by rw [hm.inv.2.1.style]; simp), b1, num m (by omega), b3, b4, b5, ename]
    rfl
theorem MadeL.web (L : Loaded h b t) (hr : S.brokenOk = true ∨ RefsOk b) : ∀ (qs : List Part) {ks os : List Nat} {k n : Nat} {o : Part} {title : List Span}
    {tags : List Str} {hide : Bool} {body : List Blk} {subs : List Part} {par : Option Nat} {cs : List Tree}, MadeL true h par qs cs →
    Place b ks n os o (.mk title tags false hide body subs) → (∀ j q, qs[j]? = some q → subs[k + j]? = some q) →
    (∀ j c, cs[j]? = some c → t.At (ks ++ [k + j]) c) →
      ∃ ts, Gives (fun m => resMap (fun c => h.html S m (.sect c)) (cs.map Tree.root)) ts ∧
        (ts.flatMap fun t => q%"\n    " ++ t ++ q%"\n  ") = webParts (refTo b o.name) ks k n o.name qs
  | [], _, _, _, _, _, _, _, _, _, _, _, cs, hm, _, _, _ => by
    cases hm
    exact ⟨[], .ok [], rfl⟩
  | q :: qs, ks, os, k, n, o, title, tags, hide, body, subs, par, _, .cons (t := c) (ts := cs) h1 h2, hp, hk, hat => by
    have h0 : subs[k]? = some q := hk 0 q rfl
    obtain ⟨ts, h3, h4⟩ := MadeL.web L hr qs h2 hp (fun j r hr => by have := hk (j + 1) r hr; rwa [show k + 1 + j = k + (j + 1) by omega])
      (fun j c' hc' => by have := hat (j + 1) c' hc'; rwa [show k + 1 + j = k + (j + 1) by omega])
    have h5 := Made.web L hr q (.same hp rfl h0) h1 (hat 0 c rfl)
    refine ⟨_ :: ts, (Gives.bind h5 (Gives.map h3 _)).as ⟨0, fun m _ => by rw [List.map_cons, resMap]⟩, ?_⟩
    rw [List.flatMap_cons, h4, webParts]
end

theorem Loaded.shown (L : Loaded h b t) (hr : S.brokenOk = true ∨ RefsOk b) {ks os : List Nat} {n : Nat} {o p : Part} (hp : Place b ks n os o p) {s : Tree}
    (ha : t.At ks s) : Gives (fun m => h.page S m s.root) (webShown b o.name ks n p) := by
  obtain ⟨s', so, par, par', a1, a2, a3, a4, a5, a6⟩ := place_at L.made hp
  obtain rfl := ha.inj a1
  have e : ∀ m, h.text S.brokenOk m (h.get s.root).title = .ok (plainSpans p.title) := fun m => a2.inv.2.1.text _ m
  refine (Gives.map (Made.web (S := S) L hr p hp a2 ha) fun t =>
    q%"<!DOCTYPE html>\n<html>\n  <head>\n    <meta http-equiv=\"content-type\" content=\"text/html; charset=utf-8\" />\n    <title>"
    ++ escText (plainSpans p.title) ++ q%"</title>\n  </head>\n  <body>\n    " ++ t ++ q%"\n  </body>\n</html>").as ⟨0, fun m _ => ?_⟩
  rw [Heap.page, e]
  rfl

theorem Loaded.web (L : Loaded h b t) (hr : S.brokenOk = true ∨ RefsOk b) {ks : List Nat} {p : Part} (hp : Place b ks 1 ks p p) {s : Tree}
    (ha : t.At ks s) : Gives (fun m => h.page S m s.root) (webPage b ks p) := L.shown hr hp ha

end Booklit.Ms
