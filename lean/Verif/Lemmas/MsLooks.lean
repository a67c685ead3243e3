import Verif.Lemmas.MsPlaces

/-!
What the sections of a loaded manuscript look like.
-/

namespace Booklit.Ms

open Booklit Booklit.Src

variable {S : Site} {h : Heap} {b : Part} {t : Tree}

/-! ### Texts -/

theorem looks_many {cs : List Content} (hn : cs ≠ []) {ds : List Dom} (hl : Looks S h t (oneBody cs) ds) :
    ∃ dss, All2 (Looks S h t) cs dss ∧ ds = dss.flatten := by
  match cs, hn with
  | [c], _ => exact ⟨[ds], .cons hl .nil, by simp⟩
  | a :: b :: r, _ =>
    have e : oneBody (a :: b :: r) = .seq (a :: b :: r) := rfl
    rw [e] at hl
    cases hl with
    | seq h => exact ⟨_, h, rfl⟩

theorem lettering_app (a b : Str) : lettering (a ++ b) = lettering a ++ lettering b := by simp [lettering, chars]

theorem looks_strs {ss : List Str} {dss : List (List Dom)} (hl : All2 (Looks S h t) (ss.map .str) dss) :
    dss.flatten = lettering ss.flatten := by
  induction ss generalizing dss with
  | nil => cases hl; rfl
  | cons s ss ih =>
    cases hl with
    | cons h1 h2 =>
      cases h1
      rw [List.flatten_cons, ih h2, List.flatten_cons, lettering_app]

theorem looks_text {ss : List Str} (hn : ss ≠ []) {ds : List Dom} (hl : Looks S h t (oneBody (ss.map .str)) ds) :
    ds = lettering ss.flatten := by
  obtain ⟨dss, h1, rfl⟩ := looks_many (by simpa using hn) hl
  exact looks_strs h1

theorem strip_text {ss : List Str} (hn : ss ≠ []) : stripAux (oneBody (ss.map .str)) = some (oneBody (ss.map .str)) := by
  match ss, hn with
  | [s], _ => rfl
  | a :: b :: r, _ =>
    have e : oneBody ((a :: b :: r).map Content.str) = .seq ((a :: b :: r).map Content.str) := rfl
    rw [e, stripAux, stripSeq_strs]
    rfl

theorem all2_append {α β : Type} {R : α → β → Prop} {as as' : List α} {bs : List β} (h : All2 R (as ++ as') bs) :
    ∃ cs cs', bs = cs ++ cs' ∧ All2 R as cs ∧ All2 R as' cs' := by
  induction as generalizing bs with
  | nil => exact ⟨[], bs, rfl, .nil, h⟩
  | cons a as ih =>
    cases h with
    | cons h1 h2 =>
      obtain ⟨cs, cs', rfl, h3, h4⟩ := ih h2
      exact ⟨_ :: cs, cs', rfl, .cons h1 h3, h4⟩

/-! ### Links -/

theorem address_url (L : Loaded h b t) {ks os : List Nat} {n : Nat} {o p : Part} (hp : Place b ks n os o p) {s : Tree} (ha : t.At ks s)
    {g : Tag} (hs : g.sec = some s.root) (hg : g.anchor = []) {u : Str} (hu : Address h g u) : u = url ks os o p := by
  obtain ⟨s', so, par, par', a1, a2, a3, a4, a5, a6⟩ := place_at L.made hp
  obtain rfl := ha.inj a1
  obtain ⟨i, j, e1, e2, e3⟩ := hu
  obtain ⟨l, e⟩ := a2.inv.2.1.tag
  obtain ⟨l', e'⟩ := a4.inv.2.1.tag
  rw [hs] at e1
  obtain rfl := Option.some.inj e1
  obtain rfl := e2.unique a5
  rw [e3, e', url]
  have hk : os = ks ↔ so.root = s.root := by
    constructor
    · rintro rfl
      rw [a3.inj ha]
    · exact fun e => (a3.unique L.nodup ha e).1
  rw [if_neg (by simp [hg])]
  by_cases hc : os = ks ∨ p.name = []
  · rw [if_pos hc, if_neg]
    rintro ⟨h1, h2⟩
    rcases hc with hc | hc
    · exact h1 (hk.1 hc)
    · rw [e] at h2
      exact h2 hc
  · rw [if_neg hc, if_pos, e]
    rw [e]
    exact ⟨fun e => hc (.inl (hk.2 e)), fun e => hc (.inr e)⟩

/-- What the tags of a section stand for. -/
theorem tag_aim (L : Loaded h b t) {ks os : List Nat} {n : Nat} {o p : Part} {par : Option Nat} (hp : Place b ks n os o p) {s : Tree}
    (ha : t.At ks s) (hm : Made true h par p s) {g : Tag} (hg : g ∈ (h.get s.root).tags) :
    ∃ title, Headed title g.title ∧ (∃ u, Address h g u) ∧ ∀ u, Address h g u → Aim b g.name ks p u title := by
  obtain ⟨s', so, par1, par2, a1, a2, a3, a4, a5, a6⟩ := place_at L.made hp
  obtain rfl := ha.inj a1
  obtain ⟨l', e'⟩ := a4.inv.2.1.tag
  have hsec := (hm.inv.2.1.tag_title hg).2.1
  rcases hm.inv.2.1.tag_cases hg with ⟨name, hn, l, rfl⟩ | ⟨m, hmm, ss, l, h1, h2, h3, rfl⟩
  · refine ⟨p.title, hm.inv.2.1.headed, ⟨_, _, _, hsec, a5, rfl⟩, fun u hu => ?_⟩
    rw [address_url L hp ha hsec rfl hu]
    exact .sect hp hn
  · refine ⟨[.text ss.flatten], headed_strs h2, ⟨_, _, _, hsec, a5, rfl⟩, fun u hu => ?_⟩
    obtain ⟨i, j, e1, e2, e3⟩ := hu
    obtain rfl := Option.some.inj e1
    obtain rfl := e2.unique a5
    rw [if_pos h1, e'] at e3
    have e3 : u = o.name ++ q%".html#" ++ m.1 := by rw [e3]; simp
    rw [e3, h3]
    exact .target hp hmm

/-- What a name stands for. -/
theorem sole_aim (L : Loaded h b t) {name : Str} (hu : Sole b name) : ∃ (g : Tag) (title : List Span) (ks : List Nat) (p : Part),
    t.tagsNamed h name = [g] ∧ Headed title g.title ∧ (∃ u, Address h g u) ∧ ∀ u, Address h g u → Aim b name ks p u title := by
  obtain ⟨g, ks, s, n, os, o, p, par, h1, rfl, h3, h4, h5, h6⟩ := tagsNamed_one L.made hu
  obtain ⟨title, h7, h8, h9⟩ := tag_aim L h5 h4 h6 h3
  exact ⟨g, title, ks, p, h1, h7, h8, h9⟩

/-! ### Running text -/

theorem looks_styled {f : Face} {c : Content} {ds : List Dom} (hl : Looks S h t (.styled f.fn false c []) ds) :
    ∃ x, ds = [f.elem x] ∧ Looks S h t c x := by
  generalize e : Content.styled f.fn false c [] = y at hl
  cases hl with
  | code _ _ => injection e with e; cases f <;> cases e
  | codeBlock _ _ => injection e with e; cases f <;> cases e
  | @styled s el as _ c _ x h1 h2 =>
    injection e with e1 e2 e3 e4
    subst e1 e3
    refine ⟨x, ?_, h2⟩
    cases f <;> (simp [styling, Face.fn, List.lookup] at h1; obtain ⟨rfl, rfl⟩ := h1; rfl)
  | _ => cases e

/-! ### Titles -/

theorem Whole.looks {cs : List Content} {c : Content} (hw : Whole cs c) {ds : List Dom} (hl : Looks S h t c ds) :
    ∃ dss, All2 (Looks S h t) cs dss ∧ ds = dss.flatten := by
  rcases hw with ⟨hn, rfl⟩ | rfl
  · exact looks_many hn hl
  · cases hl with
    | seq h => exact ⟨_, h, rfl⟩

theorem Whole.flow {cs : List Content} {c : Content} (hw : Whole cs c) (hf : isFlowSeq cs = some true) : isFlow c = some true := by
  rcases hw with ⟨hn, rfl⟩ | rfl
  · exact isFlow_oneBody hn hf
  · rw [isFlow]; exact hf

theorem looks_code {ss : List Str} {c : Content} (hw : Whole (ss.map .str) c) {ds : List Dom}
    (hl : Looks S h t (.styled q%"verbatim" false c []) ds) : ds = [.elem q%"code" [] (lettering ss.flatten)] := by
  generalize e : Content.styled q%"verbatim" false c [] = y at hl
  cases hl with
  | code _ h1 =>
    injection e with e1 e2 e3 e4
    subst e3
    obtain ⟨dss, h2, rfl⟩ := hw.looks h1
    rw [looks_strs h2]
  | codeBlock hb _ =>
    injection e with e1 e2 e3 e4
    subst e2 e3
    rcases hb with hb | hb
    · cases hb
    · rw [hw.flow (isFlow_strs _)] at hb
      cases hb
  | styled hs _ =>
    injection e with e1 e2 e3 e4
    subst e1
    cases hs
  | _ => cases e

mutual
theorem TitleIs.looks : ∀ {s : Span} {cs : List Content}, TitleIs s cs → ∀ {dss : List (List Dom)}, All2 (Looks S h t) cs dss →
    SpanDom b s dss.flatten
  | _, _, .text _, dss, hl => by
    rw [looks_strs hl]
    exact .text
  | _, _, .code hw, dss, hl => by
    cases hl with
    | cons h1 h2 =>
      cases h2
      rw [looks_code hw h1]
      exact .code
  | .styled f ss, _, .styled h1 hw, dss, hl => by
    cases hl with
    | cons h2 h3 =>
      cases h3
      obtain ⟨x, rfl, h4⟩ := looks_styled h2
      obtain ⟨dss, h5, rfl⟩ := hw.looks h4
      exact .styled (h1.looks h5)
  | _, _, .image, dss, hl => by
    cases hl with
    | cons h2 h3 =>
      cases h3
      cases h2 with
      | image hv => exact .image hv
  | _, _, .aux h1 hn, dss, hl => by
    cases hl with
    | cons h2 h3 =>
      cases h3
      cases h2 with
      | aux h2 =>
        obtain ⟨dss, h5, rfl⟩ := looks_many hn h2
        rw [List.flatten_cons, List.flatten_nil, List.append_nil]
        exact .aux (h1.looks h5)
theorem TitlesIs.looks : ∀ {ss : List Span} {cs : List Content}, TitlesIs ss cs → ∀ {dss : List (List Dom)}, All2 (Looks S h t) cs dss →
    SpansDom b ss dss.flatten
  | _, _, .nil, dss, hl => by
    cases hl
    exact .nil
  | _, _, .cons h1 h2, dss, hl => by
    obtain ⟨d1, d2, rfl, h3, h4⟩ := all2_append hl
    rw [List.flatten_append]
    exact .cons (h1.looks h3) (h2.looks h4)
end

theorem Headed.looks {title : List Span} {c : Content} (hc : Headed title c) {ds : List Dom} (hl : Looks S h t c ds) : SpansDom b title ds := by
  obtain ⟨-, -, cs, hn, ht, rfl⟩ := hc
  obtain ⟨dss, h1, rfl⟩ := looks_many hn hl
  exact ht.looks h1

theorem Headed.looks_strip {title : List Span} {c d : Content} (hc : Headed title c) (e : stripAux c = some d) {ds : List Dom}
    (hl : Looks S h t d ds) : SpansDom b (essence title) ds := by
  obtain ⟨d', es, e', ht, hw⟩ := hc.strip
  rw [e'] at e
  obtain rfl := Option.some.inj e
  obtain ⟨dss, h1, rfl⟩ := hw.looks hl
  exact ht.looks h1

theorem strip_seq {cs : List Content} (h : ∀ c ∈ cs, c.isAux = false ∧ stripAux c = some c) : stripAuxSeq cs = some cs := by
  induction cs with
  | nil => rfl
  | cons c cs ih =>
    have hc := h c List.mem_cons_self
    rw [stripAuxSeq, hc.1, if_neg (by simp), hc.2, ih fun c h' => h c (List.mem_cons_of_mem _ h')]
    rfl

theorem strip_many {cs : List Content} (hn : cs ≠ []) (h : ∀ c ∈ cs, c.isAux = false ∧ stripAux c = some c) :
    stripAux (oneBody cs) = some (oneBody cs) := by
  match cs, hn with
  | [c], _ => exact (h c List.mem_cons_self).2
  | a :: b :: r, _ =>
    have e : oneBody (a :: b :: r) = .seq (a :: b :: r) := rfl
    rw [e, stripAux, strip_seq h]
    rfl

mutual
/-- The texts of references have no auxiliary parts. -/
theorem SpanIs.strips {i : Nat} : ∀ {s : Span} {cs : List Content}, SpanIs i s cs → s.full → ∀ c ∈ cs, c.isAux = false ∧ stripAux c = some c
  | _, _, .text _, _ => by
    intro c hc
    obtain ⟨s, _, rfl⟩ := List.mem_map.1 hc
    exact ⟨rfl, rfl⟩
  | _, _, .code hn, _ => by
    intro c hc
    obtain rfl := List.mem_singleton.1 hc
    refine ⟨rfl, ?_⟩
    rw [stripAux, strip_text hn]
    rfl
  | _, _, .styled h hn, hf => by
    intro c hc
    obtain rfl := List.mem_singleton.1 hc
    refine ⟨rfl, ?_⟩
    rw [stripAux, strip_many hn (h.strips hf)]
    rfl
  | _, _, .link h hn, hf => by
    intro c hc
    obtain rfl := List.mem_singleton.1 hc
    refine ⟨rfl, ?_⟩
    rw [stripAux, strip_many hn (h.strips hf)]
    rfl
  | _, _, .ref, hf => hf.elim
  | _, _, .see _ h hn, hf => by
    intro c hc
    obtain rfl := List.mem_singleton.1 hc
    refine ⟨rfl, ?_⟩
    rw [stripAux, strip_many hn (h.strips hf)]
    rfl
  | _, _, .image, _ => by
    intro c hc
    obtain rfl := List.mem_singleton.1 hc
    exact ⟨rfl, rfl⟩
theorem SpansIs.strips {i : Nat} : ∀ {ss : List Span} {cs : List Content}, SpansIs i ss cs → fullSpans ss →
    ∀ c ∈ cs, c.isAux = false ∧ stripAux c = some c
  | _, _, .nil, _ => by intro c hc; cases hc
  | _, _, .cons h1 h2, hf => by
    intro c hc
    rcases List.mem_append.1 hc with hc | hc
    · exact h1.strips hf.1 c hc
    · exact h2.strips hf.2 c hc
end

mutual
theorem SpanIs.looks (L : Loaded h b t) {i : Nat} : ∀ {s : Span} {cs : List Content}, SpanIs i s cs →
    (∀ name ∈ s.refs, Sole b name) → ∀ {dss : List (List Dom)}, All2 (Looks S h t) cs dss → SpanDom b s dss.flatten
  | _, _, .text _, _, dss, hl => by
    rw [looks_strs hl]
    exact .text
  | _, _, .code hn, _, dss, hl => by
    cases hl with
    | cons h1 h2 =>
      cases h2
      rw [looks_code (Or.inl ⟨by simpa using hn, rfl⟩) h1]
      exact .code
  | .styled f ss, _, .styled h1 hn, hr, dss, hl => by
    cases hl with
    | cons h2 h3 =>
      cases h3
      obtain ⟨x, rfl, h4⟩ := looks_styled h2
      obtain ⟨dss, h5, rfl⟩ := looks_many hn h4
      exact .styled (h1.looks L hr h5)
  | _, _, .link h1 hn, hr, dss, hl => by
    cases hl with
    | cons h2 h3 =>
      cases h3
      cases h2 with
      | link hv h4 =>
        obtain ⟨dss, h5, rfl⟩ := looks_many hn h4
        exact .link (h1.looks L hr h5) hv
  | .ref name, _, .ref, hr, dss, hl => by
    cases hl with
    | cons h2 h3 =>
      cases h3
      obtain ⟨g, title, ks, p, ht, hs, _, ha⟩ := sole_aim L (hr name (by simp [Span.refs]))
      cases h2 with
      | ref g1 g2 g3 g4 g5 =>
        rw [ht] at g1
        obtain rfl := List.cons.inj g1 |>.1
        rw [Displays, if_pos (by rfl)] at g4
        exact .ref (ha _ g2) g3 (hs.looks_strip g4 g5)
      | badRef _ g1 =>
        rw [ht] at g1
        exact (g1 rfl).elim
  | .see name ss, _, .see hf h1 hn, hr, dss, hl => by
    cases hl with
    | cons h2 h3 =>
      cases h3
      obtain ⟨g, _, ks, p, ht, _, _, ha⟩ := sole_aim L (hr name (by simp [Span.refs]))
      have hr' : ∀ name ∈ refsSpans ss, Sole b name := fun n hn => hr n (List.mem_cons_of_mem _ hn)
      cases h2 with
      | ref g1 g2 g3 g4 g5 =>
        rw [ht] at g1
        obtain rfl := List.cons.inj g1 |>.1
        rw [Displays, if_neg (by rw [(good_oneBody hn h1.good).notNil]; simp), strip_many hn (h1.strips hf)] at g4
        obtain rfl := Option.some.inj g4
        obtain ⟨dss, h5, rfl⟩ := looks_many hn g5
        exact .see (ha _ g2) g3 (h1.looks L hr' h5)
      | badRef _ g1 =>
        rw [ht] at g1
        exact (g1 rfl).elim
  | _, _, .image, hr, dss, hl => by
    cases hl with
    | cons h2 h3 =>
      cases h3
      cases h2 with
      | image hv => exact .image hv
  | _, _, .target _ _ _, hr, dss, hl => by
    cases hl with
    | cons h2 h3 =>
      cases h3
      cases h2
      exact .target
  | _, _, .aux h1 hn, hr, dss, hl => by
    cases hl with
    | cons h2 h3 =>
      cases h3
      cases h2 with
      | aux h2 =>
        obtain ⟨dss, h5, rfl⟩ := looks_many hn h2
        rw [List.flatten_cons, List.flatten_nil, List.append_nil]
        exact .aux (h1.looks L hr h5)
theorem SpansIs.looks (L : Loaded h b t) {i : Nat} : ∀ {ss : List Span} {cs : List Content}, SpansIs i ss cs →
    (∀ name ∈ refsSpans ss, Sole b name) → ∀ {dss : List (List Dom)}, All2 (Looks S h t) cs dss → SpansDom b ss dss.flatten
  | _, _, .nil, _, dss, hl => by
    cases hl
    exact .nil
  | _, _, .cons h1 h2, hr, dss, hl => by
    obtain ⟨d1, d2, rfl, h3, h4⟩ := all2_append hl
    rw [List.flatten_append]
    rw [refsSpans] at hr
    exact .cons (h1.looks L (fun n hn => hr n (List.mem_append_left _ hn)) h3) (h2.looks L (fun n hn => hr n (List.mem_append_right _ hn)) h4)
end

theorem LinesIs.looks (L : Loaded h b t) {i : Nat} {ls : List (List Span)} {cs : List Content} (hl : LinesIs i ls cs)
    (hr : ∀ name ∈ ls.flatMap refsSpans, Sole b name) {dss : List (List Dom)} (hd : All2 (Looks S h t) cs dss) :
    All2 (SpansDom b) ls dss := by
  induction hl generalizing dss with
  | nil => cases hd; exact .nil
  | cons h1 hn _ ih =>
    cases hd with
    | cons h2 h3 =>
      rw [List.flatMap_cons] at hr
      obtain ⟨ess, h4, rfl⟩ := looks_many hn h2
      exact .cons (h1.looks L (fun n hn => hr n (List.mem_append_left _ hn)) h4) (ih (fun n hn => hr n (List.mem_append_right _ hn)) h3)

theorem GridIs.looks (L : Loaded h b t) {i : Nat} {rs : List (List (List Span))} {css : List (List Content)} (hl : GridIs i rs css)
    (hr : ∀ name ∈ rs.flatMap (·.flatMap refsSpans), Sole b name) {rows : List (List (List Dom))}
    (hd : All2 (All2 (Looks S h t)) css rows) : All2 (All2 (SpansDom b)) rs rows := by
  induction hl generalizing rows with
  | nil => cases hd; exact .nil
  | cons h1 _ ih =>
    cases hd with
    | cons h2 h3 =>
      rw [List.flatMap_cons] at hr
      exact .cons (h1.looks L (fun n hn => hr n (List.mem_append_left _ hn)) h2) (ih (fun n hn => hr n (List.mem_append_right _ hn)) h3)

theorem PairsIs.looks (L : Loaded h b t) {i : Nat} {ds : List (List Span × List Span)} {prs : List (Content × Content)} (hl : PairsIs i ds prs)
    (hr : ∀ name ∈ ds.flatMap fun d => refsSpans d.1 ++ refsSpans d.2, Sole b name) {dts dds : List (List Dom)}
    (h1 : All2 (Looks S h t) (prs.map (·.1)) dts) (h2 : All2 (Looks S h t) (prs.map (·.2)) dds) :
    All2 (SpansDom b) (ds.map (·.1)) dts ∧ All2 (SpansDom b) (ds.map (·.2)) dds := by
  induction hl generalizing dts dds with
  | nil => cases h1; cases h2; exact ⟨.nil, .nil⟩
  | cons g1 n1 g2 n2 _ ih =>
    cases h1 with
    | cons a1 a2 =>
      cases h2 with
      | cons b1 b2 =>
        rw [List.flatMap_cons] at hr
        obtain ⟨ess, a3, rfl⟩ := looks_many n1 a1
        obtain ⟨ess', b3, rfl⟩ := looks_many n2 b1
        have := ih (fun n hn => hr n (List.mem_append_right _ hn)) a2 b2
        exact ⟨.cons (g1.looks L (fun n hn => hr n (List.mem_append_left _ (List.mem_append_left _ hn))) a3) this.1,
          .cons (g2.looks L (fun n hn => hr n (List.mem_append_left _ (List.mem_append_right _ hn))) b3) this.2⟩

theorem RowsIs.looks {ls : List Str} {cs : List Content} (hl : RowsIs ls cs) {dss : List (List Dom)} (hd : All2 (Looks S h t) cs dss) :
    dss = ls.map lettering := by
  induction hl generalizing dss with
  | nil => cases hd; rfl
  | cons hn _ ih =>
    cases hd with
    | cons h2 h3 => rw [looks_text hn h2, ih h3]; rfl

/-! ### Tables of contents -/

theorem kids_nil {h : Heap} {par : Option Nat} {ps : List Part} {ts : List Tree} (hm : MadeL true h par ps ts) : ts = [] ↔ ps = [] := by
  cases hm <;> simp

theorem kids_at {ks : List Nat} {s : Tree} (ha : t.At ks s) (j : Nat) (c : Tree) (hc : s.kids[j]? = some c) : t.At (ks ++ [0 + j]) c := by
  rw [Nat.zero_add]
  exact .step ha hc

theorem kids_place {ks os : List Nat} {n : Nat} {o p : Part} (hp : Place b ks n os o p) (j : Nat) (q : Part) (hq : p.subs[j]? = some q) :
    ∃ n os o, Place b (ks ++ [0 + j]) n os o q := by
  rw [Nat.zero_add]
  cases e : p.split with
  | true => exact ⟨_, _, _, .page hp e hq⟩
  | false => exact ⟨_, _, _, .same hp e hq⟩

mutual
theorem Made.toc (L : Loaded h b t) : ∀ (p : Part) {ks os : List Nat} {n : Nat} {o : Part} {par : Option Nat} {s : Tree} {ds : List Dom},
    Place b ks n os o p → Made true h par p s → t.At ks s → Looks S h t (.toc s.root) ds → TocDom b ks p ds
  | .mk title tags split hide body subs, ks, os, n, o, par, s, ds, hp, hm, ha, hl => by
    generalize e : Content.toc s.root = y at hl
    cases hl with
    | @noToc s' h1 h2 =>
      injection e with e
      obtain ⟨ks', h1⟩ := h1
      obtain rfl := (ha.unique L.nodup h1 e).2
      rcases h2 with h2 | h2
      · exact .none (.inl ((kids_nil hm.inv.2.2.2).1 h2))
      · rw [hm.inv.2.1.omitToc] at h2
        exact .none (.inr h2)
    | @toc s' _ nav ul lis h1 h2 h3 h4 h5 h6 h7 =>
      injection e with e
      obtain ⟨ks', h1⟩ := h1
      obtain rfl := (ha.unique L.nodup h1 e).2
      exact .some (fun e => h2 ((kids_nil hm.inv.2.2.2).2 e)) (by rw [← hm.inv.2.1.omitToc]; exact h3)
        (MadeL.toc L subs hm.inv.2.2.2 (kids_place hp) (kids_at ha) h4) h5 h6 h7
    | _ => cases e
theorem MadeL.toc (L : Loaded h b t) : ∀ (ps : List Part) {ks : List Nat} {k : Nat} {par : Option Nat} {kids : List Tree} {lis : List (List Dom)},
    MadeL true h par ps kids → (∀ j q, ps[j]? = some q → ∃ n os o, Place b (ks ++ [k + j]) n os o q) →
    (∀ j c, kids[j]? = some c → t.At (ks ++ [k + j]) c) → All2 (Entry S h t) (kids.map Tree.root) lis → EntriesDom b ks k ps lis
  | [], ks, k, par, kids, lis, hm, hp, ha, hl => by
    cases hm
    cases hl
    exact .nil
  | p :: ps, ks, k, par, _, _, .cons (t := c) (ts := cs) h1 h2, hp, ha, .cons h3 h4 => by
    obtain ⟨n, os, o, hpl⟩ := hp 0 p rfl
    have hat := ha 0 c rfl
    rw [Nat.add_zero] at hpl hat
    have tail := MadeL.toc (ks := ks) (k := k + 1) L ps h2 (fun j q hq => by have := hp (j + 1) q hq; rwa [show k + 1 + j = k + (j + 1) by omega])
      (fun j c hc => by have := ha (j + 1) c hc; rwa [show k + 1 + j = k + (j + 1) by omega]) h4
    generalize e : c.root = r at h3
    cases h3 with
    | @entry s ks' d u v ti below ds g1 g2 g3 g4 g5 g6 g7 =>
      obtain ⟨rfl, rfl⟩ := hat.unique L.nodup g1 e
      obtain rfl := address_url L hpl g1 (by obtain ⟨l, e⟩ := h1.inv.2.1.tag; rw [e]) (by obtain ⟨l, e⟩ := h1.inv.2.1.tag; rw [e]) g2
      exact .cons hpl g3 (Made.toc L p hpl h1 hat g6) (h1.inv.2.1.headed.looks_strip g4 g5) g7 tail
end

/-! ### Blocks -/

mutual
theorem BlkIs.looks (L : Loaded h b t) {ks os : List Nat} {n : Nat} {o p : Part} {par : Option Nat} {s : Tree} (hp : Place b ks n os o p)
    (hm : Made true h par p s) (ha : t.At ks s) : ∀ {x : Blk} {c : Content}, BlkIs s.root x c → (∀ name ∈ x.refs, Sole b name) →
      ∀ {ds : List Dom}, Looks S h t c ds → BlkDom b ks p x ds
  | _, _, .para h1, hr, ds, hl => by
    cases hl with
    | para h2 => exact .para (h1.looks L hr h2)
  | _, _, .code h1, hr, ds, hl => by
    generalize e : Content.styled q%"verbatim" false _ [] = y at hl
    cases hl with
    | code hb _ =>
      injection e with e1 e2 e3 e4
      subst e3
      cases hb
    | codeBlock _ h2 =>
      injection e with e1 e2 e3 e4
      subst e3
      cases h2 with
      | pre h3 =>
        rw [h1.looks h3]
        exact .code
    | styled hs _ =>
      injection e with e1 e2 e3 e4
      subst e1
      cases hs
    | _ => cases e
  | _, _, .list h1, hr, ds, hl => by
    cases hl with
    | list h2 h3 => exact .list (h1.looks L hr h2) h3
  | _, _, .table h1, hr, ds, hl => by
    cases hl with
    | table h2 h3 h4 => exact .table (h1.looks L hr h2) h3 h4
  | _, _, .defs h1, hr, ds, hl => by
    cases hl with
    | defs h2 h3 h4 =>
      have := h1.looks L hr h2 h3
      exact .defs this.1 this.2 h4
  | .box a bs, _, .box h1 hn, hr, ds, hl => by
    generalize e : Content.styled _ false _ [] = y at hl
    cases hl with
    | code _ _ => injection e with e; cases a <;> cases e
    | codeBlock _ _ => injection e with e; cases a <;> cases e
    | @styled st el as _ c _ x g1 g2 =>
      injection e with e1 e2 e3 e4
      subst e1 e3
      obtain ⟨dss, h3, rfl⟩ := looks_many hn g2
      have := BlksIs.looks L hp hm ha h1 hr h3
      cases a with
      | true =>
        have g1 : some (q%"blockquote", [(q%"class", q%"aside")]) = some (el, as) := g1
        cases g1
        exact .aside this
      | false =>
        have g1 : some (q%"div", [(q%"style", q%"margin: 0 2em 1em"), (q%"class", q%"inset")]) = some (el, as) := g1
        cases g1
        exact .inset this
    | _ => cases e
  | _, _, .toc, hr, ds, hl => .toc (Made.toc L p hp hm ha hl)
theorem BlksIs.looks (L : Loaded h b t) {ks os : List Nat} {n : Nat} {o p : Part} {par : Option Nat} {s : Tree} (hp : Place b ks n os o p)
    (hm : Made true h par p s) (ha : t.At ks s) : ∀ {xs : List Blk} {cs : List Content}, BlksIs s.root xs cs →
      (∀ name ∈ refsBlks xs, Sole b name) → ∀ {dss : List (List Dom)}, All2 (Looks S h t) cs dss → BlksDom b ks p xs dss.flatten
  | _, _, .nil, hr, dss, hl => by
    cases hl
    exact .nil
  | _, _, .cons h1 h2, hr, dss, hl => by
    rw [refsBlks] at hr
    cases hl with
    | cons h3 h4 =>
      exact .cons (h1.looks L hp hm ha (fun n hn => hr n (List.mem_append_left _ hn)) h3)
        (h2.looks L hp hm ha (fun n hn => hr n (List.mem_append_right _ hn)) h4)
end

theorem Bodied.looks (L : Loaded h b t) {ks os : List Nat} {n : Nat} {o p : Part} {par : Option Nat} {s : Tree} (hp : Place b ks n os o p)
    (hm : Made true h par p s) (ha : t.At ks s) (hr : ∀ name ∈ refsBlks p.body, Sole b name) {ds : List Dom}
    (hl : Looks S h t (h.get s.root).body ds) : BlksDom b ks p p.body ds := by
  rcases hm.inv.2.2.1 with ⟨e, e'⟩ | ⟨cs, hn, hc, e⟩
  · rw [e'] at hl
    cases hl
    rw [e]
    exact .nil
  · rw [e] at hl
    obtain ⟨dss, h1, rfl⟩ := looks_many hn hl
    exact hc.looks L hp hm ha hr h1

/-! ### Sections -/

mutual
theorem Made.looks (L : Loaded h b t) (hr : RefsOk b) : ∀ (p : Part) {ks os : List Nat} {n : Nat} {o : Part} {par : Option Nat} {s : Tree}
    {ds : List Dom}, Place b ks n os o p → Made true h par p s → t.At ks s → Looks S h t (.sect s.root) ds → PartDom b ks n p ds
  | .mk title tags split hide body subs, ks, os, n, o, par, s, ds, hp, hm, ha, hl => by
    generalize e : Content.sect s.root = y at hl
    cases hl with
    | @sect s' ks' num ti bd _ kids g1 g2 g3 g4 g5 g6 =>
      injection e with e
      obtain ⟨rfl, rfl⟩ := ha.unique L.nodup g1 e
      obtain ⟨s'', so, par', par'', a1, a2, a3, a4, a5, a6⟩ := place_at L.made hp
      obtain ⟨l, et⟩ := hm.inv.2.1.tag
      rw [← a6, et] at g6
      refine .mk g2 (hm.inv.2.1.headed.looks g3) (Bodied.looks L hp hm ha (fun name hn => hr.named hp hn) g4) ?_ g6
      rw [hm.inv.2.1.split] at g5
      cases split with
      | true =>
        cases g5
        exact .nil
      | false =>
        rw [if_neg (by simp [Part.split])] at g5
        refine MadeL.looks L hr subs hm.inv.2.2.2 (fun j q hq => ?_) (kids_at ha) g5
        rw [Nat.zero_add]
        exact ⟨os, o, .same hp rfl hq⟩
    | _ => cases e
theorem MadeL.looks (L : Loaded h b t) (hr : RefsOk b) : ∀ (ps : List Part) {ks : List Nat} {n k : Nat} {par : Option Nat} {kids : List Tree}
    {dss : List (List Dom)}, MadeL true h par ps kids → (∀ j q, ps[j]? = some q → ∃ os o, Place b (ks ++ [k + j]) n os o q) →
    (∀ j c, kids[j]? = some c → t.At (ks ++ [k + j]) c) → All2 (Looks S h t) (kids.map fun c => .sect c.root) dss → PartsDom b ks n k ps dss
  | [], ks, n, k, par, kids, lis, hm, hp, ha, hl => by
    cases hm
    cases hl
    exact .nil
  | p :: ps, ks, n, k, par, _, _, .cons (t := c) (ts := cs) h1 h2, hp, ha, .cons h3 h4 => by
    obtain ⟨os, o, hpl⟩ := hp 0 p rfl
    have hat := ha 0 c rfl
    rw [Nat.add_zero] at hpl hat
    exact .cons (Made.looks L hr p hpl h1 hat h3)
      (MadeL.looks L hr ps h2 (fun j q hq => by have := hp (j + 1) q hq; rwa [show k + 1 + j = k + (j + 1) by omega])
      (fun j c hc => by have := ha (j + 1) c hc; rwa [show k + 1 + j = k + (j + 1) by omega]) h4)
end

end Booklit.Ms
