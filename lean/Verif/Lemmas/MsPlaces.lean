import Verif.Lemmas.MsLoad
import Verif.Lemmas.LooksL
import Verif.Lemmas.RendersL

/-!
The sections of a loaded manuscript: where they are, how they are named, and that everything in them can be shown.
-/

namespace Booklit.Ms

open Booklit Booklit.Src

/-! ### Positions -/

theorem at_place {h : Heap} {b : Part} {t : Tree} (hm : Made true h none b t) {ks : List Nat} {s : Tree} (ha : t.At ks s) :
    ∃ n os o p par, Place b ks n os o p ∧ Made true h par p s := by
  induction ha with
  | here => exact ⟨1, [], b, b, none, .top, hm⟩
  | @step ks p' k s _ hk ih =>
    obtain ⟨n, os, o, p, par, hp, hmp⟩ := ih
    obtain ⟨q, hq, hmq⟩ := hmp.inv.2.2.2.get' hk
    cases e : p.split with
    | true => exact ⟨1, ks ++ [k], q, q, _, .page hp e hq, hmq⟩
    | false => exact ⟨n + 1, os, o, q, _, .same hp e hq, hmq⟩

theorem place_at {h : Heap} {b : Part} {t : Tree} (hm : Made true h none b t) {ks os : List Nat} {n : Nat} {o p : Part}
    (hp : Place b ks n os o p) : ∃ s so par par', t.At ks s ∧ Made true h par p s ∧ t.At os so ∧ Made true h par' o so ∧
      OnPage h s.root so.root ∧ n = 1 + ((t.ancestors ks).takeWhile fun a => !(h.get a).resetDepth).length := by
  induction hp with
  | top => exact ⟨t, t, none, none, .here, hm, .here, hm, .top hm.inv.2.1.parent, by simp [Tree.ancestors]⟩
  | @page ks n os o p q k _ hs hk ih =>
    obtain ⟨s, so, par, par', a1, a2, a3, a4, a5, a6⟩ := ih
    obtain ⟨c, hc, hmc⟩ := a2.inv.2.2.2.get hk
    refine ⟨c, c, _, _, .step a1 hc, hmc, .step a1 hc, hmc, .split hmc.inv.2.1.parent (by rw [a2.inv.2.1.split, hs]), ?_⟩
    rw [ancestors_snoc a1 k hc]
    simp [a2.inv.2.1.resetDepth, hs]
  | @same ks n os o p q k _ hs hk ih =>
    obtain ⟨s, so, par, par', a1, a2, a3, a4, a5, a6⟩ := ih
    obtain ⟨c, hc, hmc⟩ := a2.inv.2.2.2.get hk
    refine ⟨c, so, _, _, .step a1 hc, hmc, a3, a4, .up hmc.inv.2.1.parent (by rw [a2.inv.2.1.split, hs]) a5, ?_⟩
    rw [ancestors_snoc a1 k hc, List.takeWhile_cons, if_pos (by simp [a2.inv.2.1.resetDepth, hs]), a6, List.length_cons]
    omega

/-- Sections with the same part: what is made determines the part at a place. -/
theorem place_unique {b : Part} {ks os os' : List Nat} {n n' : Nat} {o o' p p' : Part} (h : Place b ks n os o p)
    (h' : Place b ks n' os' o' p') : n = n' ∧ os = os' ∧ o = o' ∧ p = p' := by
  induction h generalizing n' os' o' p' with
  | top =>
    generalize e : ([] : List Nat) = l at h'
    cases h' with
    | top => exact ⟨rfl, rfl, rfl, rfl⟩
    | page _ _ _ => simp at e
    | same _ _ _ => simp at e
  | @page ks n os o p q k hp hs hk ih =>
    generalize e : ks ++ [k] = l at h'
    cases h' with
    | top => simp at e
    | page hp' hs' hk' =>
      obtain ⟨rfl, e2⟩ := List.append_inj' e rfl
      obtain rfl : k = _ := by simpa using e2
      obtain ⟨_, _, _, rfl⟩ := ih hp'
      rw [hk] at hk'
      cases hk'
      exact ⟨rfl, rfl, rfl, rfl⟩
    | same hp' hs' hk' =>
      obtain ⟨rfl, e2⟩ := List.append_inj' e rfl
      obtain ⟨_, _, _, rfl⟩ := ih hp'
      rw [hs] at hs'
      cases hs'
  | @same ks n os o p q k hp hs hk ih =>
    generalize e : ks ++ [k] = l at h'
    cases h' with
    | top => simp at e
    | page hp' hs' hk' =>
      obtain ⟨rfl, e2⟩ := List.append_inj' e rfl
      obtain ⟨_, _, _, rfl⟩ := ih hp'
      rw [hs] at hs'
      cases hs'
    | same hp' hs' hk' =>
      obtain ⟨rfl, e2⟩ := List.append_inj' e rfl
      obtain rfl : k = _ := by simpa using e2
      obtain ⟨rfl, rfl, rfl, rfl⟩ := ih hp'
      rw [hk] at hk'
      cases hk'
      exact ⟨rfl, rfl, rfl, rfl⟩

/-! ### Names -/

/-- The name is given once. -/
def Sole (b : Part) (name : Str) : Prop := b.names.count name = 1

theorem mem_all2 {α β : Type} {R : α → β → Prop} {as : List α} {bs : List β} (h : All2 R as bs) {y : β} (hy : y ∈ bs) : ∃ x ∈ as, R x y := by
  induction h with
  | nil => cases hy
  | cons h1 _ ih =>
    rcases List.mem_cons.1 hy with rfl | hy
    · exact ⟨_, List.mem_cons_self, h1⟩
    · obtain ⟨x, hx, h⟩ := ih hy
      exact ⟨x, List.mem_cons_of_mem _ hx, h⟩

theorem all2_names {i : Nat} {ms : List (Str × Str)} {gs : List Tag} (h : All2 (MarkIs i) ms gs) : gs.map (·.name) = ms.map (·.1) := by
  induction h with
  | nil => rfl
  | cons h1 _ ih =>
    obtain ⟨ss, l, _, _, _, rfl⟩ := h1
    rw [List.map_cons, List.map_cons, ih]

/-- The tags of a section: its own, and those of the targets in it. -/
theorem Shape.tag_cases {x : Sec} {par : Option Nat} {p : Part} {i : Nat} {kids : List Nat} (h : Shape true x par p i kids) {g : Tag}
    (hg : g ∈ x.tags) : (∃ name ∈ p.tags, ∃ l, g = ⟨name, x.title, some i, [], .nil, l⟩) ∨ ∃ m ∈ marksBlks p.body, MarkIs i m g := by
  obtain ⟨l, gs, e, hm⟩ := h.tags
  rw [e] at hg
  rcases List.mem_append.1 hg with hg | hg
  · obtain ⟨name, h1, h2⟩ := List.mem_map.1 hg
    exact .inl ⟨name, h1, l, h2.symm⟩
  · exact .inr (mem_all2 hm hg)

theorem Shape.headed {f : Bool} {x : Sec} {par : Option Nat} {p : Part} {i : Nat} {kids : List Nat} (h : Shape f x par p i kids) :
    Headed p.title x.title :=
  ⟨h.title.1.2.1, h.title.1.2.2, h.title.2⟩

theorem Shape.tag_title {x : Sec} {par : Option Nat} {p : Part} {i : Nat} {kids : List Nat} (h : Shape true x par p i kids) {g : Tag}
    (hg : g ∈ x.tags) : (∃ title, Headed title g.title) ∧ g.sec = some i ∧ g.content = .nil := by
  rcases h.tag_cases hg with ⟨name, hn, l, rfl⟩ | ⟨m, hm, ss, l, h1, h2, h3, rfl⟩
  · exact ⟨⟨_, h.headed⟩, rfl, rfl⟩
  · exact ⟨⟨_, headed_strs h2⟩, rfl, rfl⟩

/-- The names of the tags of a section. -/
theorem Shape.names {x : Sec} {par : Option Nat} {p : Part} {i : Nat} {kids : List Nat} (h : Shape true x par p i kids) :
    x.tags.map (·.name) = p.tags ++ (marksBlks p.body).map (·.1) := by
  obtain ⟨l, gs, e, hm⟩ := h.tags
  rw [e, List.map_append, all2_names hm, List.map_map]
  congr 1
  exact List.map_id _

theorem Part.name_mem (p : Part) : p.name ∈ p.tags := by
  cases p with | mk t gs _ _ _ _ =>
  cases gs <;> exact List.mem_cons_self

theorem Part.names_eq (p : Part) : p.names = p.tags ++ (marksBlks p.body).map (·.1) ++ namesParts p.subs := by
  cases p
  rw [Part.names]
  rfl

mutual
/-- The names of all tags are the names in the manuscript. -/
theorem Made.names {h : Heap} : ∀ {par : Option Nat} {p : Part} {t : Tree}, Made true h par p t →
    (t.ids.flatMap fun i => (h.get i).tags).map (·.name) = p.names
  | par, p, .node i kids, .mk h1 h2 h3 h4 => by
    rw [Tree.ids, List.flatMap_cons, List.map_append, MadeL.names h4, h2.names, Part.names_eq]
theorem MadeL.names {h : Heap} : ∀ {par : Option Nat} {ps : List Part} {ts : List Tree}, MadeL true h par ps ts →
    ((Tree.idsL ts).flatMap fun i => (h.get i).tags).map (·.name) = namesParts ps
  | _, _, _, .nil => rfl
  | _, _, _, .cons h1 h2 => by rw [Tree.idsL, List.flatMap_append, List.map_append, Made.names h1, MadeL.names h2, namesParts]
end

theorem tagsNamed_filter (h : Heap) (t : Tree) (name : Str) :
    t.tagsNamed h name = (t.ids.flatMap fun i => (h.get i).tags).filter fun g => g.name = name := by
  rw [Tree.tagsNamed]
  induction t.ids with
  | nil => rfl
  | cons i is ih => rw [List.flatMap_cons, List.flatMap_cons, List.filter_append, ih]

theorem tagsNamed_count {h : Heap} {b : Part} {t : Tree} (hm : Made true h none b t) (name : Str) :
    (t.tagsNamed h name).length = b.names.count name := by
  rw [tagsNamed_filter, ← hm.names, List.count, List.countP_map, List.countP_eq_length_filter]
  congr 2
  funext g
  by_cases e : g.name = name <;> simp [e]

theorem mem_tagsNamed {h : Heap} {t : Tree} {name : Str} {g : Tag} (hg : g ∈ t.tagsNamed h name) :
    g.name = name ∧ ∃ i ∈ t.ids, g ∈ (h.get i).tags := by
  rw [Tree.tagsNamed, List.mem_flatMap] at hg
  obtain ⟨i, hi, hg⟩ := hg
  rw [List.mem_filter] at hg
  exact ⟨by simpa using hg.2, i, hi, hg.1⟩

theorem tagsNamed_one {h : Heap} {b : Part} {t : Tree} (hm : Made true h none b t) {name : Str} (hu : Sole b name) :
    ∃ g ks s n os o p par, t.tagsNamed h name = [g] ∧ g.name = name ∧ g ∈ (h.get s.root).tags ∧ t.At ks s ∧ Place b ks n os o p ∧
      Made true h par p s := by
  have hl := tagsNamed_count hm name
  rw [hu] at hl
  obtain ⟨g, hg⟩ := List.length_eq_one_iff.1 hl
  obtain ⟨h1, i, hi, h2⟩ := mem_tagsNamed (hg ▸ List.mem_singleton.2 rfl : g ∈ t.tagsNamed h name)
  obtain ⟨s, ⟨ks, hs⟩, rfl⟩ := Tree.mem_ids.1 hi
  obtain ⟨n, os, o, p, par, hp, hmp⟩ := at_place hm hs
  exact ⟨g, ks, s, n, os, o, p, par, hg, h1, h2, hs, hp, hmp⟩

/-! ### Parts of the contents -/

/-- What there is in texts of references. -/
def Simple (i : Nat) (names : List Str) : Content → Prop
  | .str _ => True
  | .seq _ => True
  | .link _ _ => True
  | .image _ _ => True
  | .styled s _ _ _ => (s = q%"verbatim" ∨ (styling s).isSome = true) ∧ s ≠ q%"raw-html"
  | .ref j name _ o _ => j = i ∧ name ∈ names ∧ o = false
  | _ => False

theorem Simple.mono {i : Nat} {ns ms : List Str} {c : Content} (h : Simple i ns c) (hs : ∀ n ∈ ns, n ∈ ms) : Simple i ms c := by
  cases c with
  | ref j name c o l => exact ⟨h.1, hs _ h.2.1, h.2.2⟩
  | _ => exact h

/-- What there is in manuscripts. -/
def Plain (i : Nat) (names : List Str) : Content → Prop
  | .str _ => True
  | .seq _ => True
  | .para _ => True
  | .pre _ => True
  | .list _ _ => True
  | .link _ _ => True
  | .styled s _ _ _ => (s = q%"verbatim" ∨ (styling s).isSome = true) ∧ s ≠ q%"raw-html"
  | .image _ _ => True
  | .target _ _ _ _ => True
  | .table _ => True
  | .defs _ => True
  | .aux _ => True
  | .ref j name c o _ => j = i ∧ name ∈ names ∧ o = false ∧ (c = .nil ∨ ∀ d ∈ c.parts true, Simple i names d)
  | .toc j => j = i
  | _ => False

def Good (i : Nat) (names : List Str) (c : Content) : Prop :=
  ∀ deep, ∀ d ∈ c.parts deep, (Plain i names d ∧ d.noHoles = true) ∨ (deep = true ∧ d = .nil)

theorem Good.notNil {i : Nat} {ns : List Str} {c : Content} (h : Good i ns c) : c.isNil = false := by
  cases c with
  | nil =>
    rcases h false .nil (by simp [Content.parts]) with h | h
    · exact h.1.elim
    · cases h.1
  | _ => rfl

theorem Good.mono {i : Nat} {ns ms : List Str} {c : Content} (h : Good i ns c) (hs : ∀ n ∈ ns, n ∈ ms) : Good i ms c := by
  intro deep d hd
  rcases h deep d hd with h | h
  · refine .inl ⟨?_, h.2⟩
    cases d with
    | ref j name c o l => exact ⟨h.1.1, hs _ h.1.2.1, h.1.2.2.1, h.1.2.2.2.imp id fun h d hd => (h d hd).mono hs⟩
    | _ => exact h.1
  · exact .inr h

theorem good_str {i : Nat} {ns : List Str} {s : Str} : Good i ns (.str s) := by
  intro deep d hd
  rw [Content.parts, List.mem_singleton] at hd
  subst hd
  exact .inl ⟨trivial, rfl⟩

theorem good_many {i : Nat} {ns : List Str} {cs : List Content} {f : List Content → Content} (hp : ∀ deep, (f cs).parts deep = f cs :: partsL deep cs)
    (hf : Plain i ns (f cs)) (hh : (f cs).noHoles = cs.all (!·.isNil)) (h : ∀ c ∈ cs, Good i ns c) : Good i ns (f cs) := by
  intro deep d hd
  rw [hp, List.mem_cons] at hd
  rcases hd with rfl | hd
  · exact .inl ⟨hf, by rw [hh, List.all_eq_true]; intro c hc; rw [(h c hc).notNil]; rfl⟩
  · obtain ⟨c, hc, hd⟩ := mem_partsL.1 hd
    exact h c hc deep d hd

theorem good_oneBody {i : Nat} {ns : List Str} {cs : List Content} (hn : cs ≠ []) (h : ∀ c ∈ cs, Good i ns c) : Good i ns (oneBody cs) := by
  match cs, hn with
  | [c], _ => exact h c List.mem_cons_self
  | a :: b :: r, _ => exact good_many (f := .seq) (fun _ => rfl) trivial rfl h

theorem good_styled {i : Nat} {ns : List Str} {s : Str} {b : Bool} {c : Content}
    (hs : (s = q%"verbatim" ∨ (styling s).isSome = true) ∧ s ≠ q%"raw-html") (h : Good i ns c) : Good i ns (.styled s b c []) := by
  intro deep d hd
  rw [Content.parts, List.mem_cons, partsP, List.append_nil] at hd
  rcases hd with rfl | hd
  · exact .inl ⟨hs, by rw [Content.noHoles, h.notNil]; rfl⟩
  · exact h deep d hd

theorem good_strs {i : Nat} {ns : List Str} {ss : List Str} : ∀ c ∈ ss.map Content.str, Good i ns c := by
  intro c hc
  obtain ⟨s, _, rfl⟩ := List.mem_map.1 hc
  exact good_str

theorem simple_strs {i : Nat} {ns : List Str} {ss : List Str} : ∀ c ∈ ss.map Content.str, ∀ d ∈ c.parts true, Simple i ns d := by
  intro c hc d hd
  obtain ⟨s, _, rfl⟩ := List.mem_map.1 hc
  rw [Content.parts, List.mem_singleton] at hd
  subst hd
  trivial

theorem simple_oneBody {i : Nat} {ns : List Str} {cs : List Content} (hn : cs ≠ []) (h : ∀ c ∈ cs, ∀ d ∈ c.parts true, Simple i ns d) :
    ∀ d ∈ (oneBody cs).parts true, Simple i ns d := by
  match cs, hn with
  | [c], _ => exact h c List.mem_cons_self
  | a :: b :: r, _ =>
    intro d hd
    have e : oneBody (a :: b :: r) = .seq (a :: b :: r) := rfl
    rw [e, Content.parts, List.mem_cons] at hd
    rcases hd with rfl | hd
    · trivial
    · obtain ⟨c, hc, hd⟩ := mem_partsL.1 hd
      exact h c hc d hd

mutual
theorem SpanIs.simple {i : Nat} : ∀ {s : Span} {cs : List Content}, SpanIs i s cs → s.full → ∀ c ∈ cs, ∀ d ∈ c.parts true, Simple i s.refs d
  | _, _, .text _, _ => simple_strs
  | _, _, .code hn, _ => by
    intro c hc d hd
    obtain rfl := List.mem_singleton.1 hc
    rw [Content.parts, List.mem_cons, partsP, List.append_nil] at hd
    rcases hd with rfl | hd
    · exact ⟨.inl rfl, by decide⟩
    · exact simple_oneBody (by simpa using hn) simple_strs d hd
  | .styled f ss, _, .styled h hn, hf => by
    intro c hc d hd
    obtain rfl := List.mem_singleton.1 hc
    rw [Content.parts, List.mem_cons, partsP, List.append_nil] at hd
    rcases hd with rfl | hd
    · cases f <;> exact ⟨.inr (by decide), by decide⟩
    · exact simple_oneBody hn (h.simple hf) d hd
  | _, _, .link h hn, hf => by
    intro c hc d hd
    obtain rfl := List.mem_singleton.1 hc
    rw [Content.parts, List.mem_cons] at hd
    rcases hd with rfl | hd
    · trivial
    · exact simple_oneBody hn (h.simple hf) d hd
  | _, _, .ref, hf => hf.elim
  | _, _, .see _ h hn, hf => by
    intro c hc d hd
    obtain rfl := List.mem_singleton.1 hc
    rw [Content.parts, List.mem_cons, if_pos rfl] at hd
    rcases hd with rfl | hd
    · exact ⟨rfl, by simp [Span.refs], rfl⟩
    · exact (simple_oneBody hn (h.simple hf) d hd).mono fun n hn => List.mem_cons_of_mem _ hn
  | _, _, .image, _ => by
    intro c hc d hd
    obtain rfl := List.mem_singleton.1 hc
    rw [Content.parts, List.mem_singleton] at hd
    subst hd
    trivial
theorem SpansIs.simple {i : Nat} : ∀ {ss : List Span} {cs : List Content}, SpansIs i ss cs → fullSpans ss →
    ∀ c ∈ cs, ∀ d ∈ c.parts true, Simple i (refsSpans ss) d
  | _, _, .nil, _ => by intro c hc; cases hc
  | _, _, .cons h1 h2, hf => by
    intro c hc d hd
    rcases List.mem_append.1 hc with hc | hc
    · exact (h1.simple hf.1 c hc d hd).mono fun n hn => by rw [refsSpans]; exact List.mem_append_left _ hn
    · exact (h2.simple hf.2 c hc d hd).mono fun n hn => by rw [refsSpans]; exact List.mem_append_right _ hn
end

mutual
theorem SpanIs.good {i : Nat} : ∀ {s : Span} {cs : List Content}, SpanIs i s cs → ∀ c ∈ cs, Good i s.refs c
  | _, _, .text _ => good_strs
  | _, _, .code hn => by
    intro c hc
    obtain rfl := List.mem_singleton.1 hc
    exact good_styled ⟨.inl rfl, by decide⟩ (good_oneBody (by simpa using hn) good_strs)
  | .styled f ss, _, .styled h hn => by
    intro c hc
    obtain rfl := List.mem_singleton.1 hc
    exact good_styled (by cases f <;> decide) (good_oneBody hn h.good)
  | _, _, .link h hn => by
    intro c hc
    obtain rfl := List.mem_singleton.1 hc
    intro deep d hd
    rw [Content.parts, List.mem_cons] at hd
    rcases hd with rfl | hd
    · exact .inl ⟨trivial, by rw [Content.noHoles, (good_oneBody hn h.good).notNil]; rfl⟩
    · exact good_oneBody hn h.good deep d hd
  | _, _, .ref => by
    intro c hc
    obtain rfl := List.mem_singleton.1 hc
    intro deep d hd
    rw [Content.parts, List.mem_cons] at hd
    rcases hd with rfl | hd
    · exact .inl ⟨⟨rfl, by simp [Span.refs], rfl, .inl rfl⟩, rfl⟩
    · cases deep with
      | true => exact .inr ⟨rfl, by simpa [Content.parts] using hd⟩
      | false => simp at hd
  | _, _, .see hf h hn => by
    intro c hc
    obtain rfl := List.mem_singleton.1 hc
    intro deep d hd
    rw [Content.parts, List.mem_cons] at hd
    rcases hd with rfl | hd
    · exact .inl ⟨⟨rfl, by simp [Span.refs], rfl, .inr fun d hd =>
        (simple_oneBody hn (h.simple hf) d hd).mono fun n hn => List.mem_cons_of_mem _ hn⟩, rfl⟩
    · cases deep with
      | true => exact (good_oneBody hn h.good).mono (fun n hn => List.mem_cons_of_mem _ hn) true d hd
      | false => simp at hd
  | _, _, .image => by
    intro c hc
    obtain rfl := List.mem_singleton.1 hc
    intro deep d hd
    rw [Content.parts, List.mem_singleton] at hd
    subst hd
    exact .inl ⟨trivial, rfl⟩
  | .target name title, _, .target (ss := ss) _ hn _ => by
    intro c hc
    obtain rfl := List.mem_singleton.1 hc
    have hg : Good i (Span.target name title).refs (oneBody (ss.map .str)) := good_oneBody (by simpa using hn) good_strs
    intro deep d hd
    rw [Content.parts, List.mem_cons] at hd
    rcases hd with rfl | hd
    · exact .inl ⟨trivial, by rw [Content.noHoles, hg.notNil]; rfl⟩
    · cases deep with
      | true =>
        rw [if_pos rfl, List.mem_append] at hd
        rcases hd with hd | hd
        · exact hg true d hd
        · exact .inr ⟨rfl, by simpa [Content.parts] using hd⟩
      | false => simp at hd
  | _, _, .aux h hn => by
    intro c hc
    obtain rfl := List.mem_singleton.1 hc
    intro deep d hd
    rw [Content.parts, List.mem_cons] at hd
    rcases hd with rfl | hd
    · exact .inl ⟨trivial, by rw [Content.noHoles, (good_oneBody hn h.good).notNil]; rfl⟩
    · exact good_oneBody hn h.good deep d hd
theorem SpansIs.good {i : Nat} : ∀ {ss : List Span} {cs : List Content}, SpansIs i ss cs → ∀ c ∈ cs, Good i (refsSpans ss) c
  | _, _, .nil => by intro c hc; cases hc
  | _, _, .cons h1 h2 => by
    intro c hc
    rcases List.mem_append.1 hc with hc | hc
    · exact (h1.good c hc).mono fun n hn => by rw [refsSpans]; exact List.mem_append_left _ hn
    · exact (h2.good c hc).mono fun n hn => by rw [refsSpans]; exact List.mem_append_right _ hn
end

theorem LinesIs.good {i : Nat} {ls : List (List Span)} {cs : List Content} (h : LinesIs i ls cs) : ∀ c ∈ cs, Good i (ls.flatMap refsSpans) c := by
  induction h with
  | nil => intro c hc; cases hc
  | cons h hn _ ih =>
    intro c hc
    rw [List.flatMap_cons]
    rcases List.mem_cons.1 hc with rfl | hc
    · exact (good_oneBody hn h.good).mono fun n hn => List.mem_append_left _ hn
    · exact (ih c hc).mono fun n hn => List.mem_append_right _ hn

theorem GridIs.good {i : Nat} {rs : List (List (List Span))} {css : List (List Content)} (h : GridIs i rs css) :
    ∀ cs ∈ css, ∀ c ∈ cs, Good i (rs.flatMap (·.flatMap refsSpans)) c := by
  induction h with
  | nil => intro cs hc; cases hc
  | cons h _ ih =>
    intro cs hc c hm
    rw [List.flatMap_cons]
    rcases List.mem_cons.1 hc with rfl | hc
    · exact (h.good c hm).mono fun n hn => List.mem_append_left _ hn
    · exact (ih cs hc c hm).mono fun n hn => List.mem_append_right _ hn

theorem PairsIs.good {i : Nat} {ds : List (List Span × List Span)} {prs : List (Content × Content)} (h : PairsIs i ds prs) :
    ∀ x ∈ prs, Good i (ds.flatMap fun d => refsSpans d.1 ++ refsSpans d.2) x.1 ∧ Good i (ds.flatMap fun d => refsSpans d.1 ++ refsSpans d.2) x.2 := by
  induction h with
  | nil => intro x hx; cases hx
  | cons h1 n1 h2 n2 _ ih =>
    intro x hx
    rw [List.flatMap_cons]
    rcases List.mem_cons.1 hx with rfl | hx
    · exact ⟨(good_oneBody n1 h1.good).mono fun n hn => List.mem_append_left _ (List.mem_append_left _ hn),
        (good_oneBody n2 h2.good).mono fun n hn => List.mem_append_left _ (List.mem_append_right _ hn)⟩
    · exact ⟨(ih x hx).1.mono fun n hn => List.mem_append_right _ hn, (ih x hx).2.mono fun n hn => List.mem_append_right _ hn⟩

theorem RowsIs.good {i : Nat} {ls : List Str} {cs : List Content} (h : RowsIs ls cs) : ∀ c ∈ cs, Good i [] c := by
  induction h with
  | nil => intro c hc; cases hc
  | cons hn _ ih =>
    intro c hc
    rcases List.mem_cons.1 hc with rfl | hc
    · exact good_oneBody (by simpa using hn) good_strs
    · exact ih c hc

mutual
theorem BlkIs.good {i : Nat} : ∀ {b : Blk} {c : Content}, BlkIs i b c → Good i b.refs c
  | _, _, .para h => good_many (f := .para) (fun _ => rfl) trivial rfl h.good
  | _, _, .code h => good_styled ⟨.inl rfl, by decide⟩ (good_many (f := .pre) (fun _ => rfl) trivial rfl h.good)
  | _, _, .list (o := o) h => good_many (f := (.list · o)) (fun _ => rfl) trivial rfl h.good
  | _, _, .table h => by
    intro deep d hd
    rw [Content.parts, List.mem_cons] at hd
    rcases hd with rfl | hd
    · refine .inl ⟨trivial, ?_⟩
      rw [Content.noHoles, List.all_eq_true]
      intro r hr
      rw [List.all_eq_true]
      intro c hc
      rw [(h.good r hr c hc).notNil]
      rfl
    · obtain ⟨r, hr, c, hc, hd⟩ := mem_partsR.1 hd
      exact h.good r hr c hc deep d hd
  | _, _, .defs h => by
    intro deep d hd
    rw [Content.parts, List.mem_cons] at hd
    rcases hd with rfl | hd
    · refine .inl ⟨trivial, ?_⟩
      rw [Content.noHoles, List.all_eq_true]
      intro x hx
      rw [(h.good x hx).1.notNil, (h.good x hx).2.notNil]
      rfl
    · obtain ⟨x, hx, hd | hd⟩ := mem_partsD.1 hd
      · exact (h.good x hx).1 deep d hd
      · exact (h.good x hx).2 deep d hd
  | _, _, .box (a := a) h hn => good_styled (by cases a <;> decide) (good_oneBody hn h.good)
  | _, _, .toc => by
    intro deep d hd
    rw [Content.parts, List.mem_singleton] at hd
    subst hd
    exact .inl ⟨rfl, rfl⟩
theorem BlksIs.good {i : Nat} : ∀ {bs : List Blk} {cs : List Content}, BlksIs i bs cs → ∀ c ∈ cs, Good i (refsBlks bs) c
  | _, _, .nil => by intro c hc; cases hc
  | _, _, .cons h1 h2 => by
    intro c hc
    rw [refsBlks]
    rcases List.mem_cons.1 hc with rfl | hc
    · exact h1.good.mono fun n hn => List.mem_append_left _ hn
    · exact (h2.good c hc).mono fun n hn => List.mem_append_right _ hn
end

/-- What there is in titles. -/
def InTitle : Content → Prop
  | .str _ => True
  | .seq _ => True
  | .styled s _ _ _ => (s = q%"verbatim" ∨ (styling s).isSome = true) ∧ s ≠ q%"raw-html"
  | .image _ _ => True
  | .aux _ => True
  | _ => False

/-- Contents with nothing else than what there is in titles. -/
def AllTitle (c : Content) : Prop := c.isNil = false ∧ ∀ deep, ∀ d ∈ c.parts deep, InTitle d ∧ d.noHoles = true

theorem allTitle_strs {ss : List Str} : ∀ c ∈ ss.map Content.str, AllTitle c := by
  intro c hc
  obtain ⟨s, _, rfl⟩ := List.mem_map.1 hc
  refine ⟨rfl, fun deep d hd => ?_⟩
  rw [Content.parts, List.mem_singleton] at hd
  subst hd
  exact ⟨trivial, rfl⟩

theorem Whole.allTitle {cs : List Content} {c : Content} (h : Whole cs c) (hc : ∀ c ∈ cs, AllTitle c) : AllTitle c := by
  have hseq : AllTitle (.seq cs) := by
    refine ⟨rfl, fun deep d hd => ?_⟩
    rw [Content.parts, List.mem_cons] at hd
    rcases hd with rfl | hd
    · exact ⟨trivial, by rw [Content.noHoles, List.all_eq_true]; intro c hm; rw [(hc c hm).1]; rfl⟩
    · obtain ⟨c, hm, hd⟩ := mem_partsL.1 hd
      exact (hc c hm).2 deep d hd
  rcases h with ⟨hn, rfl⟩ | rfl
  · match cs, hn with
    | [c], _ => exact hc c List.mem_cons_self
    | a :: b :: r, _ => exact hseq
  · exact hseq

theorem allTitle_styled {s : Str} {c : Content} (hs : (s = q%"verbatim" ∨ (styling s).isSome = true) ∧ s ≠ q%"raw-html") (h : AllTitle c) :
    AllTitle (.styled s false c []) := by
  refine ⟨rfl, fun deep d hd => ?_⟩
  rw [Content.parts, List.mem_cons, partsP, List.append_nil] at hd
  rcases hd with rfl | hd
  · exact ⟨hs, by rw [Content.noHoles, h.1]; rfl⟩
  · exact h.2 deep d hd

mutual
theorem TitleIs.all : ∀ {s : Span} {cs : List Content}, TitleIs s cs → ∀ c ∈ cs, AllTitle c
  | _, _, .text _ => allTitle_strs
  | _, _, .code h => by
    intro c hc
    obtain rfl := List.mem_singleton.1 hc
    exact allTitle_styled ⟨.inl rfl, by decide⟩ (h.allTitle allTitle_strs)
  | .styled f ss, _, .styled h hw => by
    intro c hc
    obtain rfl := List.mem_singleton.1 hc
    exact allTitle_styled (by cases f <;> decide) (hw.allTitle h.all)
  | _, _, .image => by
    intro c hc
    obtain rfl := List.mem_singleton.1 hc
    refine ⟨rfl, fun deep d hd => ?_⟩
    rw [Content.parts, List.mem_singleton] at hd
    subst hd
    exact ⟨trivial, rfl⟩
  | _, _, .aux h hn => by
    intro c hc
    obtain rfl := List.mem_singleton.1 hc
    have hw := Whole.allTitle (Or.inl ⟨hn, rfl⟩) h.all
    refine ⟨rfl, fun deep d hd => ?_⟩
    rw [Content.parts, List.mem_cons] at hd
    rcases hd with rfl | hd
    · exact ⟨trivial, by rw [Content.noHoles, hw.1]; rfl⟩
    · exact hw.2 deep d hd
theorem TitlesIs.all : ∀ {ss : List Span} {cs : List Content}, TitlesIs ss cs → ∀ c ∈ cs, AllTitle c
  | _, _, .nil => by intro c hc; cases hc
  | _, _, .cons h1 h2 => by
    intro c hc
    rcases List.mem_append.1 hc with hc | hc
    · exact h1.all c hc
    · exact h2.all c hc
end

theorem TitlesIs.one {ss : List Span} {cs : List Content} (h : TitlesIs ss cs) (hn : cs ≠ []) : AllTitle (oneBody cs) :=
  Whole.allTitle (Or.inl ⟨hn, rfl⟩) h.all

theorem AllTitle.good {c : Content} (h : AllTitle c) {j : Nat} {ns : List Str} : Good j ns c := by
  intro deep d hd
  obtain ⟨h1, h2⟩ := h.2 deep d hd
  refine .inl ⟨?_, h2⟩
  cases d with
  | styled s b c ps => exact h1
  | nil => exact h1.elim
  | sect i => exact h1.elim
  | toc i => exact h1.elim
  | lazy b i => exact h1.elim
  | ref j name c o l => exact h1.elim
  | _ => trivial

theorem AllTitle.ok {c : Content} (hc : AllTitle c) {S : Site} {h : Heap} {t : Tree} : TitleOk S h t c := by
  intro d hd
  obtain ⟨h1, h2⟩ := hc.2 true d hd
  cases d with
  | styled s b c ps => exact h1.1.elim .inl fun h => .inr (.inl h)
  | nil => exact h1.elim
  | sect i => exact h1.elim
  | toc i => exact h1.elim
  | lazy b i => exact h1.elim
  | ref j name c o l => exact h1.elim
  | _ => trivial

theorem Shape.allTitle {x : Sec} {par : Option Nat} {p : Part} {i : Nat} {kids : List Nat} (h : Shape true x par p i kids) : AllTitle x.title := by
  obtain ⟨-, cs, hn, ht, e⟩ := h.title
  rw [e]
  exact ht.one hn

theorem Shape.allTag {x : Sec} {par : Option Nat} {p : Part} {i : Nat} {kids : List Nat} (h : Shape true x par p i kids) {g : Tag}
    (hg : g ∈ x.tags) : AllTitle g.title := by
  obtain ⟨⟨_, -, -, cs, hn, ht, e⟩, _⟩ := h.tag_title hg
  rw [e]
  exact ht.one hn

theorem Bodied.good {x : Sec} {p : Part} {i : Nat} (h : Bodied x p i) : Good i (refsBlks p.body) x.body := by
  rcases h with ⟨_, e⟩ | ⟨cs, hn, hc, e⟩
  · rw [e]; exact good_str
  · rw [e]; exact good_oneBody hn hc.good

theorem Shape.shownGood {x : Sec} {par : Option Nat} {p : Part} {i : Nat} {kids : List Nat} (h : Shape true x par p i kids) (hb : Bodied x p i)
    {c : Content} (hc : c ∈ x.shown) : Good i (refsBlks p.body) c := by
  rw [Sec.shown, List.mem_cons, List.mem_cons, List.mem_map] at hc
  rcases hc with rfl | rfl | ⟨g, hg, rfl⟩
  · exact h.allTitle.good
  · exact hb.good
  · exact (h.allTag hg).good

/-! ### Everything can be shown -/

theorem RefsOk.named {b : Part} (hr : RefsOk b) {ks os : List Nat} {n : Nat} {o p : Part} (hp : Place b ks n os o p) {name : Str}
    (hm : name ∈ refsBlks p.body) : Sole b name := hr _ _ _ _ _ hp name hm

theorem Loaded.at {h : Heap} {b : Part} {t : Tree} (L : Loaded h b t) {i : Nat} (hi : i ∈ t.ids) :
    ∃ s ks n os o p par, t.At ks s ∧ s.root = i ∧ Place b ks n os o p ∧ Made true h par p s := by
  obtain ⟨s, ⟨ks, hs⟩, e⟩ := Tree.mem_ids.1 hi
  obtain ⟨n, os, o, p, par, hp, hm⟩ := at_place L.made hs
  exact ⟨s, ks, n, os, o, p, par, hs, e, hp, hm⟩

theorem Loaded.titleOk {S : Site} {h : Heap} {b : Part} {t : Tree} (L : Loaded h b t) {i : Nat} (hi : i ∈ t.ids) :
    TitleOk S h t (h.get i).title := by
  obtain ⟨s, ks, n, os, o, p, par, hs, rfl, hp, hm⟩ := L.at hi
  exact hm.inv.2.1.allTitle.ok

theorem Loaded.sane {S : Site} {h : Heap} {b : Part} {t : Tree} (L : Loaded h b t) (hr : RefsOk b) : Sane S h t := by
  refine ⟨fun i hi => ?_, fun i hi g hg => ?_, fun i hi => L.titleOk hi, fun i hi d hd => ?_⟩ <;>
    obtain ⟨s, ks, n, os, o, p, par, hs, rfl, hp, hm⟩ := L.at hi
  · exact .inl hm.inv.2.1.style
  · exact (hm.inv.2.1.tag_title hg).2.1
  · have hg := (hm.inv.2.2.1.good false d hd).resolve_right (by simp)
    replace hg := hg.1
    cases d with
    | ref j name c o l =>
      have found : ∀ name ∈ refsBlks p.body, ∃ g, t.tagsNamed h name = [g] ∧ TitleOk S h t g.title := by
        intro name hname
        obtain ⟨g, ks', s', n', os', o', q, par', h1, h2, h3, h4, h5, h6⟩ := tagsNamed_one L.made (hr.named hp hname)
        exact ⟨g, h1, (h6.inv.2.1.allTag h3).ok⟩
      obtain ⟨rfl, hname, rfl, hc⟩ := hg
      obtain ⟨g', ht, e⟩ := found name hname
      refine ⟨hi, .inl ⟨_, ht⟩, ?_⟩
      rcases hc with rfl | hc
      · refine .inl ⟨rfl, fun g hg => ?_⟩
        rw [ht, List.mem_singleton] at hg
        rw [hg]
        exact e
      · refine .inr fun d hd => ?_
        have hd := hc d hd
        cases d with
        | ref j name c o l =>
          obtain ⟨rfl, hname, rfl⟩ := hd
          obtain ⟨g', ht, e⟩ := found name hname
          exact ⟨hi, .inl ⟨_, ht⟩⟩
        | styled s b c ps => exact hd.1.elim .inl fun h => .inr (.inl h)
        | nil => exact hd.elim
        | sect i => exact hd.elim
        | toc i => exact hd.elim
        | lazy b i => exact hd.elim
        | _ => trivial
    | toc j =>
      obtain rfl := hg
      refine ⟨hi, fun j hj _ => ?_⟩
      obtain ⟨s', ks', n', os', o', p', par', hs', rfl, hp', hm'⟩ := L.at hj
      obtain ⟨l, e⟩ := hm'.inv.2.1.tag
      rw [e]
    | styled s b c ps => exact hg.1.elim .inl fun h => .inr (.inl h)
    | nil => exact hg.elim
    | sect i => exact hg.elim
    | lazy b i => exact hg.elim
    | _ => trivial

theorem Plain.noRaw {i : Nat} {ns : List Str} {d : Content} (h : Plain i ns d) : d.noRaw = true := by
  cases d with
  | styled s b c ps => simpa [Content.noRaw] using h.2
  | _ => rfl

theorem Plain.inBook {i : Nat} {ns : List Str} {t : Tree} {d : Content} (h : Plain i ns d) (hi : i ∈ t.ids) : d.inBook t = true := by
  cases d with
  | styled s b c ps => simpa [Content.inBook] using h.2
  | ref j name c o l =>
    obtain ⟨rfl, _⟩ := h
    simpa [Content.inBook] using hi
  | toc j =>
    have h : j = i := h
    subst h
    simpa [Content.inBook] using hi
  | sect j => exact h.elim
  | _ => rfl

theorem Loaded.noRaw {h : Heap} {b : Part} {t : Tree} (L : Loaded h b t) :
    ∀ i, ∀ c ∈ (h.get i).shown, ∀ d ∈ c.parts true, d.noRaw = true := by
  intro i c hc d hd
  by_cases hi : i ∈ t.ids
  · obtain ⟨s, ks, n, os, o, p, par, hs, rfl, hp, hm⟩ := L.at hi
    rcases hm.inv.2.1.shownGood hm.inv.2.2.1 hc true d hd with h | ⟨_, rfl⟩
    · exact h.1.noRaw
    · rfl
  · rw [Heap.get_out (by rw [← L.ids]; exact hi)] at hc
    simp only [Sec.shown, Sec.fresh, List.map_nil, List.mem_cons, List.not_mem_nil, or_false, or_self] at hc
    subst hc
    simp only [Content.parts, List.mem_singleton] at hd
    subst hd
    rfl

theorem Loaded.inBook {h : Heap} {b : Part} {t : Tree} (L : Loaded h b t) :
    ∀ i ∈ t.ids, ∀ c ∈ (h.get i).shown, ∀ d ∈ c.parts true, d.inBook t = true := by
  intro i hi c hc d hd
  obtain ⟨s, ks, n, os, o, p, par, hs, rfl, hp, hm⟩ := L.at hi
  rcases hm.inv.2.1.shownGood hm.inv.2.2.1 hc true d hd with h | ⟨_, rfl⟩
  · exact h.1.inBook hi
  · rfl

end Booklit.Ms
