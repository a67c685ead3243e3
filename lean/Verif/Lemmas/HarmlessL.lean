import Verif.Spec.Harmless
import Verif.Lemmas.HtmlL

/-!
What holds of all nodes that the templates make.
-/

namespace Booklit

/-! ### Links -/

theorem normBytes_visible (bs : List Byte) : ∀ c ∈ normBytes bs, '!' ≤ c ∧ c ≤ '~' := by
  have hx : ∀ k : Nat, k < 16 → '!' ≤ hexDigit k ∧ hexDigit k ≤ '~' := by decide
  have hu : ∀ b : Nat, (urlByte b = true ∨ b = 37) → 32 < b ∧ b < 127 := by
    intro b h
    rcases h with h | h
    · simp only [urlByte, Bool.or_eq_true, Bool.and_eq_true, decide_eq_true_eq, List.contains_iff_mem, List.mem_cons,
        List.not_mem_nil, or_false] at h
      unfold Byte at h
      omega
    · omega
  have h1 : ∀ b : Nat, b < 127 → 32 < b → '!' ≤ Char.ofNat b ∧ Char.ofNat b ≤ '~' := by decide
  induction bs with
  | nil => intro c h; cases h
  | cons b bs ih =>
    intro c hc
    rw [normBytes] at hc
    split at hc
    · rename_i hk
      rcases List.mem_cons.1 hc with rfl | h
      · have : urlByte b = true ∨ b = 37 := by
          rw [Bool.or_eq_true] at hk
          exact hk.imp id isEscape_head
        obtain ⟨a, z⟩ := hu b this
        exact h1 b z a
      · exact ih c h
    · simp only [List.mem_cons] at hc
      rcases hc with rfl | rfl | rfl | h
      · decide
      · exact hx _ (Nat.mod_lt _ (by decide))
      · exact hx _ (Nat.mod_lt _ (by decide))
      · exact ih c h

theorem utf8Char_ascii {c : Char} (h : c.toNat < 128) : utf8Char c = [c.toNat] := by
  rw [utf8Char]
  simp [h]

theorem utf8Char_high {c : Char} (h : ¬ c.toNat < 128) : ∃ b bs, utf8Char c = b :: bs ∧ 192 ≤ b := by
  rw [utf8Char]
  simp only [h, if_false]
  split
  · exact ⟨_, _, rfl, Nat.le_add_right _ _⟩
  · split
    · exact ⟨_, _, rfl, Nat.le_trans (by decide : 192 ≤ 224) (Nat.le_add_right _ _)⟩
    · exact ⟨_, _, rfl, Nat.le_trans (by decide : 192 ≤ 240) (Nat.le_add_right _ _)⟩

/-- A prefix of a normalized URL without `%` stands in the URL itself. -/
theorem norm_prefix : ∀ (pre s rest : Str), (∀ c ∈ pre, c ≠ '%') → normBytes (utf8 s) = pre ++ rest →
    ∃ s', s = pre ++ s' ∧ normBytes (utf8 s') = rest := by
  intro pre
  induction pre with
  | nil => intro s rest _ e; exact ⟨s, rfl, e⟩
  | cons a pre ih =>
    intro s rest ha e
    cases s with
    | nil => simp [utf8, normBytes] at e
    | cons c s =>
      rw [utf8, List.flatMap_cons] at e
      by_cases hc : c.toNat < 128
      · rw [utf8Char_ascii hc, List.singleton_append, normBytes] at e
        split at e
        · rw [Char.ofNat_toNat] at e
          injection e with e1 e2
          subst e1
          obtain ⟨s', h1, h2⟩ := ih s rest (fun x hx => ha x (by simp [hx])) e2
          exact ⟨s', by rw [h1]; rfl, h2⟩
        · injection e with e1 e2
          exact absurd e1.symm (ha a (by simp))
      · obtain ⟨b, bs, hb, h192⟩ := utf8Char_high hc
        rw [hb, List.cons_append, normBytes, if_neg] at e
        · injection e with e1 e2
          exact absurd e1.symm (ha a (by simp))
        · intro hk
          rw [Bool.or_eq_true] at hk
          rcases hk with hk | hk
          · simp only [urlByte, Bool.or_eq_true, Bool.and_eq_true, decide_eq_true_eq, List.contains_iff_mem, List.mem_cons,
              List.not_mem_nil, or_false] at hk
            unfold Byte at hk h192
            omega
          · have := isEscape_head hk
            unfold Byte at this h192
            omega

theorem takeWhile_split (v : Str) (h : v.contains ':' = true) :
    ∃ r, v = v.takeWhile (· != ':') ++ ':' :: r := by
  induction v with
  | nil => cases h
  | cons c v ih =>
    by_cases hc : c = ':'
    · subst hc; exact ⟨v, by simp⟩
    · have h' : v.contains ':' = true := by
        simp only [List.contains_cons, Bool.or_eq_true, beq_iff_eq] at h
        exact h.resolve_left fun e => hc e.symm
      obtain ⟨r, hr⟩ := ih h'
      refine ⟨r, ?_⟩
      rw [List.takeWhile_cons, if_pos (by simpa using hc), List.cons_append, ← hr]

theorem takeWhile_colon (pre r : Str) (h : ∀ c ∈ pre, c ≠ ':') : (pre ++ ':' :: r).takeWhile (· != ':') = pre := by
  induction pre with
  | nil => simp
  | cons c pre ih =>
    rw [List.cons_append, List.takeWhile_cons, if_pos (by simpa using h c (by simp)), ih fun x hx => h x (by simp [hx])]

/-- Links that `html/template` lets through are safe. -/
theorem linkTo_safe (u : Str) : safeLink (linkTo u) = true := by
  rw [safeLink, Bool.and_eq_true]
  refine ⟨List.all_eq_true.2 fun c hc => ?_, ?_⟩
  · have := normBytes_visible _ c hc
    simp [this.1, this.2]
  · cases hs : schemeOf (linkTo u) with
    | none => rfl
    | some sch =>
      dsimp only
      simp only [schemeOf] at hs
      split at hs
      · rename_i hcond
        injection hs with hs
        rw [Bool.and_eq_true, Bool.and_eq_true] at hcond
        obtain ⟨⟨hcol, -⟩, hall⟩ := hcond
        obtain ⟨r, hr⟩ := takeWhile_split _ hcol
        generalize hp : (linkTo u).takeWhile (· != ':') = pre at hs hall hr
        have hpc : ∀ c ∈ pre, c ≠ '%' ∧ c ≠ ':' ∧ c ≠ '/' ∧ c ≠ 'ſ' := by
          intro c hc
          have := List.all_eq_true.1 hall c hc
          refine ⟨?_, ?_, ?_, ?_⟩ <;> rintro rfl <;> revert this <;> decide
        obtain ⟨s', h1, h2⟩ := norm_prefix pre (filterURL u) (':' :: r) (fun c hc => (hpc c hc).1) hr
        obtain ⟨s'', h3, h4⟩ := norm_prefix [':'] s' r (by decide) h2
        rw [h3] at h1
        have hsafe : safeURL u = true := by
          by_cases hu : safeURL u = true
          · exact hu
          · rw [filterURL, if_neg hu] at h1
            have : ':' ∈ q%"#ZgotmplZ" := by rw [h1]; simp
            exact absurd this (by decide)
        rw [filterURL, if_pos hsafe] at h1
        rw [safeURL] at hsafe
        dsimp only at hsafe
        have htw : u.takeWhile (· != ':') = pre := by
          rw [h1]
          exact takeWhile_colon pre s'' fun c hc => (hpc c hc).2.1
        rw [htw] at hsafe
        have hany : (u.any fun x => x == ':') = true := by
          rw [h1]
          simp
        have hsl : (pre.any fun x => x == '/') = false := by
          rw [List.any_eq_false]
          intro c hc
          simpa using (hpc c hc).2.2.1
        rw [hany, hsl] at hsafe
        simp only [Bool.not_false, Bool.and_true, if_true, Bool.or_eq_true, beq_iff_eq] at hsafe
        have hf : pre.map foldChar = sch := by
          rw [← hs]
          apply List.map_congr_left
          intro c hc
          rw [foldChar]
          by_cases hA : 'A' ≤ c ∧ c ≤ 'Z'
          · rw [if_pos hA, if_pos (by simpa using hA)]
          · rw [if_neg hA, if_neg (hpc c hc).2.2.2, if_neg (by simpa using hA)]
        rw [hf] at hsafe
        rcases hsafe with (rfl | rfl) | rfl <;> rfl
      · cases hs

/-! ### All nodes -/

/-- All nodes at any depth satisfy `Q`. -/
def AllIn (Q : Dom → Prop) (ds : List Dom) : Prop := ∀ d, Within d ds → Q d

theorem Within.nil {d : Dom} : ¬ Within d [] := by
  intro h
  cases h with
  | here h => cases h
  | deeper h _ => cases h

theorem Within.append {d : Dom} {a b : List Dom} : Within d (a ++ b) ↔ Within d a ∨ Within d b := by
  constructor
  · intro h
    cases h with
    | here h => exact (List.mem_append.1 h).imp .here .here
    | deeper h k => exact (List.mem_append.1 h).imp (.deeper · k) (.deeper · k)
  · rintro (h | h)
    · cases h with
      | here h => exact .here (by simp [h])
      | deeper h k => exact .deeper (List.mem_append.2 (.inl h)) k
    · cases h with
      | here h => exact .here (by simp [h])
      | deeper h k => exact .deeper (List.mem_append.2 (.inr h)) k

theorem Within.flatten {d : Dom} {l : List (List Dom)} : Within d l.flatten ↔ ∃ a ∈ l, Within d a := by
  induction l with
  | nil => simp [Within.nil]
  | cons a l ih => simp [Within.append, ih]

theorem Within.flatMap {α : Type} {d : Dom} {f : α → List Dom} {l : List α} :
    Within d (l.flatMap f) ↔ ∃ a ∈ l, Within d (f a) := by
  induction l with
  | nil => simp [Within.nil]
  | cons a l ih => simp [Within.append, ih]

theorem Within.elem {d : Dom} {n : Str} {as : List (Str × Str)} {ks : List Dom} :
    Within d [.elem n as ks] ↔ d = .elem n as ks ∨ Within d ks := by
  constructor
  · intro h
    cases h with
    | here h => exact .inl (List.mem_singleton.1 h)
    | deeper h k =>
      rw [List.mem_singleton] at h
      cases h
      exact .inr k
  · rintro (h | h)
    · exact .here (by simp [h])
    · exact .deeper (List.mem_singleton.2 rfl) h

theorem Within.join {d : Dom} {sep : List Dom} {l : List (List Dom)} (h : Within d (joinDom sep l)) :
    Within d sep ∨ ∃ a ∈ l, Within d a := by
  induction l with
  | nil => exact (Within.nil h).elim
  | cons a l ih =>
    cases l with
    | nil => exact .inr ⟨a, by simp, h⟩
    | cons b l =>
      rw [joinDom] at h
      · rcases Within.append.1 h with h | h
        · rcases Within.append.1 h with h | h
          · exact .inr ⟨a, by simp, h⟩
          · exact .inl h
        · rcases ih h with h | ⟨x, hx, h⟩
          · exact .inl h
          · exact .inr ⟨x, by simp [hx], h⟩
      · simp

theorem Within.join_of {d : Dom} {sep : List Dom} {l : List (List Dom)} {a : List Dom} (ha : a ∈ l) (h : Within d a) :
    Within d (joinDom sep l) := by
  induction l with
  | nil => cases ha
  | cons b l ih =>
    cases l with
    | nil => rw [List.mem_singleton] at ha; subst ha; exact h
    | cons c l =>
      rw [joinDom]
      · rcases List.mem_cons.1 ha with rfl | ha
        · exact Within.append.2 (.inl (Within.append.2 (.inl h)))
        · exact Within.append.2 (.inr (ih ha))
      · simp

section
variable {Q : Dom → Prop}

theorem AllIn.nil : AllIn Q [] := fun _ h => (Within.nil h).elim
theorem AllIn.append {a b : List Dom} (ha : AllIn Q a) (hb : AllIn Q b) : AllIn Q (a ++ b) :=
  fun d h => (Within.append.1 h).elim (ha d) (hb d)
theorem AllIn.elem {n as ks} (h : Q (.elem n as ks)) (hk : AllIn Q ks) : AllIn Q [.elem n as ks] :=
  fun d hd => (Within.elem.1 hd).elim (fun e => e ▸ h) (hk d)
theorem AllIn.chars (hQ : ∀ c, Q (.char c)) (s : Str) : AllIn Q (chars s) := by
  intro d hd
  cases hd with
  | here h =>
    obtain ⟨c, -, rfl⟩ := List.mem_map.1 h
    exact hQ c
  | deeper h _ =>
    obtain ⟨c, -, e⟩ := List.mem_map.1 h
    cases e
theorem AllIn.flatten {l : List (List Dom)} (h : ∀ a ∈ l, AllIn Q a) : AllIn Q l.flatten := by
  intro d hd
  obtain ⟨a, ha, hd⟩ := Within.flatten.1 hd
  exact h a ha d hd
theorem AllIn.flatMap {α : Type} {f : α → List Dom} {l : List α} (h : ∀ a ∈ l, AllIn Q (f a)) : AllIn Q (l.flatMap f) := by
  intro d hd
  obtain ⟨a, ha, hd⟩ := Within.flatMap.1 hd
  exact h a ha d hd
theorem AllIn.join {sep : List Dom} {l : List (List Dom)} (hs : AllIn Q sep) (h : ∀ a ∈ l, AllIn Q a) :
    AllIn Q (joinDom sep l) := by
  intro d hd
  rcases Within.join hd with hd | ⟨a, ha, hd⟩
  · exact hs d hd
  · exact h a ha d hd
end

/-- What a successful result satisfies. -/
def Brings {α : Type} (P : α → Prop) : Res α → Prop
  | .ok a => P a
  | _ => True

theorem Brings.map {α β : Type} {P : α → Prop} {R : β → Prop} {x : Res α} {f : α → β} (h : Brings P x)
    (hf : ∀ a, P a → R (f a)) : Brings R (x.map f) := by
  cases x <;> first | exact hf _ h | exact trivial
theorem Brings.bind {α β : Type} {P : α → Prop} {R : β → Prop} {x : Res α} {f : α → Res β} (h : Brings P x)
    (hf : ∀ a, P a → Brings R (f a)) : Brings R (x.bind f) := by
  cases x <;> first | exact hf _ h | exact trivial
theorem Brings.any {α : Type} {x : Res α} : Brings (fun _ => True) x := by cases x <;> exact trivial
theorem Brings.recover {α : Type} {P : α → Prop} {x : Res α} (h : Brings P x) : Brings P x.recover := by
  cases x <;> first | exact h | exact trivial
theorem Brings.resMap {α β : Type} {P : β → Prop} {f : α → Res β} {l : List α} (h : ∀ a ∈ l, Brings P (f a)) :
    Brings (fun bs => ∀ b ∈ bs, P b) (resMap f l) := by
  induction l with
  | nil => intro b hb; cases hb
  | cons a l ih =>
    refine (h a (by simp)).bind fun x hx => ?_
    refine (ih fun b hb => h b (by simp [hb])).map fun xs hxs => ?_
    intro b hb
    rcases List.mem_cons.1 hb with rfl | hb
    · exact hx
    · exact hxs b hb

/-- The elements of the built-in templates: those without links, and links that satisfy `L`. -/
structure Made (Q : Dom → Prop) (L : Str → Prop) : Prop where
  char : ∀ c, Q (.char c)
  elem : ∀ n as ks, n ∈ plainElements → (∀ a ∈ as, plainAttr a = true ∧ a.1 ≠ q%"href") → Q (.elem n as ks)
  link : ∀ u ks, L u → Q (.elem q%"a" [(q%"href", linkTo u)] ks)

theorem Made.el {Q : Dom → Prop} {L : Str → Prop} (M : Made Q L) {n as ks} (hn : plainElements.contains n = true)
    (ha : as.all (fun a => plainAttr a && a.1 != q%"href") = true) (hk : AllIn Q ks) : AllIn Q [.elem n as ks] :=
  .elem (M.elem n as ks (List.contains_iff_mem.1 hn) fun a h => by simpa using List.all_eq_true.1 ha a h) hk

theorem Made.to {Q : Dom → Prop} {L : Str → Prop} (M : Made Q L) {u ks} (hu : L u) (hk : AllIn Q ks) :
    AllIn Q [.elem q%"a" [(q%"href", linkTo u)] ks] :=
  .elem (M.link u ks hu) hk

/-- `Shows ok T L S h`: from contents that satisfy `ok` and sections in `T` only such contents and sections are shown, and
all links satisfy `L`. -/
structure Shows (ok : Content → Bool) (T : Nat → Prop) (L : Str → Prop) (S : Site) (h : Heap) : Prop where
  link : ∀ c u, ok (.link c u) = true → L u
  title : ∀ i, T i → (h.get i).title.all ok = true
  body : ∀ i, T i → (h.get i).body.all ok = true
  sect : ∀ i, ok (.sect i) = true ↔ T i
  toc : ∀ i, ok (.toc i) = true → T i
  kids : ∀ i, T i → ∀ c ∈ (h.get i).children, T c
  primary : ∀ i, T i → ∀ j n u, (h.get i).primaryTag.sec = some j →
    h.sectionURL htmlExt n j (h.get i).primaryTag.anchor = some u → L u
  ref : ∀ s t c o l, ok (.ref s t c o l) = true → ∀ n g, h.refTag n S.brokenOk s t o l = some (.tag g) →
    g.title.all ok = true ∧ ∀ i u, g.sec = some i → h.sectionURL htmlExt n i g.anchor = some u → L u
  force : ∀ b i c, ok (.lazy b i) = true → S.force i = some c → c.all ok = true
  strip : ∀ c c', c.isAux = false → stripAux c = some c' → ok c = true → ok c' = true

theorem domL_good {Q : Dom → Prop} {J : InnerDom} {cs : List Content} (h : ∀ c ∈ cs, Brings (AllIn Q) (c.dom J)) :
    Brings (fun ts => ∀ t ∈ ts, AllIn Q t) (domL J cs) := by
  induction cs with
  | nil => intro b hb; cases hb
  | cons a l ih =>
    refine (h a (by simp)).bind fun x hx => ?_
    refine (ih fun b hb => h b (by simp [hb])).map fun xs hxs => ?_
    intro b hb
    rcases List.mem_cons.1 hb with rfl | hb
    · exact hx
    · exact hxs b hb

theorem domR_good {Q : Dom → Prop} {J : InnerDom} {rs : List (List Content)}
    (h : ∀ r ∈ rs, ∀ c ∈ r, Brings (AllIn Q) (c.dom J)) :
    Brings (fun ts => ∀ r ∈ ts, ∀ t ∈ r, AllIn Q t) (domR J rs) := by
  induction rs with
  | nil => intro b hb; cases hb
  | cons a l ih =>
    refine (domL_good (h a (by simp))).bind fun x hx => ?_
    refine (ih fun b hb => h b (by simp [hb])).map fun xs hxs => ?_
    intro b hb
    rcases List.mem_cons.1 hb with rfl | hb
    · exact hx
    · exact hxs b hb

theorem domD_good {Q : Dom → Prop} {J : InnerDom} {ds : List (Content × Content)}
    (h : ∀ d ∈ ds, Brings (AllIn Q) (d.1.dom J) ∧ Brings (AllIn Q) (d.2.dom J)) :
    Brings (fun ts => ∀ t ∈ ts, AllIn Q t.1 ∧ AllIn Q t.2) (domD J ds) := by
  induction ds with
  | nil => intro b hb; cases hb
  | cons a l ih =>
    obtain ⟨a, b⟩ := a
    refine (h (a, b) (by simp)).1.bind fun x hx => ?_
    refine (h (a, b) (by simp)).2.bind fun y hy => ?_
    refine (ih fun b hb => h b (by simp [hb])).map fun xs hxs => ?_
    intro b hb
    rcases List.mem_cons.1 hb with rfl | hb
    · exact ⟨hx, hy⟩
    · exact hxs b hb

theorem style_plain {st n : Str} {as : List (Str × Str)} (h : styleElem st = some (n, as)) :
    plainElements.contains n = true ∧ as.all (fun a => plainAttr a && a.1 != q%"href") = true := by
  unfold styleElem at h
  repeat' split at h
  all_goals first | (cases h; done) | skip
  all_goals cases h
  all_goals exact ⟨by decide, by decide⟩

theorem plain_href (u : Str) : ([(q%"href", linkTo u)] : List (Str × Str)).all plainAttr = true := by
  simp [plainAttr, linkTo_safe]

theorem plain_img (u d : Str) :
    ([(q%"src", linkTo u), (q%"alt", d)] : List (Str × Str)).all (fun a => plainAttr a && a.1 != q%"href") = true := by
  simp [plainAttr, linkTo_safe]

theorem plain_id (u : Str) : ([(q%"id", u)] : List (Str × Str)).all (fun a => plainAttr a && a.1 != q%"href") = true := by
  simp [plainAttr]

theorem dom_good {Q : Dom → Prop} {L : Str → Prop} (M : Made Q L) {ok : Content → Bool} {J : InnerDom}
    (hlink : ∀ c u, ok (.link c u) = true → L u)
    (href : ∀ s t c o l, (Content.ref s t c o l).all ok = true → Brings (AllIn Q) (J.ref s t c o l))
    (hsect : ∀ i, ok (.sect i) = true → Brings (AllIn Q) (J.sect i))
    (htoc : ∀ i, ok (.toc i) = true → Brings (AllIn Q) (J.toc i))
    (hforce : ∀ b i, ok (.lazy b i) = true → Brings (AllIn Q) (J.force i))
    (hraw : ∀ c, Brings (AllIn Q) (J.raw c)) (c : Content) : c.all ok = true → Brings (AllIn Q) (c.dom J) := by
  have ws := AllIn.chars M.char
  induction c using Content.ind with
  | nil => intro _; exact trivial
  | str s => intro _; exact ws _
  | seq cs ih =>
    intro hc
    rw [Content.all, Bool.and_eq_true] at hc
    exact (domL_good fun c h => ih c h (allL_iff.1 hc.2 c h)).map fun a ha => .flatten ha
  | para cs ih =>
    intro hc
    rw [Content.all, Bool.and_eq_true] at hc
    exact (domL_good fun c h => ih c h (allL_iff.1 hc.2 c h)).map fun a ha => M.el (by decide) (by decide) (.join (ws _) ha)
  | pre cs ih =>
    intro hc
    rw [Content.all, Bool.and_eq_true] at hc
    exact (domL_good fun c h => ih c h (allL_iff.1 hc.2 c h)).map fun a ha => .join (ws _) ha
  | ref s t c o l ih => intro hc; exact href s t c o l hc
  | sect i => intro hc; exact hsect i hc
  | toc i => intro hc; exact htoc i hc
  | styled st b c ps ih ihp =>
    intro hc
    rw [Content.all, Bool.and_eq_true, Bool.and_eq_true] at hc
    have ih := ih hc.1.2
    rw [Content.dom]
    split
    · cases (if b = true then some false else isFlow c) with
      | none => exact trivial
      | some v =>
        cases v with
        | true => exact ih.map fun a ha => M.el (by decide) (by decide) ha
        | false => exact ih.map fun a ha => M.el (by decide) (by decide) ha
    · split
      · exact (hraw c).recover
      · cases h2 : styleElem st with
        | none => exact trivial
        | some q =>
          obtain ⟨h3, h4⟩ := style_plain (n := q.1) (as := q.2) h2
          exact ih.map fun a ha => M.el h3 h4 ha
  | target t l ti c _ _ => intro _; exact M.el (by decide) (plain_id _) .nil
  | image p d => intro _; exact M.el (by decide) (plain_img _ _) .nil
  | list cs o ih =>
    intro hc
    rw [Content.all, Bool.and_eq_true] at hc
    refine (domL_good fun c h => ih c h (allL_iff.1 hc.2 c h)).map fun a ha => M.el (by cases o <;> decide) (by decide) ?_
    refine ((ws _).append (.flatMap fun x hx => ?_)).append (ws _)
    exact ((ws _).append (M.el (by decide) (by decide) (ha x hx))).append (ws _)
  | link c u ih =>
    intro hc
    rw [Content.all, Bool.and_eq_true] at hc
    exact (ih hc.2).map fun a ha => M.to (hlink c u hc.1) ha
  | table rs ih =>
    intro hc
    rw [Content.all, Bool.and_eq_true] at hc
    refine (domR_good fun r hr c h => ih r hr c h (allR_iff.1 hc.2 r hr c h)).map fun a ha =>
      M.el (by decide) (by decide) ?_
    refine ((ws _).append (.flatMap fun r hr => ?_)).append (ws _)
    refine ((ws _).append (M.el (by decide) (by decide) ?_)).append (ws _)
    refine ((ws _).append (.flatMap fun x hx => ?_)).append (ws _)
    exact ((ws _).append (M.el (by decide) (by decide) (ha r hr x hx))).append (ws _)
  | defs ds ih =>
    intro hc
    rw [Content.all, Bool.and_eq_true] at hc
    refine (domD_good fun d h => ⟨(ih d h).1 (allD_iff.1 hc.2 d h).1, (ih d h).2 (allD_iff.1 hc.2 d h).2⟩).map fun a ha =>
      M.el (by decide) (by decide) ?_
    refine ((ws _).append (.flatMap fun x hx => ?_)).append (ws _)
    exact ((((ws _).append (M.el (by decide) (by decide) (ha x hx).1)).append (ws _)).append
      (M.el (by decide) (by decide) (ha x hx).2)).append (ws _)
  | lazy b i => intro hc; exact hforce b i hc
  | aux c ih =>
    intro hc
    rw [Content.all, Bool.and_eq_true] at hc
    exact ih hc.2

theorem Res.ofFuel_ok {α : Type} {x : Option α} : Brings (fun a => x = some a) (Res.ofFuel x) := by
  cases x with
  | none => exact trivial
  | some a => exact rfl

section
variable {Q : Dom → Prop} {ok : Content → Bool} {T : Nat → Prop} {L : Str → Prop} {S : Site} {h : Heap}

theorem ref_good (M : Made Q L) (H : Shows ok T L S h) {g} (A : ∀ c, c.all ok = true → Brings (AllIn Q) (g c)) (n : Nat)
    (s t c o l) (hc : (Content.ref s t c o l).all ok = true) : Brings (AllIn Q) (h.refDom S n g s t c o l) := by
  rw [Content.all, Bool.and_eq_true] at hc
  rw [Heap.refDom]
  cases e : h.refTag n S.brokenOk s t o l with
  | none => exact trivial
  | some r =>
    cases r with
    | unknown =>
      dsimp only
      rw [Heap.unknownTag]
      cases h.filePath n s with
      | none => exact trivial
      | some p => cases h.tagsUp (fun _ => true) n none s <;> exact trivial
    | ambiguous ls =>
      dsimp only
      rw [Heap.ambiguousTag]
      generalize resMap _ ls = x
      cases x with
      | ok ds => cases h.filePath n s <;> exact trivial
      | _ => exact trivial
    | nothing =>
      dsimp only
      cases hs : stripAux c with
      | none => exact trivial
      | some d => exact A d (strip_all H.strip _ d hs hc.2)
    | tag x =>
      obtain ⟨h1, h2⟩ := H.ref s t c o l hc.1 n x e
      dsimp only
      cases hx : x.sec with
      | none => exact trivial
      | some i =>
        refine Res.ofFuel_ok.bind fun u hu => ?_
        cases hs : stripAux (if c.isNil = true then x.title else c) with
        | none => exact trivial
        | some d =>
          refine (A d (strip_all H.strip _ d hs ?_)).map fun a ha => M.to (h2 i u hx hu) ha
          split
          · exact h1
          · exact hc.2

theorem head_plain {d : Nat} (h1 : 1 ≤ d) (h6 : d ≤ 6) : plainElements.contains ('h' :: decimal d) = true := by
  have : d = 1 ∨ d = 2 ∨ d = 3 ∨ d = 4 ∨ d = 5 ∨ d = 6 := by omega
  rcases this with rfl | rfl | rfl | rfl | rfl | rfl
  all_goals decide

theorem sect_good (M : Made Q L) (H : Shows ok T L S h) {g} (A : ∀ c, c.all ok = true → Brings (AllIn Q) (g c)) (n i : Nat)
    (hi : T i) : Brings (AllIn Q) (h.sectDom n g i) := by
  have ws := AllIn.chars M.char
  rw [Heap.sectDom]
  split
  · exact trivial
  · cases hd : h.headerDepth n i with
    | none => exact trivial
    | some d =>
      obtain ⟨h1, h6⟩ := headerDepth_range hd
      refine Brings.bind (P := AllIn Q) ?_ fun num hnum => ?_
      · split
        · exact Brings.any.map fun k _ => M.el (by decide) (by decide) ((ws _).append (ws _))
        · exact .nil
      refine Brings.bind (A _ (H.title i hi)) fun title htitle => ?_
      refine Brings.bind (A _ (H.body i hi)) fun body hbody => ?_
      refine Brings.map (P := AllIn Q) ?_ fun kids hkids => ?_
      · split
        · exact .nil
        · refine Brings.map (Brings.resMap (P := AllIn Q) fun c hc => A (.sect c) ((H.sect c).2 (H.kids i hi c hc)))
            fun ts hts => ?_
          refine ((ws _).append (.flatMap fun x hx => ?_)).append (ws _)
          exact ((ws _).append (hts x hx)).append (ws _)
      · exact ((((M.el (head_plain h1 h6) (by decide) (((M.el (by decide) (plain_id _) .nil).append hnum).append
          htitle)).append (ws _)).append hbody).append (ws _)).append hkids

theorem toc_good (M : Made Q L) (H : Shows ok T L S h) {g} (A : ∀ c, c.all ok = true → Brings (AllIn Q) (g c)) (n : Nat) :
    ∀ i, T i → Brings (AllIn Q) (h.tocDom g n i) := by
  have ws := AllIn.chars M.char
  induction n with
  | zero => intro i _; exact trivial
  | succ n ih =>
    intro i hi
    rw [Heap.tocDom]
    split
    · exact .nil
    · refine Brings.map (Brings.resMap (P := AllIn Q) fun c hc => ?_) fun ts hts => ?_
      · have hc := H.kids i hi c hc
        rw [Heap.tocEntryDom]
        cases hs : (h.get c).primaryTag.sec with
        | none => exact trivial
        | some j =>
          dsimp only
          refine Res.ofFuel_ok.bind fun u hu => ?_
          refine Brings.any.bind fun k _ => ?_
          cases hd : stripAux (h.get c).title with
          | none => exact trivial
          | some d =>
            dsimp only
            refine Brings.bind (A d (strip_all H.strip _ d hd (H.title c hc))) fun title htitle => ?_
            refine Brings.map (ih c hc) fun below hbelow => ?_
            refine ((ws _).append (M.el (by decide) (by decide) ?_)).append (ws _)
            refine ((((ws _).append (M.to (H.primary c hc j n u hs hu) ?_)).append (ws _)).append hbelow).append (ws _)
            exact ((ws _).append (ws _)).append htitle
      · refine ((ws _).append (M.el (by decide) (by decide) ?_)).append (ws _)
        refine ((ws _).append (M.el (by decide) (by decide) ?_)).append (ws _)
        exact ((ws _).append (.flatten hts)).append (ws _)

/-- Nothing but plain markup is made, apart from raw HTML. -/
theorem heap_good (M : Made Q L) (H : Shows ok T L S h) {raw : Content → Res (List Dom)}
    (hraw : ∀ c, Brings (AllIn Q) (raw c)) (n : Nat) : ∀ c, c.all ok = true → Brings (AllIn Q) (h.dom S raw n c) := by
  induction n with
  | zero =>
    intro c hc
    rw [Heap.dom]
    refine dom_good M H.link ?_ ?_ ?_ ?_ ?_ c hc
    all_goals intros; exact trivial
  | succ n ih =>
    intro c hc
    rw [Heap.dom]
    refine dom_good M H.link ?_ ?_ ?_ ?_ ?_ c hc
    · intro s t c o l h'; exact ref_good M H ih n s t c o l h'
    · intro i hi; exact sect_good M H ih n i ((H.sect i).1 hi)
    · intro i hi; exact toc_good M H ih n i (H.toc i hi)
    · intro b i hb
      dsimp only
      cases hf : S.force i with
      | none => exact trivial
      | some d => exact ih d (H.force b i d hb hf)
    · exact hraw
end

theorem made_plain :
    Made (fun d => ∀ n as ks, d = .elem n as ks → n ∈ plainElements ∧ ∀ a ∈ as, plainAttr a = true) fun _ => True where
  char := fun c n as ks e => by cases e
  elem := fun n as ks h1 h2 n' as' ks' e => by cases e; exact ⟨h1, fun a ha => (h2 a ha).1⟩
  link := fun u ks _ n as ks' e => by
    cases e
    exact ⟨by decide, fun a ha => List.all_eq_true.1 (plain_href u) a ha⟩

theorem AllIn.harmless {ds : List Dom}
    (h : AllIn (fun d => ∀ n as ks, d = .elem n as ks → n ∈ plainElements ∧ ∀ a ∈ as, plainAttr a = true) ds) : Harmless ds :=
  fun n as ks hi => h _ hi n as ks rfl

theorem all_true (c : Content) : c.all (fun _ => true) = true := by
  induction c using Content.ind <;> simp_all [Content.all, allL_iff, allP_iff, allR_iff, allD_iff]
  all_goals assumption

/-- Whatever is shown. -/
theorem Shows.any (S : Site) (h : Heap) : Shows (fun _ => true) (fun _ => True) (fun _ => True) S h where
  link := fun _ _ _ => trivial
  title := fun i _ => all_true _
  body := fun i _ => all_true _
  sect := fun _ => by simp
  toc := fun _ _ => trivial
  kids := fun _ _ _ _ => trivial
  primary := fun _ _ _ _ _ _ _ => trivial
  ref := fun _ _ _ _ _ _ _ _ _ => ⟨all_true _, fun _ _ _ _ => trivial⟩
  force := fun _ _ _ _ _ => all_true _
  strip := fun _ _ _ _ _ => rfl

end Booklit
