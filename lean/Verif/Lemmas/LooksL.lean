import Verif.Lemmas.LinksL
import Verif.Lemmas.OutputL

/-!
The trees that are rendered look as `Verif.Spec.Looks` says.
-/

namespace Booklit

open Tree

/-! ### Links -/

theorem slash_first (u : Str) (h : ':' ∉ u.takeWhile (· ≠ '/')) (hc : u.any (· == ':') = true) :
    (u.takeWhile (· != ':')).any (· == '/') = true := by
  induction u with
  | nil => simp at hc
  | cons c u ih =>
    by_cases h1 : c = '/'
    · subst h1
      simp
    · by_cases h2 : c = ':'
      · subst h2
        simp at h
      · simp only [List.takeWhile_cons, ne_eq, h1, not_false_eq_true, decide_true, if_true, List.mem_cons, not_or] at h
        simp only [List.any_cons, Bool.or_eq_true, beq_iff_eq, h2, false_or] at hc
        have := ih (by simpa using h.2) hc
        simp only [List.takeWhile_cons, bne_iff_ne, ne_eq, h2, not_false_eq_true, if_true, List.any_cons, this, Bool.or_true]

theorem allowed_safe {u : Str} (h : allowedUrl u) : safeURL u = true := by
  rcases h with h | ⟨s, hs, r, rfl⟩
  · unfold safeURL
    dsimp only
    split
    · rename_i hc
      rw [Bool.and_eq_true] at hc
      rw [slash_first u h hc.1] at hc
      simp at hc
    · rfl
  · simp only [List.mem_cons, List.not_mem_nil, or_false] at hs
    rcases hs with rfl | rfl | rfl <;> rfl

theorem urlChar_byte {c : Char} (h : urlChar c) : c.toNat < 128 ∧ urlByte c.toNat = true := by
  have key : ∀ n : Nat, n < 128 → urlChar (Char.ofNat n) → urlByte n = true := by
    unfold urlChar
    decide +kernel
  have hlt : c.toNat < 128 := by
    unfold urlChar at h
    rcases h with h | h | h | h
    · have : c.toNat ≤ 'z'.toNat := h.2
      exact Nat.lt_of_le_of_lt this (by decide)
    · have : c.toNat ≤ 'Z'.toNat := h.2
      exact Nat.lt_of_le_of_lt this (by decide)
    · have : c.toNat ≤ '9'.toNat := h.2
      exact Nat.lt_of_le_of_lt this (by decide)
    · revert c
      decide
  exact ⟨hlt, key _ hlt (by rwa [Char.ofNat_toNat])⟩

theorem byte_url : ∀ n : Nat, n < 256 → urlByte n = true → urlChar (Char.ofNat n) := by
  unfold urlChar
  decide +kernel

theorem digit_byte {c : Char} {a : Nat} (h : digitValue c = some a) : c.toNat < 128 ∧ isHex c.toNat = true := by
  have hlt : c.toNat < 128 := by
    rw [digitValue] at h
    split at h
    · rename_i hc; exact Nat.lt_of_le_of_lt (show c.toNat ≤ '9'.toNat from hc.2) (by decide)
    split at h
    · rename_i hc; exact Nat.lt_of_le_of_lt (show c.toNat ≤ 'f'.toNat from hc.2) (by decide)
    split at h
    · rename_i hc; exact Nat.lt_of_le_of_lt (show c.toNat ≤ 'F'.toNat from hc.2) (by decide)
    · cases h
  refine ⟨hlt, ?_⟩
  rw [← digit_hex _ (Nat.lt_trans hlt (by decide)), Char.ofNat_toNat, h]
  rfl

theorem digit_some : ∀ n : Nat, n < 16 → ∃ a, digitValue (hexDigit n) = some a :=
  fun _ h => ⟨_, digitValue_hexDigit h⟩

theorem encoded_norm (n : Nat) : ∀ bs : List Byte, bs.length ≤ n → (∀ b ∈ bs, b < 256) → Encoded (normBytes bs) := by
  induction n with
  | zero =>
    intro bs hn _
    rw [List.length_eq_zero_iff.1 (Nat.le_zero.1 hn)]
    exact .nil
  | succ n ih =>
    intro bs hn h
    cases bs with
    | nil => exact .nil
    | cons b bs =>
      have hr := ih bs (by simpa using hn) fun x hx => h x (by simp [hx])
      rw [normBytes]
      cases hu : urlByte b with
      | true =>
        rw [Bool.true_or, if_pos rfl]
        exact .char (byte_url b (h b (by simp)) hu) hr
      | false =>
        rw [Bool.false_or]
        split
        · rename_i he
          match bs, he with
          | x :: y :: bs, he =>
            simp only [isEscape, Bool.and_eq_true, decide_eq_true_eq] at he
            obtain ⟨⟨rfl, hx⟩, hy⟩ := he
            have hx' : x < 256 := h x (by simp)
            have hy' : y < 256 := h y (by simp)
            obtain ⟨a, ha⟩ := Option.isSome_iff_exists.1 ((digit_hex x hx').trans hx)
            obtain ⟨c, hc⟩ := Option.isSome_iff_exists.1 ((digit_hex y hy').trans hy)
            rw [normBytes, hex_url x hx' hx, Bool.true_or, if_pos rfl, normBytes, hex_url y hy' hy, Bool.true_or, if_pos rfl]
            exact .escape ha hc (ih bs (by simp at hn; omega) fun z hz => h z (by simp [hz]))
        · obtain ⟨a, ha⟩ := digit_some (b / 16 % 16) (Nat.mod_lt _ (by decide))
          obtain ⟨c, hc⟩ := digit_some (b % 16) (Nat.mod_lt _ (by decide))
          exact .escape ha hc hr

theorem leadsTo_linkTo (u : Str) : LeadsTo u (linkTo u) where
  safe := linkTo_safe u
  same := fun h hc => by
    rw [linkTo, filterURL, if_pos (allowed_safe h)]
    clear h
    induction hc with
    | nil => rfl
    | @char c u hc _ ih =>
      obtain ⟨h1, h2⟩ := urlChar_byte hc
      rw [utf8, List.flatMap_cons, utf8Char_ascii h1, List.singleton_append, normBytes, h2, Bool.true_or, if_pos rfl,
        Char.ofNat_toNat]
      exact congrArg _ ih
    | @escape x y a b u hx hy _ ih =>
      obtain ⟨h1, h2⟩ := digit_byte hx
      obtain ⟨h3, h4⟩ := digit_byte hy
      rw [utf8, List.flatMap_cons, List.flatMap_cons, List.flatMap_cons, utf8Char_ascii (by decide : '%'.toNat < 128),
        utf8Char_ascii h1, utf8Char_ascii h3, List.singleton_append, List.singleton_append, List.singleton_append, normBytes,
        isEscape, h2, h4, if_pos (by simp), normBytes, hex_url _ (Nat.lt_trans h1 (by decide)) h2, Bool.true_or, if_pos rfl,
        normBytes, hex_url _ (Nat.lt_trans h3 (by decide)) h4, Bool.true_or, if_pos rfl, Char.ofNat_toNat, Char.ofNat_toNat,
        Char.ofNat_toNat]
      exact congrArg (fun r => '%' :: x :: y :: r) ih
  encoded := encoded_norm _ _ (Nat.le_refl _) (utf8_bytes _)
  decoded := fun h => by
    rw [linkTo, filterURL, if_pos (allowed_safe h)]
    exact unpercent_same _ _ (Nat.le_refl _) (utf8_bytes u)

/-! ### Spacing -/

theorem blank_nil : Blank [] := fun _ h => by cases h

theorem blank_chars {s : Str} (h : s.all (fun c => c == ' ' || c == '\n') = true) : Blank (chars s) := by
  intro d hd
  obtain ⟨c, hc, rfl⟩ := List.mem_map.1 hd
  have := List.all_eq_true.1 h c hc
  simpa using this

theorem Blank.append {a b : List Dom} (ha : Blank a) (hb : Blank b) : Blank (a ++ b) := fun d hd =>
  (List.mem_append.1 hd).elim (ha d) (hb d)

theorem Spaced.blank {w ds : List Dom} {ps : List (List Dom)} (hw : Blank w) (h : Spaced ps ds) : Spaced ps (w ++ ds) := by
  cases h with
  | done hv => exact .done (hw.append hv)
  | piece hv h =>
    rw [← List.append_assoc, ← List.append_assoc]
    exact .piece (hw.append hv) h

theorem Spaced.cons {p ds : List Dom} {ps : List (List Dom)} (h : Spaced ps ds) : Spaced (p :: ps) (p ++ ds) :=
  .piece (w := []) blank_nil h

theorem Spaced.nil : Spaced [] [] := .done blank_nil

theorem Spaced.one {a p z : List Dom} (ha : Blank a) (hz : Blank z) : Spaced [p] (a ++ p ++ z) := .piece ha (.done hz)

theorem Spaced.append {ds es : List Dom} {ps qs : List (List Dom)} (h : Spaced ps ds) (h2 : Spaced qs es) :
    Spaced (ps ++ qs) (ds ++ es) := by
  induction h with
  | done hw => exact h2.blank hw
  | piece hw _ ih =>
    rw [List.append_assoc]
    exact .piece hw ih

theorem Spaced.flatMap {α : Type} {l : List α} {f : α → List (List Dom)} {g : α → List Dom} (h : ∀ a ∈ l, Spaced (f a) (g a)) :
    Spaced (l.flatMap f) (l.flatMap g) := by
  induction l with
  | nil => exact .nil
  | cons a l ih =>
    rw [List.flatMap_cons, List.flatMap_cons]
    exact (h a (by simp)).append (ih fun x hx => h x (by simp [hx]))

theorem map_flatMap {α : Type} {l : List α} {f : α → List Dom} : l.map f = l.flatMap fun a => [f a] := by
  induction l with
  | nil => rfl
  | cons a l ih => simp [ih]

/-! ### Lists -/

theorem All2.imp {α β : Type} {R Q : α → β → Prop} {as : List α} {bs : List β} (h : All2 R as bs)
    (hq : ∀ a ∈ as, ∀ b, R a b → Q a b) : All2 Q as bs := by
  induction h with
  | nil => exact .nil
  | cons hab _ ih => exact .cons (hq _ (by simp) _ hab) (ih fun a ha => hq a (by simp [ha]))

theorem All2.map_left {α β γ : Type} {R : γ → β → Prop} {f : α → γ} {as : List α} {bs : List β}
    (h : All2 (fun a b => R (f a) b) as bs) : All2 R (as.map f) bs := by
  induction h with
  | nil => exact .nil
  | cons hab _ ih => exact .cons hab ih

theorem All2.map_right {α γ : Type} {R : α → γ → Prop} {f : α → γ} {as : List α}
    (h : ∀ a ∈ as, R a (f a)) : All2 R as (as.map f) := by
  induction as with
  | nil => exact .nil
  | cons a as ih => exact .cons (h a (by simp)) (ih fun x hx => h x (by simp [hx]))

theorem resMap_all2 {α β : Type} {f : α → Res β} {l : List α} {bs : List β} (h : resMap f l = .ok bs) :
    All2 (fun a b => f a = .ok b) l bs := by
  induction l generalizing bs with
  | nil => cases h; exact .nil
  | cons a l ih =>
    rw [resMap] at h
    obtain ⟨b, h1, h⟩ := Res.ok_of_bind h
    obtain ⟨bs', h2, rfl⟩ := Res.ok_of_map h
    exact .cons h1 (ih h2)

theorem domL_all2 {J : InnerDom} {cs : List Content} {ts : List (List Dom)} (h : domL J cs = .ok ts) :
    All2 (fun c t => c.dom J = .ok t) cs ts := by
  induction cs generalizing ts with
  | nil => cases h; exact .nil
  | cons a l ih =>
    rw [domL] at h
    obtain ⟨b, h1, h⟩ := Res.ok_of_bind h
    obtain ⟨bs', h2, rfl⟩ := Res.ok_of_map h
    exact .cons h1 (ih h2)

theorem domR_all2 {J : InnerDom} {rs : List (List Content)} {ts : List (List (List Dom))} (h : domR J rs = .ok ts) :
    All2 (All2 fun c t => c.dom J = .ok t) rs ts := by
  induction rs generalizing ts with
  | nil => cases h; exact .nil
  | cons a l ih =>
    rw [domR] at h
    obtain ⟨b, h1, h⟩ := Res.ok_of_bind h
    obtain ⟨bs', h2, rfl⟩ := Res.ok_of_map h
    exact .cons (domL_all2 h1) (ih h2)

theorem domD_all2 {J : InnerDom} {ds : List (Content × Content)} {ts : List (List Dom × List Dom)} (h : domD J ds = .ok ts) :
    All2 (fun d t => d.1.dom J = .ok t.1 ∧ d.2.dom J = .ok t.2) ds ts := by
  induction ds generalizing ts with
  | nil => cases h; exact .nil
  | cons a l ih =>
    rw [domD] at h
    obtain ⟨b, h1, h⟩ := Res.ok_of_bind h
    obtain ⟨b', h1', h⟩ := Res.ok_of_bind h
    obtain ⟨bs', h2, rfl⟩ := Res.ok_of_map h
    exact .cons ⟨h1, h1'⟩ (ih h2)

theorem joinDom_intercalate (sep : List Dom) (l : List (List Dom)) : joinDom sep l = sep.intercalate l := by
  induction l with
  | nil => simp [joinDom, List.intercalate]
  | cons a l ih =>
    cases l with
    | nil => simp [joinDom, List.intercalate]
    | cons b l =>
      rw [joinDom, ih]
      · simp [List.intercalate, List.intersperse]
      · simp

/-! ### Contents -/

theorem styling_eq (st : Str) : styleElem st = styling st := by
  unfold styleElem styling
  repeat' split
  all_goals first
    | (subst st; rfl)
    | skip
  rename_i h1 h2 h3 h4 h5 h6 h7 h8 h9
  have f : ∀ {a b : Str}, ¬ a = b → (a == b) = false := fun h => by simpa using h
  simp only [List.lookup, f h1, f h2, f h3, f h4, f h5, f h6, f h7, f h8, f h9]

section
variable {S : Site} {h : Heap} {t : Tree}

theorem dom_looks {ok : Content → Bool} {J : InnerDom}
    (hraw : ∀ st b c ps, ok (.styled st b c ps) = true → st ≠ q%"raw-html")
    (href : ∀ s n c o l, (Content.ref s n c o l).all ok = true → ∀ ds, J.ref s n c o l = .ok ds → Looks S h t (.ref s n c o l) ds)
    (hsect : ∀ i, ok (.sect i) = true → ∀ ds, J.sect i = .ok ds → Looks S h t (.sect i) ds)
    (htoc : ∀ i, ok (.toc i) = true → ∀ ds, J.toc i = .ok ds → Looks S h t (.toc i) ds)
    (hforce : ∀ b i, ok (.lazy b i) = true → ∀ ds, J.force i = .ok ds → Looks S h t (.lazy b i) ds) (c : Content) :
    c.all ok = true → ∀ ds, c.dom J = .ok ds → Looks S h t c ds := by
  induction c using Content.ind with
  | nil => intro _ ds e; cases e
  | str s => intro _ ds e; cases e; exact .str
  | seq cs ih =>
    intro hc ds e
    rw [Content.all, Bool.and_eq_true] at hc
    obtain ⟨ts, h1, rfl⟩ := Res.ok_of_map e
    exact .seq ((domL_all2 h1).imp fun c hm d hd => ih c hm (allL_iff.1 hc.2 c hm) d hd)
  | para cs ih =>
    intro hc ds e
    rw [Content.all, Bool.and_eq_true] at hc
    obtain ⟨ts, h1, rfl⟩ := Res.ok_of_map e
    rw [joinDom_intercalate]
    exact .para ((domL_all2 h1).imp fun c hm d hd => ih c hm (allL_iff.1 hc.2 c hm) d hd)
  | pre cs ih =>
    intro hc ds e
    rw [Content.all, Bool.and_eq_true] at hc
    obtain ⟨ts, h1, rfl⟩ := Res.ok_of_map e
    rw [joinDom_intercalate]
    exact .pre ((domL_all2 h1).imp fun c hm d hd => ih c hm (allL_iff.1 hc.2 c hm) d hd)
  | ref s n c o l ih => intro hc ds e; exact href s n c o l hc ds e
  | sect i => intro hc ds e; exact hsect i hc ds e
  | toc i => intro hc ds e; exact htoc i hc ds e
  | styled st b c ps ih ihp =>
    intro hc ds e
    rw [Content.all, Bool.and_eq_true, Bool.and_eq_true] at hc
    have ih := ih hc.1.2
    rw [Content.dom] at e
    split at e
    · rename_i hv
      subst hv
      cases hb : (if b = true then some false else isFlow c) with
      | none => rw [hb] at e; cases e
      | some v =>
        rw [hb] at e
        cases v with
        | true =>
          obtain ⟨x, hx, rfl⟩ := Res.ok_of_map e
          cases b with
          | true => cases hb
          | false => exact .code (by simpa using hb) (ih x hx)
        | false =>
          obtain ⟨x, hx, rfl⟩ := Res.ok_of_map e
          refine .codeBlock ?_ (ih x hx)
          cases b with
          | true => exact .inl rfl
          | false => exact .inr (by simpa using hb)
    · rw [if_neg (hraw _ _ _ _ hc.1.1)] at e
      cases h2 : styleElem st with
      | none => rw [h2] at e; cases e
      | some q =>
        rw [h2] at e
        obtain ⟨x, hx, rfl⟩ := Res.ok_of_map e
        exact .styled (by rw [← styling_eq, h2]) (ih x hx)
  | target n l ti c _ _ => intro _ ds e; cases e; exact .target
  | image p d => intro _ ds e; cases e; exact .image (leadsTo_linkTo p)
  | list cs o ih =>
    intro hc ds e
    rw [Content.all, Bool.and_eq_true] at hc
    obtain ⟨ts, h1, rfl⟩ := Res.ok_of_map e
    refine .list ((domL_all2 h1).imp fun c hm d hd => ih c hm (allL_iff.1 hc.2 c hm) d hd) ?_
    rw [map_flatMap, List.append_assoc]
    refine Spaced.blank (blank_chars rfl) ?_
    rw [← List.append_nil (List.flatMap (fun a => [[Dom.elem q%"li" [] a]]) ts)]
    exact (Spaced.flatMap fun x _ => .one (blank_chars rfl) (blank_chars rfl)).append (.done (blank_chars rfl))
  | link c u ih =>
    intro hc ds e
    rw [Content.all, Bool.and_eq_true] at hc
    obtain ⟨x, hx, rfl⟩ := Res.ok_of_map e
    exact .link (leadsTo_linkTo u) (ih hc.2 x hx)
  | table rs ih =>
    intro hc ds e
    rw [Content.all, Bool.and_eq_true] at hc
    obtain ⟨ts, h1, rfl⟩ := Res.ok_of_map e
    refine .table ((domR_all2 h1).imp fun r hr d hd => hd.imp fun c hm x hx => ih r hr c hm (allR_iff.1 hc.2 r hr c hm) x hx)
      (trs := ts.map fun r => chars q%"\n    "
        ++ (r.flatMap fun t => chars q%"\n    " ++ [.elem q%"td" [] t] ++ chars q%"\n    ") ++ chars q%"\n  ") (.map_right fun r _ => ?_) ?_
    · rw [map_flatMap, List.append_assoc]
      refine Spaced.blank (blank_chars rfl) ?_
      rw [← List.append_nil (List.flatMap (fun a => [[Dom.elem q%"td" [] a]]) r)]
      exact (Spaced.flatMap fun x _ => .one (blank_chars rfl) (blank_chars rfl)).append (.done (blank_chars rfl))
    · rw [List.map_map, map_flatMap, List.append_assoc]
      refine Spaced.blank (blank_chars rfl) ?_
      rw [← List.append_nil (List.flatMap _ ts)]
      exact (Spaced.flatMap fun x _ => .one (blank_chars rfl) (blank_chars rfl)).append (.done (blank_chars rfl))
  | defs ps ih =>
    intro hc ds e
    rw [Content.all, Bool.and_eq_true] at hc
    obtain ⟨ts, h1, rfl⟩ := Res.ok_of_map e
    have h2 := (domD_all2 h1).imp fun d hd x hx => (⟨(ih d hd).1 (allD_iff.1 hc.2 d hd).1 _ hx.1,
      (ih d hd).2 (allD_iff.1 hc.2 d hd).2 _ hx.2⟩ : Looks S h t d.1 x.1 ∧ Looks S h t d.2 x.2)
    clear h1 hc ih e
    have h3 : All2 (Looks S h t) (ps.map (·.1)) (ts.map (·.1)) ∧ All2 (Looks S h t) (ps.map (·.2)) (ts.map (·.2)) := by
      induction h2 with
      | nil => exact ⟨.nil, .nil⟩
      | cons hab _ ih => exact ⟨.cons hab.1 ih.1, .cons hab.2 ih.2⟩
    refine .defs h3.1 h3.2 ?_
    have h4 : (ts.map (·.1)).zip (ts.map (·.2)) = ts := by
      clear h2 h3
      induction ts with
      | nil => rfl
      | cons a l ih => simp [ih]
    rw [h4, List.append_assoc]
    refine Spaced.blank (blank_chars rfl) ?_
    rw [← List.append_nil (List.flatMap _ ts)]
    refine (Spaced.flatMap fun x _ => ?_).append (.done (blank_chars rfl))
    rw [List.append_assoc, List.append_assoc]
    refine .piece (blank_chars rfl) ?_
    rw [← List.append_assoc]
    exact .one (blank_chars rfl) (blank_chars rfl)
  | lazy b i => intro hc ds e; exact hforce b i hc ds e
  | aux c ih =>
    intro hc ds e
    rw [Content.all, Bool.and_eq_true] at hc
    exact .aux (ih hc.2 ds e)

end

/-! ### More fuel changes nothing -/

theorem number_mono {h : Heap} {i : Nat} {d : Str} : ∀ {n m : Nat}, n ≤ m → h.number n i = some d → h.number m i = some d := by
  intro n
  induction n generalizing i d with
  | zero => intro m _ he; simp [Heap.number] at he
  | succ n ih =>
    intro m hm he
    obtain ⟨m, rfl⟩ : ∃ k, m = k + 1 := ⟨m - 1, by omega⟩
    rw [Heap.number] at he ⊢
    split at he
    · exact he
    · next p hp =>
      cases hd : h.number n p with
      | none => rw [hd] at he; simp at he
      | some x => rw [hd] at he; rw [ih (by omega) hd]; exact he

theorem pageDepth_mono {h : Heap} {i d : Nat} : ∀ {n m : Nat}, n ≤ m → h.pageDepth n i = some d → h.pageDepth m i = some d := by
  intro n
  induction n generalizing i d with
  | zero => intro m _ he; simp [Heap.pageDepth] at he
  | succ n ih =>
    intro m hm he
    obtain ⟨m, rfl⟩ : ∃ k, m = k + 1 := ⟨m - 1, by omega⟩
    rw [Heap.pageDepth] at he ⊢
    split at he
    · exact he
    · next p hp =>
      split
      · next hs => rw [if_pos hs] at he; exact he
      · next hs =>
        rw [if_neg hs] at he
        cases hd : h.pageDepth n p with
        | none => rw [hd] at he; simp at he
        | some x => rw [hd] at he; rw [ih (by omega) hd]; exact he

theorem tagsDown_mono {h : Heap} {f : Str → Bool} : ∀ (n : Nat),
    (∀ i l, h.tagsDown f n i = some l → ∀ m, n ≤ m → h.tagsDown f m i = some l) ∧
    (∀ x cs l, h.tagsDownAll f n x cs = some l → ∀ m, n ≤ m → h.tagsDownAll f m x cs = some l) := by
  intro n
  induction n with
  | zero =>
    refine ⟨fun i l e => by simp [Heap.tagsDown] at e, fun x cs l e m _ => ?_⟩
    cases cs with
    | nil => cases m <;> simpa [Heap.tagsDownAll] using e
    | cons c cs => simp [Heap.tagsDownAll] at e
  | succ n ih =>
    refine ⟨fun i l e m hm => ?_, fun x cs l e m hm => ?_⟩
    · obtain ⟨m, rfl⟩ : ∃ k, m = k + 1 := ⟨m - 1, by omega⟩
      rw [Heap.tagsDown] at e ⊢
      cases hb : h.tagsDownAll f n none (h.get i).children with
      | none => simp [hb] at e
      | some y => rw [hb] at e; rw [ih.2 _ _ _ hb m (by omega)]; exact e
    · obtain ⟨m, rfl⟩ : ∃ k, m = k + 1 := ⟨m - 1, by omega⟩
      cases cs with
      | nil => simpa [Heap.tagsDownAll] using e
      | cons c cs =>
        rw [Heap.tagsDownAll] at e ⊢
        split
        · next hs => rw [if_pos hs] at e; exact ih.2 _ _ _ e m (by omega)
        · next hs =>
          rw [if_neg hs] at e
          cases ha : h.tagsDown f n c with
          | none => simp [ha] at e
          | some y =>
            cases hb : h.tagsDownAll f n x cs with
            | none => simp [ha, hb] at e
            | some z =>
              rw [ha, hb] at e
              rw [ih.1 _ _ ha m (by omega), ih.2 _ _ _ hb m (by omega)]
              exact e

theorem tagsUp_mono {h : Heap} {f : Str → Bool} : ∀ (n : Nat) (x : Option Nat) (i : Nat) (l : List Tag),
    h.tagsUp f n x i = some l → ∀ m, n ≤ m → h.tagsUp f m x i = some l := by
  intro n
  induction n with
  | zero => intro x i l e; simp [Heap.tagsUp] at e
  | succ n ih =>
    intro x i l e m hm
    obtain ⟨m, rfl⟩ : ∃ k, m = k + 1 := ⟨m - 1, by omega⟩
    rw [Heap.tagsUp] at e ⊢
    cases hb : h.tagsDownAll f n x (h.get i).children with
    | none => simp [hb] at e
    | some y =>
      rw [hb] at e
      rw [(tagsDown_mono n).2 _ _ _ hb m (by omega)]
      cases hp : (h.get i).parent with
      | none => simpa [hp] using e
      | some p =>
        rw [hp] at e
        cases hu : h.tagsUp f n (some i) p with
        | none => simp [hu] at e
        | some z => simp only [hu, ih _ _ _ hu m (by omega)] at e ⊢; exact e

theorem Ends.of_mono {α : Type} {f : Nat → Option α} {v w : α} {n : Nat} (h : Ends f w)
    (hm : ∀ m, n ≤ m → f m = some v) : v = w := by
  obtain ⟨N, hN⟩ := h
  have := hN (max N n) (Nat.le_max_left ..)
  rw [hm _ (Nat.le_max_right ..)] at this
  exact Option.some.inj this

/-! ### Addresses -/

theorem pageOwner_onPage {h : Heap} : ∀ (n i : Nat) {o : Nat}, h.pageOwner n i = some o → OnPage h i o
  | 0, i, o, e => by cases e
  | n + 1, i, o, e => by
    rw [Heap.pageOwner] at e
    cases hp : (h.get i).parent with
    | none => rw [hp] at e; cases e; exact .top hp
    | some p =>
      rw [hp] at e
      cases hs : (h.get p).split with
      | true => simp only [hs, if_true] at e; cases e; exact .split hp hs
      | false => simp only [hs, Bool.false_eq_true, if_false] at e; exact .up hp hs (pageOwner_onPage n p e)

theorem OnPage.unique {h : Heap} {i o o' : Nat} (h1 : OnPage h i o) (h2 : OnPage h i o') : o = o' := by
  induction h1 with
  | top hp => cases h2 <;> simp_all
  | split hp hs => cases h2 <;> simp_all
  | up hp hs h1 ih =>
    cases h2 with
    | top hp' => simp_all
    | split hp' hs' => simp_all
    | up hp' hs' h2 =>
      rw [hp] at hp'
      cases hp'
      exact ih h2

theorem OnPage.self {h : Heap} {i o : Nat} (h1 : OnPage h i o) : OnPage h o o := by
  induction h1 with
  | top hp => exact .top hp
  | split hp hs => exact .split hp hs
  | up _ _ _ ih => exact ih

theorem sectionURL_address {h : Heap} {n : Nat} {g : Tag} {i : Nat} {u : Str} (hi : g.sec = some i)
    (e : h.sectionURL htmlExt n i g.anchor = some u) : Address h g u := by
  cases n with
  | zero => cases e
  | succ n =>
    rw [Heap.sectionURL] at e
    cases ho : h.pageOwner n i with
    | none => rw [ho] at e; cases e
    | some o =>
      have on := pageOwner_onPage n i ho
      rw [ho] at e
      refine ⟨i, o, hi, on, ?_⟩
      simp only at e
      split at e
      · next hne =>
        cases n with
        | zero => cases e
        | succ n =>
          rw [Heap.sectionURL] at e
          cases ho' : h.pageOwner n o with
          | none => rw [ho'] at e; cases e
          | some o' =>
            obtain rfl := (pageOwner_onPage n o ho').unique on.self
            rw [ho'] at e
            simp only [ne_eq, not_true_eq_false, if_false] at e
            have e := (Option.some.inj e).symm
            rw [e]
            by_cases ha : g.anchor = []
            · by_cases hb : (h.get i).primaryTag.name = []
              · simp [ha, hb, Heap.fileName, htmlExt]
              · simp [ha, hb, hne, Heap.fileName, htmlExt]
            · simp [ha, Heap.fileName, htmlExt]
      · next hne =>
        have hne : o = i := Classical.byContradiction hne
        have e := (Option.some.inj e).symm
        rw [e]
        by_cases ha : g.anchor = []
        · simp [ha, hne, Heap.fileName, htmlExt]
        · simp [ha, hne, Heap.fileName, htmlExt]

/-! ### Sections and references -/

theorem inBook_strip (t : Tree) (c c' : Content) (_ : c.isAux = false) (e : stripAux c = some c')
    (hc : c.inBook t = true) : c'.inBook t = true := by
  cases c <;> simp_all [stripAux, Option.bind_eq_some_iff, Content.isAux]
  all_goals first | (subst e; first | rfl | exact hc) | skip
  all_goals try (obtain ⟨x, -, rfl⟩ := e; first | rfl | exact hc)
  all_goals (obtain ⟨x, -, y, -, rfl⟩ := e; first | rfl | exact hc)

/-- The contents of the sections of a book are parts of it. -/
structure BookOk (S : Site) (h : Heap) (t : Tree) : Prop where
  book : Book h t
  title : ∀ i ∈ t.ids, (h.get i).title.all (Content.inBook t) = true
  body : ∀ i ∈ t.ids, (h.get i).body.all (Content.inBook t) = true
  tags : ∀ i ∈ t.ids, ∀ g ∈ (h.get i).tags, g.title.all (Content.inBook t) = true
  force : ∀ i c, S.force i = some c → c.all (Content.inBook t) = true

section
variable {S : Site} {h : Heap} {t : Tree}

theorem findTag_in (b : Book h t) {s : Tree} (hs : t.Sub s) {n : Nat} {name : Str} {l : List Tag}
    (e : h.findTag n s.root name = some l) : l.Perm (t.tagsNamed h name) := by
  obtain ⟨ks, hs⟩ := hs
  obtain ⟨r, hr, hp⟩ := findTag_ends b hs name
  have : l = r := hr.of_mono fun m hm => tagsUp_mono _ _ _ _ e m hm
  rw [this]
  exact hp

theorem number_in (b : Book h t) {s : Tree} {ks : List Nat} (hs : t.At ks s) {n : Nat} {k : Str}
    (e : h.number n s.root = some k) : k = dotted (ks.map (· + 1)) :=
  (number_ends b hs).of_mono fun _ hm => number_mono hm e

theorem headerDepth_in (b : Book h t) {s : Tree} {ks : List Nat} (hs : t.At ks s) {n d : Nat}
    (e : h.headerDepth n s.root = some d) :
    d = min 6 (1 + ((t.ancestors ks).takeWhile fun a => !(h.get a).resetDepth).length) := by
  rw [Heap.headerDepth] at e
  cases hp : h.pageDepth n s.root with
  | none => rw [hp] at e; cases e
  | some x =>
    rw [hp] at e
    have := (pageDepth_ends b hs).of_mono fun _ hm => pageDepth_mono hm hp
    rw [← this]
    simp only [Option.map_some, Option.some.injEq] at e
    rw [← e]
    split <;> omega

theorem digit_arrives : ∀ c ∈ Nat.toDigits 10 n, arriving c = c := by
  intro c hc
  have : c ≠ '\x00' := by
    have := Nat.isDigit_of_mem_toDigits (by decide) (by decide) hc
    rintro rfl
    exact absurd this (by decide)
  simp [arriving, this]

theorem dotted_arrives (l : List Nat) : (dotted l).map arriving = dotted l := by
  have key : ∀ c ∈ dotted l, arriving c = c := by
    induction l with
    | nil => intro c hc; cases hc
    | cons n l ih =>
      cases l with
      | nil => exact fun c hc => digit_arrives c hc
      | cons m r =>
        intro c hc
        rw [dotted] at hc
        rcases List.mem_append.1 hc with hc | hc
        · exact digit_arrives c hc
        · rcases List.mem_cons.1 hc with rfl | hc
          · decide
          · exact ih c hc
  exact (List.map_congr_left key).trans (List.map_id _)

theorem numeral (l : List Nat) : arrives (dotted l) ++ chars q%" " = chars (dotted l ++ [' ']) := by
  rw [arrives, dotted_arrives]
  simp [chars]

theorem ref_looks (H : BookOk S h t) {g : Content → Res (List Dom)}
    (A : ∀ c, c.all (Content.inBook t) = true → ∀ ds, g c = .ok ds → Looks S h t c ds) (n : Nat)
    (s nm c o l) (hc : (Content.ref s nm c o l).all (Content.inBook t) = true) (ds : List Dom)
    (e : h.refDom S n g s nm c o l = .ok ds) : Looks S h t (.ref s nm c o l) ds := by
  rw [Content.all, Bool.and_eq_true] at hc
  obtain ⟨w, hw, rfl⟩ := mem_ids.1 (by simpa [Content.inBook] using hc.1 : s ∈ t.ids)
  rw [Heap.refDom] at e
  cases hr : h.refTag n S.brokenOk w.root nm o l with
  | none => rw [hr] at e; cases e
  | some r =>
    rw [hr] at e
    rw [Heap.refTag, Heap.resolve] at hr
    cases hf : h.findTag n w.root nm with
    | none => rw [hf] at hr; cases hr
    | some gs =>
      have hp := findTag_in H.book hw hf
      rw [hf] at hr
      simp only [Option.map_some, Option.some.injEq] at hr
      have st := strip_all (p := Content.inBook t) (inBook_strip t)
      -- a tag made up for a broken reference
      have bad : S.brokenOk = true → (t.tagsNamed h nm).length ≠ 1 → ¬ (o = true ∧ t.tagsNamed h nm = []) →
          r = .tag ⟨nm, .str (q%"{broken reference: " ++ nm ++ q%"}"), some w.root, q%"broken", .nil, l⟩ →
          Looks S h t (.ref w.root nm c o l) ds := by
        intro h1 h2 h3 h4
        subst h4
        obtain ⟨u, hu, e⟩ := Res.ok_of_bind e
        cases hs : stripAux (if c.isNil = true then .str (q%"{broken reference: " ++ nm ++ q%"}") else c) with
        | none => simp only [hs] at e; cases e
        | some d =>
          simp only [hs] at e
          obtain ⟨x, hx, rfl⟩ := Res.ok_of_map e
          refine .badRef h1 h2 h3 (linkTo_safe u) hs (A d (st _ d hs ?_) x hx)
          split
          · rfl
          · exact hc.2
      match gs, hf, hp, hr with
      | [], hf, hp, hr =>
        have hnil := List.nil_perm.1 hp
        cases o with
        | true =>
          simp only [if_true] at hr
          subst hr
          dsimp only at e
          cases hs : stripAux c with
          | none => rw [hs] at e; cases e
          | some d =>
            rw [hs] at e
            exact .noRef hnil (by simp [Displays, hs]) (A d (st _ d hs hc.2) ds e)
        | false =>
          cases hb : S.brokenOk with
          | false => rw [hb] at hr; subst hr; exact absurd e unknownTag_ne
          | true => rw [hb] at hr; exact bad hb (by rw [hnil]; decide) (by simp) hr.symm
      | [x], hf, hp, hr =>
        have hone := List.singleton_perm.1 hp
        subst hr
        dsimp only at e
        cases hsec : x.sec with
        | none => rw [hsec] at e; cases e
        | some i =>
          simp only [hsec] at e
          obtain ⟨u, hu, e⟩ := Res.ok_of_bind e
          cases hs : stripAux (if c.isNil = true then x.title else c) with
          | none => simp only [hs] at e; cases e
          | some d =>
            simp only [hs] at e
            obtain ⟨y, hy, rfl⟩ := Res.ok_of_map e
            have hu : h.sectionURL htmlExt n i x.anchor = some u := by
              cases hq : h.sectionURL htmlExt n i x.anchor <;> rw [hq] at hu <;> cases hu
              rfl
            refine .ref hone.symm (sectionURL_address hsec hu) (leadsTo_linkTo u) hs (A d (st _ d hs ?_) y hy)
            split
            · have : x ∈ t.tagsNamed h nm := by rw [← hone]; simp
              obtain ⟨j, hj, hx⟩ := List.mem_flatMap.1 this
              exact H.tags j hj x (List.mem_filter.1 hx).1
            · exact hc.2
      | x :: y :: gs, hf, hp, hr =>
        have hlen := hp.length_eq
        cases hb : S.brokenOk with
        | false => rw [hb] at hr; subst hr; exact absurd e ambiguousTag_ne
        | true =>
          rw [hb] at hr
          refine bad hb (by rw [← hlen]; simp) (fun hh => ?_) hr.symm
          rw [hh.2] at hlen
          simp at hlen

theorem parent_at (b : Book h t) {s : Tree} {ks : List Nat} (hs : t.At ks s) : (h.get s.root).parent.isSome = true ↔ ks ≠ [] := by
  cases hs with
  | here => simp [b.top]
  | @step ks p k s hp hk =>
    rw [b.parent p ⟨_, hp⟩ s (List.mem_of_getElem? hk)]
    simp

theorem sect_looks (H : BookOk S h t) {g : Content → Res (List Dom)}
    (A : ∀ c, c.all (Content.inBook t) = true → ∀ ds, g c = .ok ds → Looks S h t c ds) (n i : Nat)
    (hi : i ∈ t.ids) (ds : List Dom) (e : h.sectDom n g i = .ok ds) : Looks S h t (.sect i) ds := by
  obtain ⟨s, ⟨ks, hs⟩, rfl⟩ := mem_ids.1 hi
  rw [Heap.sectDom] at e
  split at e
  · cases e
  obtain ⟨d, hd, e⟩ := Res.ok_of_bind e
  obtain ⟨num, hnum, e⟩ := Res.ok_of_bind e
  obtain ⟨title, ht, e⟩ := Res.ok_of_bind e
  obtain ⟨body, hb, e⟩ := Res.ok_of_bind e
  obtain ⟨kids, hk, rfl⟩ := Res.ok_of_map e
  have hd : h.headerDepth n s.root = some d := by
    cases hq : h.headerDepth n s.root <;> rw [hq] at hd <;> cases hd
    rfl
  have hd := headerDepth_in H.book hs hd
  have hnum : num = (if ks = [] then [] else
        [.elem q%"span" [(q%"class", q%"section-number")] (chars (dotted (ks.map (· + 1)) ++ [' ']))]) := by
    by_cases hks : ks = []
    · rw [if_neg (fun hh => (parent_at H.book hs).1 hh hks)] at hnum
      cases hnum
      rw [if_pos hks]
    · rw [if_pos ((parent_at H.book hs).2 hks)] at hnum
      obtain ⟨k, hk, rfl⟩ := Res.ok_of_map hnum
      have hk : h.number n s.root = some k := by
        cases hq : h.number n s.root <;> rw [hq] at hk <;> cases hk
        rfl
      rw [if_neg hks, number_in H.book hs hk, numeral]
  have hkids : ∃ kss, All2 (Looks S h t) (if (h.get s.root).split then [] else s.kids.map fun k => .sect k.root) kss ∧
      Spaced kss kids := by
    cases hsp : (h.get s.root).split with
    | true =>
      rw [hsp, if_pos rfl] at hk
      cases hk
      exact ⟨[], .nil, .nil⟩
    | false =>
      rw [hsp] at hk
      obtain ⟨ts, h1, rfl⟩ := Res.ok_of_map hk
      refine ⟨ts, ?_, ?_⟩
      · have h2 := resMap_all2 h1
        rw [H.book.children s ⟨_, hs⟩] at h2
        have h3 : All2 (fun c b => Looks S h t (.sect c) b) (s.kids.map Tree.root) ts := h2.imp fun c hc x hx => by
          obtain ⟨k, hk, rfl⟩ := List.mem_map.1 hc
          refine A (.sect k.root) ?_ x hx
          simp only [Content.all, Content.inBook, List.contains_iff_mem]
          exact mem_ids.2 ⟨k, Sub.kid ⟨_, hs⟩ hk, rfl⟩
        have := h3.map_left
        rw [List.map_map] at this
        exact this
      · rw [List.append_assoc]
        refine Spaced.blank (blank_chars rfl) ?_
        have h4 := (Spaced.flatMap (l := ts) (f := fun x => [x]) fun x _ =>
          Spaced.one (p := x) (blank_chars (s := q%"\n    ") rfl) (blank_chars (s := q%"\n  ") rfl)).append
            (.done (blank_chars (s := q%"\n") rfl))
        rw [List.append_nil, ← map_flatMap (f := fun x => x), List.map_id'] at h4
        exact h4
  obtain ⟨kss, h1, h2⟩ := hkids
  refine .sect hs hnum (A _ (H.title _ hi) _ ht) (A _ (H.body _ hi) _ hb) h1 ?_
  rw [← hd]
  rw [List.append_assoc, List.append_assoc, List.append_assoc]
  refine Spaced.cons ?_
  rw [← List.append_assoc]
  exact .piece (blank_chars rfl) (h2.blank (blank_chars rfl))

theorem toc_looks (H : BookOk S h t) {g : Content → Res (List Dom)}
    (A : ∀ c, c.all (Content.inBook t) = true → ∀ ds, g c = .ok ds → Looks S h t c ds) (n : Nat) :
    ∀ i ∈ t.ids, ∀ ds, h.tocDom g n i = .ok ds → Looks S h t (.toc i) ds := by
  induction n with
  | zero => intro i _ ds e; cases e
  | succ n ih =>
    intro i hi ds e
    obtain ⟨s, hs, rfl⟩ := mem_ids.1 hi
    rw [Heap.tocDom] at e
    have hch := H.book.children s hs
    split at e
    · rename_i hc
      cases e
      refine .noToc hs ?_
      rw [hch] at hc
      simpa using hc
    · rename_i hc
      rw [hch] at hc
      simp only [List.map_eq_nil_iff, not_or, Bool.not_eq_true] at hc
      obtain ⟨ts, h1, rfl⟩ := Res.ok_of_map e
      have h2 := resMap_all2 h1
      rw [hch] at h2
      have h3 : ∃ lis, All2 (Entry S h t) (s.kids.map Tree.root) lis ∧ Spaced (lis.map fun x => [.elem q%"li" [] x]) ts.flatten := by
        have hm : ∀ c ∈ s.kids.map Tree.root, c ∈ t.ids := by
          intro c hc
          obtain ⟨k, hk, rfl⟩ := List.mem_map.1 hc
          exact mem_ids.2 ⟨k, hs.kid hk, rfl⟩
        clear h1 hch hc e
        generalize s.kids.map Tree.root = cs at h2 hm ⊢
        induction h2 with
        | nil => exact ⟨[], .nil, .nil⟩
        | @cons c x cs xs hcx _ ih2 =>
          obtain ⟨lis, l1, l2⟩ := ih2 fun c hc => hm c (by simp [hc])
          have hcid := hm c (by simp)
          obtain ⟨w, ⟨ks, hw⟩, rfl⟩ := mem_ids.1 hcid
          rw [Heap.tocEntryDom] at hcx
          cases hsec : (h.get w.root).primaryTag.sec with
          | none => rw [hsec] at hcx; cases hcx
          | some j =>
            rw [hsec] at hcx
            obtain ⟨u, hu, hcx⟩ := Res.ok_of_bind hcx
            obtain ⟨k, hk, hcx⟩ := Res.ok_of_bind hcx
            cases hst : stripAux (h.get w.root).title with
            | none => simp only [hst] at hcx; cases hcx
            | some d =>
              simp only [hst] at hcx
              obtain ⟨title, ht, hcx⟩ := Res.ok_of_bind hcx
              obtain ⟨below, hb, rfl⟩ := Res.ok_of_map hcx
              have hu : h.sectionURL htmlExt n j (h.get w.root).primaryTag.anchor = some u := by
                cases hq : h.sectionURL htmlExt n j (h.get w.root).primaryTag.anchor <;> rw [hq] at hu <;> cases hu
                rfl
              have hk : h.number n w.root = some k := by
                cases hq : h.number n w.root <;> rw [hq] at hk <;> cases hk
                rfl
              obtain rfl := number_in H.book hw hk
              rw [numeral]
              refine ⟨(chars q%"\n      " ++ [.elem q%"a" [(q%"href", linkTo u)]
                  (chars (dotted (ks.map (· + 1)) ++ [' ']) ++ title)] ++ chars q%"\n\n      " ++ below ++ chars q%"\n    ") :: lis,
                .cons (.entry hw (sectionURL_address hsec hu) (leadsTo_linkTo u) hst
                (A d (strip_all (inBook_strip t) _ d hst (H.title _ hcid)) title ht) (ih w.root hcid below hb) ?_) l1, ?_⟩
              · rw [List.append_assoc, List.append_assoc]
                refine .piece (blank_chars rfl) ?_
                rw [← List.append_assoc]
                exact .one (blank_chars rfl) (blank_chars rfl)
              · rw [List.flatten_cons, List.map_cons]
                exact (Spaced.one (blank_chars rfl) (blank_chars rfl)).append (ps := [_]) l2
      obtain ⟨lis, l1, l2⟩ := h3
      refine .toc hs hc.1 hc.2 l1 (ul := chars q%"\n  " ++ ts.flatten ++ chars q%"\n  ") ?_ (.one (blank_chars rfl) (blank_chars rfl))
        (.one (blank_chars rfl) (blank_chars rfl))
      rw [List.append_assoc, ← List.append_nil (List.map _ lis)]
      exact (l2.append (.done (blank_chars rfl))).blank (blank_chars rfl)

theorem heap_looks (H : BookOk S h t) {raw : Content → Res (List Dom)} (n : Nat) :
    ∀ c, c.all (Content.inBook t) = true → ∀ ds, h.dom S raw n c = .ok ds → Looks S h t c ds := by
  have hraw : ∀ st b c ps, (Content.styled st b c ps).inBook t = true → st ≠ q%"raw-html" := by
    intro st b c ps e
    simpa [Content.inBook] using e
  induction n with
  | zero =>
    intro c hc
    rw [Heap.dom]
    refine dom_looks hraw ?_ ?_ ?_ ?_ c hc
    · intro _ _ _ _ _ _ _ e; cases e
    · intro _ _ _ e; cases e
    · intro _ _ _ e; cases e
    · intro _ _ _ _ e; cases e
  | succ n ih =>
    intro c hc
    rw [Heap.dom]
    refine dom_looks hraw ?_ ?_ ?_ ?_ c hc
    · intro s nm c o l hc ds e; exact ref_looks H ih n s nm c o l hc ds e
    · intro i hi ds e; exact sect_looks H ih n i (by simpa [Content.inBook] using hi) ds e
    · intro i hi ds e; exact toc_looks H ih n i (by simpa [Content.inBook] using hi) ds e
    · intro b i _ ds e
      dsimp only at e
      cases hf : S.force i with
      | none => rw [hf] at e; cases e
      | some d => rw [hf] at e; exact .lazy hf (ih d (H.force i d hf) ds e)

theorem Spaced.two {a p m q z : List Dom} (ha : Blank a) (hm : Blank m) (hz : Blank z) :
    Spaced [p, q] (a ++ p ++ m ++ q ++ z) := by
  rw [show a ++ p ++ m ++ q ++ z = a ++ p ++ (m ++ q ++ z) by simp only [List.append_assoc]]
  exact .piece ha (.one hm hz)

theorem page_looks {title : Str} {i : Nat} {x : List Dom} (hx : Looks S h t (.sect i) x) :
    PageLooks S h t title i (pageDom title x) :=
  ⟨_, _, _, x, Spaced.blank (blank_chars rfl) (.cons .nil),
    .two (blank_chars (s := q%"\n  ") rfl) (blank_chars (s := q%"\n  ") rfl) (blank_chars (s := q%"\n") rfl),
    .two (blank_chars (s := q%"\n    ") rfl) (blank_chars (s := q%"\n    ") rfl) (blank_chars (s := q%"\n  ") rfl),
    .one (blank_chars (s := q%"\n    ") rfl) (blank_chars (s := q%"\n  ") rfl), hx⟩
end

end Booklit
