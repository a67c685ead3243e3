import Verif.Lemmas.IdsL
import Verif.Lemmas.OriginL
import Verif.Lemmas.SecInv

/-!
Links on pages.
-/

namespace Booklit

/-! ### Percent-encoding -/

theorem utf8Char_bytes (c : Char) : ∀ b ∈ utf8Char c, b < 256 ∧ (c.toNat < 128 ∧ b = c.toNat ∨ 128 ≤ b) := by
  have hv : c.toNat < 1114112 := by
    have := c.valid
    rcases this with h | h
    · have : c.toNat < 55296 := h
      omega
    · exact h.2
  intro b hb
  rw [utf8Char] at hb
  split at hb
  · rename_i h
    rw [List.mem_singleton] at hb
    unfold Byte at *
    omega
  split at hb
  · simp only [List.mem_cons, List.not_mem_nil, or_false] at hb
    unfold Byte at *
    omega
  split at hb
  · simp only [List.mem_cons, List.not_mem_nil, or_false] at hb
    unfold Byte at *
    omega
  · simp only [List.mem_cons, List.not_mem_nil, or_false] at hb
    unfold Byte at *
    omega

theorem utf8_bytes (s : Str) : ∀ b ∈ utf8 s, b < 256 := by
  intro b hb
  obtain ⟨c, _, hb⟩ := List.mem_flatMap.1 hb
  exact (utf8Char_bytes c b hb).1

theorem utf8_not {s : Str} {c : Char} (hc : c.toNat < 128) (h : c ∉ s) : c.toNat ∉ utf8 s := by
  intro hb
  obtain ⟨x, hx, hb⟩ := List.mem_flatMap.1 hb
  rcases (utf8Char_bytes x _ hb).2 with ⟨_, e⟩ | e
  · exact h (Char.toNat_inj.1 e ▸ hx)
  · exact absurd (Nat.lt_of_lt_of_le hc e) (Nat.lt_irrefl _)

theorem urlByte_small {b : Byte} (h : urlByte b = true) : b < 127 ∧ b ≠ 37 := by
  simp only [urlByte, Bool.or_eq_true, Bool.and_eq_true, decide_eq_true_eq, List.contains_iff_mem, List.mem_cons,
    List.not_mem_nil, or_false] at h
  unfold Byte at *
  omega

theorem toNat_small : ∀ b : Nat, b < 127 → (Char.ofNat b).toNat = b := by decide

theorem normBytes_cons {b : Byte} {bs : List Byte} (h : b ≠ 37) :
    normBytes (b :: bs) = normBytes [b] ++ normBytes bs := by
  have h1 : ∀ l, isEscape (b :: l) = false := by
    intro l
    cases e : isEscape (b :: l) with
    | false => rfl
    | true => exact absurd (isEscape_head e) h
  rw [normBytes, normBytes, h1, h1]
  cases urlByte b <;> simp [normBytes]

theorem normBytes_append {a b : List Byte} (h : 37 ∉ a) : normBytes (a ++ b) = normBytes a ++ normBytes b := by
  induction a with
  | nil => rfl
  | cons x a ih =>
    simp only [List.mem_cons, not_or] at h
    rw [List.cons_append, normBytes_cons (fun e => h.1 e.symm), ih h.2, normBytes_cons (bs := a) (fun e => h.1 e.symm),
      List.append_assoc]

theorem unpercent_plain {c : Char} (h : c ≠ '%') (r : Str) : unpercent (c :: r) = c.toNat :: unpercent r := by
  cases r with
  | nil => simp [unpercent, h]
  | cons x r =>
    cases r with
    | nil => simp [unpercent, h]
    | cons y r => rw [unpercent, if_neg h]

theorem unpercent_norm {bs : List Byte} (h : ∀ b ∈ bs, b < 256) (h37 : 37 ∉ bs) : unpercent (normBytes bs) = bs := by
  induction bs with
  | nil => rfl
  | cons b bs ih =>
    simp only [List.mem_cons, not_or] at h37
    have h2 := ih (fun x hx => h x (by simp [hx])) h37.2
    have hb : b < 256 := h b (by simp)
    have he : isEscape (b :: bs) = false := by
      cases e : isEscape (b :: bs) with
      | false => rfl
      | true => exact absurd (isEscape_head e).symm h37.1
    rw [normBytes, he, Bool.or_false]
    split
    · rename_i hu
      obtain ⟨hs, h3⟩ := urlByte_small hu
      have h4 : Char.ofNat b ≠ '%' := by
        intro e
        have := toNat_small b hs
        rw [e] at this
        exact h3 this.symm
      rw [unpercent_plain h4, toNat_small b hs, h2]
    · rw [unpercent, if_pos rfl, digitValue_hexDigit (Nat.mod_lt _ (by decide)), digitValue_hexDigit (Nat.mod_lt _ (by decide))]
      dsimp only
      rw [h2]
      congr 1
      unfold Byte at *
      omega

theorem digit_hex : ∀ n : Nat, n < 256 → (digitValue (Char.ofNat n)).isSome = isHex n := by decide +kernel

theorem hex_url : ∀ n : Nat, n < 256 → isHex n = true → urlByte n = true := by decide +kernel

theorem toNat_byte : ∀ n : Nat, n < 256 → (Char.ofNat n).toNat = n := by decide +kernel

/-- Normalizing keeps the bytes. -/
theorem unpercent_same (n : Nat) : ∀ bs : List Byte, bs.length ≤ n → (∀ b ∈ bs, b < 256) →
    unpercent (normBytes bs) = unpercent (bs.map Char.ofNat) := by
  induction n with
  | zero =>
    intro bs hn _
    rw [List.length_eq_zero_iff.1 (Nat.le_zero.1 hn)]
    rfl
  | succ n ih =>
    intro bs hn h
    cases bs with
    | nil => rfl
    | cons b bs =>
      have hb : b < 256 := h b (by simp)
      have hn' : bs.length ≤ n := by simpa using hn
      have hr := ih bs hn' fun x hx => h x (by simp [hx])
      rw [List.map_cons, normBytes]
      by_cases h37 : b = 37
      · subst h37
        have hu : urlByte 37 = false := by decide
        rw [hu, Bool.false_or]
        have esc : ('%' :: hexDigit (37 / 16 % 16) :: hexDigit (37 % 16) :: normBytes bs : Str) = '%' :: '2' :: '5' :: normBytes bs := rfl
        cases bs with
        | nil => rfl
        | cons x bs =>
          cases bs with
          | nil =>
            rw [show isEscape [37, x] = false from rfl, if_neg (by simp), esc, unpercent, if_pos rfl]
            rw [show digitValue '2' = some 2 from by decide, show digitValue '5' = some 5 from by decide]
            dsimp only
            rw [hr, List.map_cons, List.map_nil, show Char.ofNat 37 = '%' from rfl, unpercent.eq_def ['%', Char.ofNat x]]
            rfl
          | cons y bs =>
            have hx : x < 256 := h x (by simp)
            have hy : y < 256 := h y (by simp)
            have h1 := digit_hex x hx
            have h2 := digit_hex y hy
            rw [List.map_cons, List.map_cons, show Char.ofNat 37 = '%' from rfl, unpercent.eq_def ('%' :: Char.ofNat x :: _)]
            dsimp only
            rw [if_pos rfl]
            by_cases he : isHex x = true ∧ isHex y = true
            · have hr' := ih bs (by simp at hn'; omega) fun z hz => h z (by simp [hz])
              rw [isEscape, he.1, he.2, if_pos (by simp), normBytes, hex_url x hx he.1, Bool.true_or, if_pos rfl, normBytes,
                hex_url y hy he.2, Bool.true_or, if_pos rfl, unpercent, if_pos rfl]
              rw [he.1] at h1
              rw [he.2] at h2
              obtain ⟨a, ha⟩ := Option.isSome_iff_exists.1 h1
              obtain ⟨c, hc⟩ := Option.isSome_iff_exists.1 h2
              rw [ha, hc]
              dsimp only
              rw [hr']
            · rw [isEscape, if_neg (by simpa using he), esc, unpercent, if_pos rfl]
              rw [show digitValue '2' = some 2 from by decide, show digitValue '5' = some 5 from by decide]
              dsimp only
              rw [hr]
              cases hdx : digitValue (Char.ofNat x) with
              | none => rfl
              | some a =>
                cases hdy : digitValue (Char.ofNat y) with
                | none => rfl
                | some c =>
                  rw [hdx] at h1
                  rw [hdy] at h2
                  exact absurd ⟨h1.symm, h2.symm⟩ he
      · have he : isEscape (b :: bs) = false := by
          cases e : isEscape (b :: bs) with
          | false => rfl
          | true => exact absurd (isEscape_head e) h37
        have hp : Char.ofNat b ≠ '%' := by
          intro e
          have := toNat_byte b hb
          rw [e] at this
          exact h37 this.symm
        rw [he, Bool.or_false, unpercent_plain hp, toNat_byte b hb]
        split
        · rw [unpercent_plain hp, toNat_byte b hb, hr]
        · rw [unpercent, if_pos rfl, digitValue_hexDigit (Nat.mod_lt _ (by decide)), digitValue_hexDigit (Nat.mod_lt _ (by decide))]
          dsimp only
          rw [hr]
          congr 1
          unfold Byte at *
          omega

theorem norm_not {bs : List Byte} {c : Char} (hc : c.toNat < 127) (hx : ∀ k : Nat, k < 16 → hexDigit k ≠ c) (h37 : c ≠ '%')
    (h : c.toNat ∉ bs) (hp : 37 ∉ bs) : c ∉ normBytes bs := by
  induction bs with
  | nil => simp [normBytes]
  | cons b bs ih =>
    simp only [List.mem_cons, not_or] at h hp
    have h2 := ih h.2 hp.2
    have he : isEscape (b :: bs) = false := by
      cases e : isEscape (b :: bs) with
      | false => rfl
      | true => exact absurd (isEscape_head e).symm hp.1
    rw [normBytes, he, Bool.or_false]
    split
    · rename_i hu
      obtain ⟨hs, h3⟩ := urlByte_small hu
      intro hm
      rcases List.mem_cons.1 hm with rfl | hm
      · exact h.1 (toNat_small b hs)
      · exact h2 hm
    · intro hm
      simp only [List.mem_cons] at hm
      rcases hm with rfl | rfl | rfl | hm
      · exact h37 rfl
      · exact hx _ (Nat.mod_lt _ (by decide)) rfl
      · exact hx _ (Nat.mod_lt _ (by decide)) rfl
      · exact h2 hm

theorem takeWhile_none {p : Char → Bool} {s : Str} (h : ∀ c ∈ s, p c = true) : s.takeWhile p = s := by
  induction s with
  | nil => rfl
  | cons c s ih =>
    rw [List.takeWhile_cons, h c (by simp), if_pos rfl, ih fun x hx => h x (by simp [hx])]

/-- A link to a file and a fragment leads there. -/
theorem linkTo_where {file : Str} {frag : Option Str} (h1 : ∀ c ∈ file, c ∉ [':', '#', '?', '%'])
    (h2 : ∀ a, frag = some a → ∀ c ∈ a, c ∉ [':', '%']) :
    whereTo (linkTo (file ++ (frag.map ('#' :: ·)).getD [])) = some (utf8 file, frag.map utf8) := by
  have h37 : 37 ∉ utf8 file := utf8_not (c := '%') (by decide) fun h => h1 _ h (by decide)
  have h35 : '#' ∉ normBytes (utf8 file) := by
    refine norm_not (c := '#') (by decide) (by decide) (by decide) ?_ h37
    exact utf8_not (c := '#') (by decide) fun h => h1 _ h (by decide)
  have h63 : '?' ∉ normBytes (utf8 file) := by
    refine norm_not (c := '?') (by decide) (by decide) (by decide) ?_ h37
    exact utf8_not (c := '?') (by decide) fun h => h1 _ h (by decide)
  have h58 : ':' ∉ normBytes (utf8 file) := by
    refine norm_not (c := ':') (by decide) (by decide) (by decide) ?_ h37
    exact utf8_not (c := ':') (by decide) fun h => h1 _ h (by decide)
  have hfile : unpercent (normBytes (utf8 file)) = utf8 file := unpercent_norm (utf8_bytes _) h37
  have take : ∀ rest : Str, (normBytes (utf8 file) ++ '#' :: rest).takeWhile (· ≠ '#') = normBytes (utf8 file) := by
    intro rest
    rw [List.takeWhile_append_of_pos (by intro c hc; simp only [decide_eq_true_eq]; rintro rfl; exact h35 hc)]
    simp
  have drop : ∀ rest : Str, (normBytes (utf8 file) ++ '#' :: rest).dropWhile (· ≠ '#') = '#' :: rest := by
    intro rest
    rw [List.dropWhile_append_of_pos (by intro c hc; simp only [decide_eq_true_eq]; rintro rfl; exact h35 hc)]
    simp
  cases frag with
  | none =>
    have hs : filterURL (file ++ []) = file := by
      rw [List.append_nil, filterURL, if_pos]
      rw [safeURL]
      have : (file.any fun x => x == ':') = false := by
        rw [List.any_eq_false]
        intro c hc e
        simp only [beq_iff_eq] at e
        exact h1 c hc (by simp [e])
      simp [this]
    simp only [Option.map_none, Option.getD_none, linkTo, hs, whereTo]
    have hsch : (schemeOf (normBytes (utf8 file))).isSome = false := by
      simp [schemeOf, h58]
    rw [hsch, takeWhile_none (p := (· ≠ '#')) (by intro c hc; simp only [decide_eq_true_eq]; rintro rfl; exact h35 hc),
      takeWhile_none (p := (· ≠ '?')) (by intro c hc; simp only [decide_eq_true_eq]; rintro rfl; exact h63 hc), hfile]
    simp [h35]
  | some a =>
    have ha := h2 a rfl
    have a37 : 37 ∉ utf8 a := utf8_not (c := '%') (by decide) fun h => ha _ h (by decide)
    have a58 : ':' ∉ normBytes (utf8 a) := by
      refine norm_not (c := ':') (by decide) (by decide) (by decide) ?_ a37
      exact utf8_not (c := ':') (by decide) fun h => ha _ h (by decide)
    have hs : filterURL (file ++ '#' :: a) = file ++ '#' :: a := by
      rw [filterURL, if_pos]
      rw [safeURL]
      have : ((file ++ '#' :: a).any fun x => x == ':') = false := by
        rw [List.any_eq_false]
        intro c hc e
        simp only [beq_iff_eq] at e
        subst e
        simp only [List.mem_append, List.mem_cons] at hc
        rcases hc with hc | hc | hc
        · exact h1 _ hc (by simp)
        · exact absurd hc (by decide)
        · exact ha _ hc (by simp)
      simp [this]
    have hu : utf8 (file ++ '#' :: a) = utf8 file ++ (35 :: utf8 a) := by simp [utf8, utf8Char]
    have hn : normBytes (35 :: utf8 a) = '#' :: normBytes (utf8 a) := by
      rw [normBytes_cons (by decide)]; rfl
    simp only [Option.map_some, Option.getD_some, linkTo, hs, hu, normBytes_append h37, hn, whereTo]
    have hsch : (schemeOf (normBytes (utf8 file) ++ '#' :: normBytes (utf8 a))).isSome = false := by
      simp [schemeOf, h58, a58]
    rw [hsch, take, drop, takeWhile_none (p := (· ≠ '?')) (by intro c hc; simp only [decide_eq_true_eq]; rintro rfl; exact h63 hc),
      hfile]
    simp [unpercent_norm (utf8_bytes _) a37]

/-! ### Parts -/

theorem mem_partsP {b : Bool} {ps : List (Str × Content)} {d : Content} : d ∈ partsP b ps ↔ ∃ c ∈ ps, d ∈ c.2.parts b := by
  induction ps with
  | nil => simp [partsP]
  | cons c cs ih => simp [partsP, ih]

theorem all_iff {p : Content → Bool} (c : Content) : c.all p = true ↔ ∀ d ∈ c.parts true, p d = true := by
  induction c using Content.ind with
  | nil | str | sect | toc | image | lazy => simp [Content.all, Content.parts]
  | seq cs ih | para cs ih | pre cs ih | list cs o ih =>
    simp only [Content.all, Content.parts, Bool.and_eq_true, allL_iff, List.forall_mem_cons, mem_partsL]
    exact and_congr_right fun _ => ⟨fun h d ⟨c, hc, hd⟩ => (ih c hc).1 (h c hc) d hd,
      fun h c hc => (ih c hc).2 fun d hd => h d ⟨c, hc, hd⟩⟩
  | ref s t c o l ih => simp [Content.all, Content.parts, ih]
  | styled s b c ps ih ihp =>
    simp only [Content.all, Content.parts, Bool.and_eq_true, allP_iff, List.forall_mem_cons, List.forall_mem_append, mem_partsP,
      ih, and_assoc]
    exact and_congr_right fun _ => and_congr_right fun _ => ⟨fun h d ⟨c, hc, hd⟩ => (ihp c hc).1 (h c hc) d hd,
      fun h c hc => (ihp c hc).2 fun d hd => h d ⟨c, hc, hd⟩⟩
  | target t l a b iha ihb =>
    simp [Content.all, Content.parts, iha, ihb, and_assoc, or_imp, forall_and]
  | link c u ih => simp [Content.all, Content.parts, ih]
  | table rs ih =>
    simp only [Content.all, Content.parts, Bool.and_eq_true, allR_iff, List.forall_mem_cons, mem_partsR]
    exact and_congr_right fun _ => ⟨fun h d ⟨r, hr, c, hc, hd⟩ => (ih r hr c hc).1 (h r hr c hc) d hd,
      fun h r hr c hc => (ih r hr c hc).2 fun d hd => h d ⟨r, hr, c, hc, hd⟩⟩
  | defs ds ih =>
    simp only [Content.all, Content.parts, Bool.and_eq_true, allD_iff, List.forall_mem_cons, mem_partsD]
    refine and_congr_right fun _ => ⟨?_, ?_⟩
    · rintro h d ⟨x, hx, hd | hd⟩
      · exact (ih x hx).1.1 (h x hx).1 d hd
      · exact (ih x hx).2.1 (h x hx).2 d hd
    · exact fun h x hx => ⟨(ih x hx).1.2 fun d hd => h d ⟨x, hx, .inl hd⟩, (ih x hx).2.2 fun d hd => h d ⟨x, hx, .inr hd⟩⟩
  | aux c ih => simp [Content.all, Content.parts, ih]

theorem FileOf.exists {h : Heap} (hs : Sound h) : ∀ i, i < h.length → ∃ p, FileOf h i p := by
  intro i
  induction i using Nat.strongRecOn with
  | ind i ih =>
    intro hi
    by_cases hp : (h.get i).path = []
    · cases hq : (h.get i).parent with
      | none => exact ⟨_, .top hp hq⟩
      | some j =>
        have hj := (hs i hi).1 j hq
        obtain ⟨p, f⟩ := ih j hj (by omega)
        exact ⟨p, .up hp hq f⟩
    · exact ⟨_, .own hp⟩

theorem Heap.get_out {h : Heap} {i : Nat} (hi : ¬ i < h.length) : h.get i = Sec.fresh none [] := by
  rw [Heap.get, List.getD_eq_getElem?_getD, List.getElem?_eq_none (by omega)]
  rfl

/-! ### What is shown of loaded documents -/

/-- `Content.modest`, but for references and tables of contents. -/
def Content.bare : Content → Bool
  | .styled s _ _ ps => s ≠ q%"raw-html" && ps.isEmpty
  | .lazy _ _ => false
  | _ => true

theorem style_not_raw : ∀ x ∈ baseMethods, x.2 ≠ Base.style q%"raw-html" := by decide

/-- A content in section `i` of a loaded document. -/
theorem Origin.bare {W : World} {F : Content → Prop} (hF : ∀ c, F c → c.modest = true) {p : Str} {i : Nat} {c : Content}
    (o : Origin W F p i c) :
    c.bare = true ∧ (∀ s t x b l, c = .ref s t x b l → s = i) ∧ (∀ j, c = .toc j → j = i) ∧ (∀ j, c ≠ .sect j) := by
  cases o
  case styled s x h1 h2 =>
    refine ⟨?_, by simp, by simp, by simp⟩
    have : s ≠ q%"raw-html" := fun e => style_not_raw _ h2 (by rw [e])
    simp [Content.bare, this]
  case plugin h =>
    have := hF c h
    cases c <;> simp_all [Content.bare, Content.modest]
  case ref => exact ⟨rfl, fun s t x b l e => by cases e; rfl, by simp, by simp⟩
  all_goals simp [Content.bare]

theorem Origin.noRaw {W : World} {F : Content → Prop} (hF : ∀ c, F c → c.noRaw = true) {p : Str} {i : Nat} {c : Content}
    (o : Origin W F p i c) : c.noRaw = true := by
  cases o
  case styled s x h1 h2 =>
    have : s ≠ q%"raw-html" := fun e => style_not_raw _ h2 (by rw [e])
    simp [Content.noRaw, this]
  case plugin h => exact hF c h
  all_goals rfl

theorem parts_shown {P : Nat → Content → Prop} {W : World} {F : Content → Prop} (hF : W.Makes F) (hfs : W.fs [] = none) {s : St}
    (hr : Reach W s) (hP : ∀ p i c, Origin W F p i c → P i c) (i : Nat) :
    ∀ c ∈ (s.heap.get i).shown, ∀ d ∈ c.parts true, P i d := by
  intro c hc d hd
  by_cases hi : i < s.heap.length
  · obtain ⟨p, f⟩ := FileOf.exists hr.sound i hi
    have x := (hr.between hF hfs).heap i p hi f
    simp only [Sec.shown, List.mem_cons, List.mem_map] at hc
    rcases hc with rfl | rfl | ⟨g, hg, rfl⟩
    · exact hP p i d (x.title d hd)
    · exact hP p i d (x.body d hd)
    · exact hP p i d ((x.tags g hg).2.1 d hd)
  · rw [Heap.get_out hi] at hc
    simp only [Sec.shown, Sec.fresh, List.map_nil, List.mem_cons, List.not_mem_nil, or_false] at hc
    rcases hc with rfl | rfl
    · simp [Content.parts] at hd; subst hd; exact hP [] i _ .empty
    · simp [Content.parts] at hd; subst hd; exact hP [] i _ .empty

theorem shownOk_of {ok : Content → Bool} {S : Site} {h : Heap} (hp : ∀ i, ∀ c ∈ (h.get i).shown, c.all ok = true)
    (hf : ∀ b i c, ok (.lazy b i) = true → S.force i = some c → c.all ok = true) (hs : ∀ i, ok (.sect i) = true)
    (hstr : ∀ s, ok (.str s) = true)
    (hstrip : ∀ c c', c.isAux = false → stripAux c = some c' → ok c = true → ok c' = true) : ShownOk ok S h where
  title := fun i => hp i _ (by simp [Sec.shown])
  body := fun i => hp i _ (by simp [Sec.shown])
  tags := fun i g hg => hp i _ (by simp only [Sec.shown, List.mem_cons, List.mem_map]; exact .inr (.inr ⟨g, hg, rfl⟩))
  force := hf
  sect := hs
  str := hstr
  strip := hstrip

/-- Targets are on the surface. -/
theorem target_surface {t : Str} {l : Location} {a b : Content} (c : Content) : c.all Content.bare = true →
    .target t l a b ∈ c.parts false → .target t l a b ∈ c.surface := by
  have hL : ∀ cs : List Content, (∀ c ∈ cs, c.all Content.bare = true → .target t l a b ∈ c.parts false →
      .target t l a b ∈ c.surface) → allL Content.bare cs = true → .target t l a b ∈ partsL false cs →
      .target t l a b ∈ surfaceL cs := by
    intro cs ih ha hm
    obtain ⟨c, hc, hm⟩ := mem_partsL.1 hm
    exact mem_surfaceL.2 ⟨c, hc, ih c hc (allL_iff.1 ha c hc) hm⟩
  induction c using Content.ind with
  | nil | str | sect | toc | image | lazy => simp [Content.parts]
  | ref s t c o l ih => simp [Content.parts]
  | seq cs ih | para cs ih | pre cs ih | list cs o ih =>
    intro ha hm
    rw [Content.all, Bool.and_eq_true] at ha
    rw [Content.parts] at hm
    rw [Content.surface]
    exact List.mem_cons.2 (.inr (hL cs ih ha.2 ((List.mem_cons.1 hm).resolve_left (by simp))))
  | styled s b' c ps ih ihp =>
    intro ha hm
    rw [Content.all, Bool.and_eq_true, Bool.and_eq_true] at ha
    obtain ⟨⟨h1, h2⟩, _⟩ := ha
    simp only [Content.bare, Bool.and_eq_true, decide_eq_true_eq, List.isEmpty_iff] at h1
    obtain ⟨h1, rfl⟩ := h1
    simp only [Content.parts, partsP, List.append_nil, List.mem_cons] at hm
    rw [Content.surface, if_neg h1]
    exact List.mem_cons.2 (.inr (ih h2 (hm.resolve_left (by simp))))
  | target t' l' x y _ _ =>
    intro _ hm
    simpa [Content.parts, Content.surface] using hm
  | link c u ih | aux c ih =>
    intro ha hm
    rw [Content.all, Bool.and_eq_true] at ha
    rw [Content.parts] at hm
    rw [Content.surface]
    exact List.mem_cons.2 (.inr (ih ha.2 ((List.mem_cons.1 hm).resolve_left (by simp))))
  | table rs ih =>
    intro ha hm
    rw [Content.all, Bool.and_eq_true] at ha
    rw [Content.parts] at hm
    rw [Content.surface]
    obtain ⟨r, hr, c, hc, hm⟩ := mem_partsR.1 ((List.mem_cons.1 hm).resolve_left (by simp))
    exact List.mem_cons.2 (.inr (mem_surfaceR.2 ⟨r, hr, c, hc, ih r hr c hc (allR_iff.1 ha.2 r hr c hc) hm⟩))
  | defs ds ih =>
    intro ha hm
    rw [Content.all, Bool.and_eq_true] at ha
    rw [Content.parts] at hm
    rw [Content.surface]
    obtain ⟨d, hd, hm⟩ := mem_partsD.1 ((List.mem_cons.1 hm).resolve_left (by simp))
    refine List.mem_cons.2 (.inr (mem_surfaceD.2 ⟨d, hd, ?_⟩))
    exact hm.imp ((ih d hd).1 (allD_iff.1 ha.2 d hd).1) ((ih d hd).2 (allD_iff.1 ha.2 d hd).2)

/-! ### Links of a book -/

/-- What is shown with the sections of a book. -/
def Content.within (h : Heap) (t : Tree) : Content → Bool
  | .link _ u => (t.links h).contains u
  | .ref s _ _ _ _ => t.ids.contains s
  | .sect i => t.ids.contains i
  | .toc i => t.ids.contains i
  | .lazy _ _ => false
  | _ => true

theorem noRaw_strip (c c' : Content) (_ : c.isAux = false) (h : stripAux c = some c') (hc : c.noRaw = true) :
    c'.noRaw = true := by
  cases c <;> simp_all [stripAux, Option.bind_eq_some_iff, Content.isAux]
  all_goals first | (subst h; rfl) | skip
  all_goals try (obtain ⟨x, -, rfl⟩ := h; rfl)
  all_goals obtain ⟨x, -, y, -, rfl⟩ := h
  all_goals first | rfl | simpa [Content.noRaw] using hc

theorem bare_strip (c c' : Content) (_ : c.isAux = false) (h : stripAux c = some c') (hc : c.bare = true) :
    c'.bare = true := by
  cases c <;> simp_all [stripAux, Option.bind_eq_some_iff, Content.isAux]
  all_goals first | (subst h; first | rfl | exact hc) | skip
  all_goals try (obtain ⟨x, -, rfl⟩ := h; rfl)
  · obtain ⟨x, -, y, hy, rfl⟩ := h
    simp only [Content.bare, Bool.and_eq_true, decide_eq_true_eq, List.isEmpty_iff] at hc ⊢
    obtain ⟨h1, rfl⟩ := hc
    simp [stripAuxPartials] at hy
    exact ⟨h1, hy⟩
  · obtain ⟨x, -, y, -, rfl⟩ := h; rfl

theorem within_strip (h : Heap) (t : Tree) (c c' : Content) (_ : c.isAux = false) (e : stripAux c = some c')
    (hc : c.within h t = true) : c'.within h t = true := by
  cases c <;> simp_all [stripAux, Option.bind_eq_some_iff, Content.isAux]
  all_goals first | (subst e; first | rfl | exact hc) | skip
  all_goals try (obtain ⟨x, -, rfl⟩ := e; first | rfl | exact hc)
  all_goals (obtain ⟨x, -, y, -, rfl⟩ := e; rfl)

end Booklit
