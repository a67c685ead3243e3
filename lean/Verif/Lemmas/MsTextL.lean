import Verif.Lemmas.MsSite
import Verif.Spec.MsText

/-!
The plain texts of lists, and of the sections of a loaded manuscript.
-/

namespace Booklit.Ms

open Booklit Booklit.Src

variable {h : Heap} {b : Part} {t : Tree}

/-! ### Lists -/

theorem splitNl_cons (cur : Str) (c : Char) (s : Str) : splitNl cur (c :: s) = if c = '\n' then cur :: splitNl [] s else splitNl (cur ++ [c]) s := by
  rw [splitNl]

theorem item_hanging : ∀ (s acc cur : Str), acc ≠ [] → s.getLast? ≠ some '\n' → (s = [] → cur ≠ []) →
    itemText acc (splitNl cur s) = acc ++ '\n' :: (if cur = [] ∧ s.head? = some '\n' then [] else [' ', ' ']) ++ cur ++ hanging s := by
  intro s
  induction s with
  | nil =>
    intro acc cur ha _ hc
    simp [splitNl, itemText, ha, hc rfl, hanging]
  | cons c s ih =>
    intro acc cur ha hl _
    rw [splitNl_cons]
    have hl' : s ≠ [] → s.getLast? ≠ some '\n' := by
      intro hs
      obtain ⟨d, r, rfl⟩ := List.exists_cons_of_ne_nil hs
      simpa [List.getLast?_cons_cons] using hl
    by_cases hc : c = '\n'
    · subst hc
      have hs : s ≠ [] := by
        rintro rfl
        exact hl rfl
      rw [if_pos rfl]
      have step : itemText acc (cur :: splitNl [] s) = itemText (if cur = [] then acc ++ ['\n'] else acc ++ q%"\n  " ++ cur) (splitNl [] s) := by
        rw [itemText, if_neg ha]
      rw [step, ih _ [] (by split <;> simp) (hl' hs) (fun e => (hs e).elim)]
      by_cases hcur : cur = []
      · subst hcur
        by_cases hh : s.head? = some '\n'
        · simp [hanging, hh]
        · simp [hanging, hh]
      · by_cases hh : s.head? = some '\n'
        · simp [hanging, hh, hcur]
        · simp [hanging, hh, hcur]
    · rw [if_neg hc]
      by_cases hs : s = []
      · subst hs
        simp [splitNl, itemText, ha, hanging, hc]
      · rw [ih _ _ ha (hl' hs) (fun e => (hs e).elim)]
        simp [hanging, hc]

theorem item_first : ∀ (s cur : Str), cur ≠ [] → s.getLast? ≠ some '\n' → itemText [] (splitNl cur s) = cur ++ hanging s := by
  intro s
  induction s with
  | nil =>
    intro cur hc _
    simp [splitNl, itemText, hanging]
  | cons c s ih =>
    intro cur hcur hl
    rw [splitNl_cons]
    have hl' : s ≠ [] → s.getLast? ≠ some '\n' := by
      intro hs
      obtain ⟨d, r, rfl⟩ := List.exists_cons_of_ne_nil hs
      simpa [List.getLast?_cons_cons] using hl
    by_cases hc : c = '\n'
    · subst hc
      have hs : s ≠ [] := by
        rintro rfl
        exact hl rfl
      rw [if_pos rfl, itemText, if_pos rfl, item_hanging s cur [] hcur (hl' hs) (fun e => (hs e).elim)]
      by_cases hh : s.head? = some '\n'
      · simp [hanging, hh]
      · simp [hanging, hh]
    · rw [if_neg hc]
      by_cases hs : s = []
      · subst hs
        simp [splitNl, itemText, hanging, hc]
      · rw [ih _ (by simp) (hl' hs)]
        simp [hanging, hc]

/-- Trailing newlines are left out. -/
theorem trimNl_same {s : Str} (hl : s.getLast? ≠ some '\n') : trimNl s = s := by
  rw [trimNl]
  have : s.reverse.head? ≠ some '\n' := by rwa [List.head?_reverse]
  cases hr : s.reverse with
  | nil => rw [← List.reverse_reverse s, hr]; rfl
  | cons c r =>
    rw [hr] at this
    have hc : c ≠ '\n' := by simpa using this
    rw [List.dropWhile_cons_of_neg (by simpa using hc), ← hr, List.reverse_reverse]

theorem dropWhile_nls (k : Nat) (l : Str) (hl : l.head? ≠ some '\n') : (List.replicate k '\n' ++ l).dropWhile (· == '\n') = l := by
  induction k with
  | zero =>
    cases l with
    | nil => rfl
    | cons c l => exact List.dropWhile_cons_of_neg (by simpa using hl)
  | succ k ih => rw [List.replicate_succ, List.cons_append, List.dropWhile_cons_of_pos (by simp), ih]

theorem trimNl_nls {s : Str} (hl : s.getLast? ≠ some '\n') (k : Nat) : trimNl (s ++ List.replicate k '\n') = s := by
  rw [trimNl, List.reverse_append, List.reverse_replicate, dropWhile_nls _ _ (by rwa [List.head?_reverse]), List.reverse_reverse]

/-- An item that begins with something else than a newline. -/
theorem item_text {s : Str} (hf : s.head? ≠ some '\n') (hl : s.getLast? ≠ some '\n') (k : Nat) :
    itemText [] (splitNl [] (trimNl (s ++ List.replicate k '\n'))) = hanging s := by
  rw [trimNl_nls hl]
  cases s with
  | nil => rfl
  | cons c s =>
    have hc : c ≠ '\n' := by simpa using hf
    rw [splitNl_cons, if_neg hc, List.nil_append]
    by_cases hs : s = []
    · subst hs
      simp [splitNl, itemText, hanging, hc]
    · rw [item_first s [c] (by simp) (by
        obtain ⟨d, r, rfl⟩ := List.exists_cons_of_ne_nil hs
        simpa [List.getLast?_cons_cons] using hl)]
      simp [hanging, hc]

theorem list_text (o : Bool) (ts : List (Str × Nat)) (i : Nat) (ht : ∀ t ∈ ts, t.1.head? ≠ some '\n' ∧ t.1.getLast? ≠ some '\n') :
    listText o i (ts.map fun t => t.1 ++ List.replicate t.2 '\n') =
      ((ts.map (·.1)).zipIdx (i + 1)).flatMap fun x => bullet o x.2 ++ hanging x.1 ++ q%"\n\n" := by
  induction ts generalizing i with
  | nil => rfl
  | cons t ts ih =>
    rw [List.map_cons, listText, ih _ fun t h => ht t (List.mem_cons_of_mem _ h), List.map_cons, List.zipIdx_cons, List.flatMap_cons]
    have := ht t List.mem_cons_self
    rw [item_text this.1 this.2]
    cases o <;> simp [bullet, decimal]

theorem hanging_line {s : Str} (hs : '\n' ∉ s) : hanging s = s := by
  induction s with
  | nil => rfl
  | cons c s ih =>
    rw [List.mem_cons, not_or] at hs
    rw [hanging, if_neg (fun h => hs.1 h.1.symm), ih hs.2]

theorem list_lines (o : Bool) (ts : List Str) (i : Nat) (ht : ∀ t ∈ ts, '\n' ∉ t) :
    listText o i ts = (ts.zipIdx (i + 1)).flatMap fun x => bullet o x.2 ++ x.1 ++ q%"\n\n" := by
  have h1 := list_text o (ts.map fun t => (t, 0)) i fun t h => by
    obtain ⟨s, hs, rfl⟩ := List.mem_map.1 h
    exact ⟨fun e => ht s hs (List.mem_of_mem_head? e), fun e => ht s hs (List.mem_of_getLast? e)⟩
  simp only [List.map_map, Function.comp_def, List.replicate_zero, List.append_nil, List.map_id'] at h1
  rw [h1]
  clear h1
  generalize i + 1 = j
  induction ts generalizing j with
  | nil => rfl
  | cons t ts ih =>
    rw [List.zipIdx_cons, List.flatMap_cons, List.flatMap_cons, hanging_line (ht t List.mem_cons_self),
      ih (fun t h => ht t (List.mem_cons_of_mem _ h))]

/-! ### Paragraphs -/

theorem joinPara_flat : ∀ (ts : List Str) (acc : Str), acc ≠ [] → joinPara acc ts = acc ++ ts.flatMap (' ' :: ·)
  | [], acc, _ => by simp [joinPara]
  | t :: ts, acc, ha => by
    rw [joinPara, if_pos (List.length_pos_iff.2 ha), joinPara_flat ts _ (by simp)]
    simp

theorem intercalate_flat (t : Str) (ts : List Str) : [' '].intercalate (t :: ts) = t ++ ts.flatMap (' ' :: ·) := by
  induction ts generalizing t with
  | nil => simp [List.intercalate]
  | cons u us ih =>
    have : [' '].intercalate (t :: u :: us) = t ++ ' ' :: [' '].intercalate (u :: us) := by simp [List.intercalate, List.intersperse]
    rw [this, ih]
    simp

theorem para_text (ts : List Str) : paraText ts = flowed ts := by
  have e : joinPara [] ts = match ts.dropWhile List.isEmpty with | [] => [] | x :: ys => [' '].intercalate (x :: ys) := by
    induction ts with
    | nil => rfl
    | cons t ts ih =>
      cases t with
      | nil =>
        rw [joinPara, if_neg (by simp), List.nil_append, ih]
        rfl
      | cons c t =>
        rw [joinPara, if_neg (by simp), List.nil_append, joinPara_flat ts _ (by simp), List.dropWhile_cons_of_neg (by simp)]
        exact (intercalate_flat _ _).symm
  rw [paraText, flowed]
  simp only [e]
  cases hd : ts.dropWhile List.isEmpty with
  | nil => rfl
  | cons x ys =>
    have hx : x ≠ [] := by
      have := List.head?_dropWhile_not List.isEmpty ts
      rw [hd] at this
      rintro rfl
      simp at this
    dsimp only
    rw [if_pos (by rw [intercalate_flat, List.length_append]; have := List.length_pos_iff.2 hx; omega)]

/-! ### References -/

theorem ref_says (L : Loaded h b t) {bo : Bool} {i : Nat} (hi : i ∈ t.ids) {name : Str} (hu : Sole b name) {l : Location}
    {m : Nat} {x : Str} (e : h.text bo m (.ref i name .nil false l) = .ok x) : ∃ ks p u title, Aim b name ks p u title ∧ x = plainSpans title := by
  obtain ⟨g, title, ks, p, ht, hs, ⟨u, ad⟩, ha⟩ := sole_aim L hu
  obtain ⟨z, hz, rfl⟩ := Tree.mem_ids.1 hi
  obtain ⟨r, ⟨N, hr⟩, hm⟩ := Props.C22_references (L.made.book L.nodup) z hz name false
  rw [ht] at hm
  have hm : r = .tag g := hm
  subst hm
  have e := (heapText_le (show m ≤ max m N + 1 by omega) _).ok e
  have hr : h.resolve (max m N) z.root name false = some (.tag g) := hr _ (by omega)
  rw [Heap.text, Content.text, if_pos (by rfl), Heap.refTag, hr] at e
  have e : h.text bo (max m N) g.title = .ok x := e
  rw [hs.text] at e
  exact ⟨ks, p, u, title, ha u ad, (Res.ok.inj e).symm⟩

/-! ### Running text -/

variable {R : Nat → Str → Bool → Location → Res Str} {T : Nat → Res Str}

/-- How references are shown: by the title of what they refer to. -/
def Says (b : Part) (i : Nat) (R : Nat → Str → Bool → Location → Res Str) : Prop :=
  ∀ name l x, Sole b name → R i name false l = .ok x → ∃ ks p u title, Aim b name ks p u title ∧ x = plainSpans title

theorem textL_cons {c : Content} {cs : List Content} {ts : List Str} (e : textL R T (c :: cs) = .ok ts) :
    ∃ x xs, ts = x :: xs ∧ c.text R T = .ok x ∧ textL R T cs = .ok xs := by
  rw [textL] at e
  obtain ⟨x, h1, e⟩ := Res.ok_of_bind e
  obtain ⟨xs, h2, rfl⟩ := Res.ok_of_map e
  exact ⟨x, xs, rfl, h1, h2⟩

theorem textL_append {cs ds : List Content} {ts : List Str} (e : textL R T (cs ++ ds) = .ok ts) :
    ∃ xs ys, ts = xs ++ ys ∧ textL R T cs = .ok xs ∧ textL R T ds = .ok ys := by
  induction cs generalizing ts with
  | nil => exact ⟨[], ts, rfl, rfl, e⟩
  | cons c cs ih =>
    obtain ⟨x, xs, rfl, h1, h2⟩ := textL_cons e
    obtain ⟨ys, zs, rfl, h3, h4⟩ := ih h2
    exact ⟨x :: ys, zs, rfl, by rw [textL, h1, h3]; rfl, h4⟩

theorem textL_strs {ss : List Str} {ts : List Str} (e : textL R T (ss.map .str) = .ok ts) : ts = ss := by
  induction ss generalizing ts with
  | nil => exact (Res.ok.inj e).symm
  | cons s ss ih =>
    obtain ⟨x, xs, rfl, h1, h2⟩ := textL_cons e
    rw [ih h2, ← Res.ok.inj h1]

theorem text_many {cs : List Content} (hn : cs ≠ []) {x : Str} (e : (oneBody cs).text R T = .ok x) :
    ∃ ts, textL R T cs = .ok ts ∧ x = ts.flatten := by
  match cs, hn with
  | [c], _ => exact ⟨[x], by rw [textL, show c.text R T = .ok x from e]; rfl, by simp⟩
  | c :: d :: r, _ =>
    have e : ((textL R T (c :: d :: r)).map List.flatten) = .ok x := e
    obtain ⟨ts, h1, rfl⟩ := Res.ok_of_map e
    exact ⟨ts, h1, rfl⟩

mutual
theorem SpanIs.told {i : Nat} (hR : Says b i R) : ∀ {s : Span} {cs : List Content}, SpanIs i s cs → (∀ name ∈ s.refs, Sole b name) →
    ∀ {ts : List Str}, textL R T cs = .ok ts → SpanText b s ts.flatten
  | _, _, .text _, _, ts, e => by
    rw [textL_strs e]
    exact .text
  | _, _, .code hn, _, ts, e => by
    obtain ⟨x, xs, rfl, h1, h2⟩ := textL_cons e
    obtain rfl := Res.ok.inj h2
    obtain ⟨us, h3, rfl⟩ := text_many (by simpa using hn) h1
    rw [textL_strs h3, List.flatten_cons, List.flatten_nil, List.append_nil]
    exact .code
  | _, _, .styled h0 hn, hr, ts, e => by
    obtain ⟨x, xs, rfl, h1, h2⟩ := textL_cons e
    obtain rfl := Res.ok.inj h2
    obtain ⟨us, h3, rfl⟩ := text_many hn h1
    rw [List.flatten_cons, List.flatten_nil, List.append_nil]
    exact .styled (h0.told hR hr h3)
  | _, _, .link h0 hn, hr, ts, e => by
    obtain ⟨x, xs, rfl, h1, h2⟩ := textL_cons e
    obtain rfl := Res.ok.inj h2
    obtain ⟨us, h3, rfl⟩ := text_many hn h1
    rw [List.flatten_cons, List.flatten_nil, List.append_nil]
    exact .link (h0.told hR hr h3)
  | .ref name, _, .ref, hr, ts, e => by
    obtain ⟨x, xs, rfl, h1, h2⟩ := textL_cons e
    obtain rfl := Res.ok.inj h2
    rw [Content.text, if_pos (by rfl)] at h1
    obtain ⟨ks, p, u, title, hp, rfl⟩ := hR name _ x (hr name (by simp [Span.refs])) h1
    rw [List.flatten_cons, List.flatten_nil, List.append_nil]
    exact .ref hp
  | _, _, .see hf h0 hn, hr, ts, e => by
    obtain ⟨x, xs, rfl, h1, h2⟩ := textL_cons e
    obtain rfl := Res.ok.inj h2
    rw [Content.text, if_neg (by rw [(good_oneBody hn h0.good).notNil]; simp)] at h1
    obtain ⟨us, h3, rfl⟩ := text_many hn h1
    rw [List.flatten_cons, List.flatten_nil, List.append_nil]
    exact .see (h0.told hR (fun n hn => hr n (List.mem_cons_of_mem _ hn)) h3)
  | _, _, .image, hr, ts, e => by
    obtain ⟨x, xs, rfl, h1, h2⟩ := textL_cons e
    obtain rfl := Res.ok.inj h2
    obtain rfl := Res.ok.inj h1
    rw [List.flatten_cons, List.flatten_nil, List.append_nil]
    exact .image
  | _, _, .target _ _ _, hr, ts, e => by
    obtain ⟨x, xs, rfl, h1, h2⟩ := textL_cons e
    obtain rfl := Res.ok.inj h2
    obtain rfl := Res.ok.inj h1
    exact .target
  | _, _, .aux h0 hn, hr, ts, e => by
    obtain ⟨x, xs, rfl, h1, h2⟩ := textL_cons e
    obtain rfl := Res.ok.inj h2
    obtain ⟨us, h3, rfl⟩ := text_many hn h1
    rw [List.flatten_cons, List.flatten_nil, List.append_nil]
    exact .aux (h0.told hR hr h3)
theorem SpansIs.told {i : Nat} (hR : Says b i R) : ∀ {ss : List Span} {cs : List Content}, SpansIs i ss cs →
    (∀ name ∈ refsSpans ss, Sole b name) → ∀ {ts : List Str}, textL R T cs = .ok ts → SpansText b ss ts.flatten
  | _, _, .nil, _, ts, e => by
    rw [← Res.ok.inj e]
    exact .nil
  | _, _, .cons h1 h2, hr, ts, e => by
    rw [refsSpans] at hr
    obtain ⟨xs, ys, rfl, h3, h4⟩ := textL_append e
    rw [List.flatten_append]
    exact .cons (h1.told hR (fun n hn => hr n (List.mem_append_left _ hn)) h3) (h2.told hR (fun n hn => hr n (List.mem_append_right _ hn)) h4)
end

theorem LinesIs.told {i : Nat} (hR : Says b i R) {ls : List (List Span)} {cs : List Content} (hl : LinesIs i ls cs)
    (hr : ∀ name ∈ ls.flatMap refsSpans, Sole b name) {ts : List Str} (e : textL R T cs = .ok ts) : All2 (SpansText b) ls ts := by
  induction hl generalizing ts with
  | nil => rw [← Res.ok.inj e]; exact .nil
  | cons h1 hn _ ih =>
    obtain ⟨x, xs, rfl, h2, h3⟩ := textL_cons e
    rw [List.flatMap_cons] at hr
    obtain ⟨us, h4, rfl⟩ := text_many hn h2
    exact .cons (h1.told hR (fun n hn => hr n (List.mem_append_left _ hn)) h4) (ih (fun n hn => hr n (List.mem_append_right _ hn)) h3)

theorem GridIs.told {i : Nat} (hR : Says b i R) {rs : List (List (List Span))} {css : List (List Content)} (hl : GridIs i rs css)
    (hr : ∀ name ∈ rs.flatMap (·.flatMap refsSpans), Sole b name) {rows : List (List Str)} (e : textR R T css = .ok rows) :
    All2 (All2 (SpansText b)) rs rows := by
  induction hl generalizing rows with
  | nil => rw [← Res.ok.inj e]; exact .nil
  | cons h1 _ ih =>
    rw [textR] at e
    obtain ⟨x, h2, e⟩ := Res.ok_of_bind e
    obtain ⟨xs, h3, rfl⟩ := Res.ok_of_map e
    rw [List.flatMap_cons] at hr
    exact .cons (h1.told hR (fun n hn => hr n (List.mem_append_left _ hn)) h2) (ih (fun n hn => hr n (List.mem_append_right _ hn)) h3)

theorem PairsIs.told {i : Nat} (hR : Says b i R) {ds : List (List Span × List Span)} {prs : List (Content × Content)} (hl : PairsIs i ds prs)
    (hr : ∀ name ∈ ds.flatMap fun d => refsSpans d.1 ++ refsSpans d.2, Sole b name) {ts : List Str} (e : textD R T prs = .ok ts) :
    ∃ xs : List (Str × Str), All2 (fun d x => SpansText b d.1 x.1 ∧ SpansText b d.2 x.2) ds xs ∧
      ts = xs.map fun x => x.1 ++ q%": " ++ x.2 ++ ['\n'] := by
  induction hl generalizing ts with
  | nil => exact ⟨[], .nil, (Res.ok.inj e).symm⟩
  | cons g1 n1 g2 n2 _ ih =>
    rw [textD, (good_oneBody n1 g1.good).notNil, (good_oneBody n2 g2.good).notNil, if_neg (by simp), if_neg (by simp)] at e
    obtain ⟨x, h2, e⟩ := Res.ok_of_bind e
    obtain ⟨y, h3, e⟩ := Res.ok_of_bind e
    obtain ⟨zs, h4, rfl⟩ := Res.ok_of_map e
    rw [List.flatMap_cons] at hr
    obtain ⟨xs, h5, rfl⟩ := ih (fun n hn => hr n (List.mem_append_right _ hn)) h4
    obtain ⟨us, h6, rfl⟩ := text_many n1 h2
    obtain ⟨vs, h7, rfl⟩ := text_many n2 h3
    exact ⟨(us.flatten, vs.flatten) :: xs, .cons ⟨g1.told hR (fun n hn => hr n (List.mem_append_left _ (List.mem_append_left _ hn))) h6,
      g2.told hR (fun n hn => hr n (List.mem_append_left _ (List.mem_append_right _ hn))) h7⟩ h5, rfl⟩

theorem RowsIs.told {ls : List Str} {cs : List Content} (hl : RowsIs ls cs) {ts : List Str} (e : textL R T cs = .ok ts) : ts = ls := by
  induction hl generalizing ts with
  | nil => exact (Res.ok.inj e).symm
  | cons hn _ ih =>
    obtain ⟨x, xs, rfl, h2, h3⟩ := textL_cons e
    obtain ⟨us, h4, rfl⟩ := text_many (by simpa using hn) h2
    rw [textL_strs h4, ih h3]

/-! ### Texts in one line -/

theorem okParts_get : ∀ {ps : List Part}, okParts ps → ∀ {k : Nat} {p : Part}, ps[k]? = some p → p.ok
  | [], _, k, p, e => by simp at e
  | q :: ps, h, 0, p, e => by
    obtain rfl := Option.some.inj e
    exact h.1
  | q :: ps, h, k + 1, p, e => okParts_get h.2 (by simpa using e)

theorem Part.ok.inv {p : Part} (h : p.ok) : titleOk p.title ∧ okBlks p.body ∧ okParts p.subs := by
  cases p with
  | mk title tags split hide body subs =>
    rw [Part.ok] at h
    exact ⟨h.1, h.2.2.1, h.2.2.2⟩

theorem place_ok (hb : b.ok) {ks os : List Nat} {n : Nat} {o p : Part} (hp : Place b ks n os o p) : p.ok := by
  induction hp with
  | top => exact hb
  | page _ _ hk ih => exact okParts_get ih.inv.2.2 hk
  | same _ _ hk ih => exact okParts_get ih.inv.2.2 hk

mutual
theorem marks_ok : ∀ {s : Span}, s.ok → ∀ m ∈ s.marks, '\n' ∉ m.2
  | .text _, _, m, hm => by cases hm
  | .code _, _, m, hm => by cases hm
  | .styled _ ss, h, m, hm => marksSpans_ok h.2.2 m hm
  | .link ss _, h, m, hm => marksSpans_ok h.2.2.1 m hm
  | .ref _, _, m, hm => by cases hm
  | .see _ _, _, m, hm => by cases hm
  | .image _ _, _, m, hm => by cases hm
  | .target name title, h, m, hm => by
    obtain rfl := List.mem_singleton.1 hm
    cases title with
    | none => exact fun hc => (h.1.2 _ hc).2 rfl
    | some t => exact fun hc => ((h.2 t rfl).2 _ hc).2 rfl
  | .aux ss, h, m, hm => marksSpans_ok h.2.2 m hm
theorem marksSpans_ok : ∀ {ss : List Span}, okSpans ss → ∀ m ∈ marksSpans ss, '\n' ∉ m.2
  | [], _, m, hm => by cases hm
  | s :: ss, h, m, hm => by
    rw [marksSpans] at hm
    exact (List.mem_append.1 hm).elim (marks_ok h.1 m) (marksSpans_ok h.2 m)
end

mutual
theorem marksBlk_ok : ∀ {x : Blk}, x.ok → ∀ m ∈ x.marks, '\n' ∉ m.2
  | .para ls, h, m, hm => by
    obtain ⟨l, hl, hm⟩ := List.mem_flatMap.1 hm
    exact marksSpans_ok (h.2 l hl).1.2.2 m hm
  | .code _, _, m, hm => by cases hm
  | .list _ items, h, m, hm => by
    obtain ⟨l, hl, hm⟩ := List.mem_flatMap.1 hm
    exact marksSpans_ok (h.2 l hl).2.2 m hm
  | .table rows, h, m, hm => by
    obtain ⟨r, hr, hm⟩ := List.mem_flatMap.1 hm
    obtain ⟨l, hl, hm⟩ := List.mem_flatMap.1 hm
    exact marksSpans_ok ((h.2 r hr).2 l hl).2.2 m hm
  | .defs ds, h, m, hm => by
    obtain ⟨d, hd, hm⟩ := List.mem_flatMap.1 hm
    exact (List.mem_append.1 hm).elim (marksSpans_ok (h.2 d hd).1.2.2 m) (marksSpans_ok (h.2 d hd).2.2.2 m)
  | .box _ bs, h, m, hm => marksBlks_ok h.2 m hm
  | .toc, _, m, hm => by cases hm
theorem marksBlks_ok : ∀ {xs : List Blk}, okBlks xs → ∀ m ∈ marksBlks xs, '\n' ∉ m.2
  | [], _, m, hm => by cases hm
  | x :: xs, h, m, hm => by
    rw [marksBlks] at hm
    exact (List.mem_append.1 hm).elim (marksBlk_ok h.1 m) (marksBlks_ok h.2 m)
end

theorem image_line {path : Str} (h : oneLine path) : '\n' ∉ q%"{image: " ++ path ++ q%"}" := by
  intro hc
  rcases List.mem_append.1 hc with hc | hc
  · rcases List.mem_append.1 hc with hc | hc
    · exact absurd hc (by decide)
    · exact (h.2 _ hc).2 rfl
  · exact absurd hc (by decide)

mutual
theorem plain_line : ∀ {s : Span}, s.ok → '\n' ∉ s.plain
  | .text _, h => fun hc => (h.2 _ hc).2 rfl
  | .code _, h => fun hc => (h.1.2 _ hc).2 rfl
  | .styled _ _, h => plainSpans_line h.2.2
  | .link _ _, _ => by simp [Span.plain]
  | .ref _, _ => by simp [Span.plain]
  | .see _ _, _ => by simp [Span.plain]
  | .image _ _, h => image_line h.1
  | .target _ _, _ => by simp [Span.plain]
  | .aux _, h => plainSpans_line h.2.2
theorem plainSpans_line : ∀ {ss : List Span}, okSpans ss → '\n' ∉ plainSpans ss
  | [], _ => by simp [plainSpans]
  | s :: ss, h => by
    rw [plainSpans]
    exact fun hc => (List.mem_append.1 hc).elim (plain_line h.1) (plainSpans_line h.2)
end

theorem Aim.line (hb : b.ok) {name : Str} {ks : List Nat} {p : Part} {u : Str} {title : List Span} (ha : Aim b name ks p u title) :
    '\n' ∉ plainSpans title := by
  cases ha with
  | sect hp => exact plainSpans_line (place_ok hb hp).inv.1.1.2.2
  | target hp hm =>
    have := marksBlks_ok (place_ok hb hp).inv.2.1 _ hm
    simpa [plainSpans, Span.plain] using this

mutual
theorem SpanText.line (hb : b.ok) : ∀ {s : Span} {x : Str}, SpanText b s x → s.ok → '\n' ∉ x
  | _, _, .text, h => fun hc => (h.2 _ hc).2 rfl
  | _, _, .code, h => fun hc => (h.1.2 _ hc).2 rfl
  | _, _, .styled h1, h => h1.line hb h.2.2
  | _, _, .link h1, h => h1.line hb h.2.2.1
  | _, _, .ref hp, _ => hp.line hb
  | _, _, .see h1, h => h1.line hb h.2.2.2.1
  | _, _, .image, h => image_line h.1
  | _, _, .target, _ => by simp
  | _, _, .aux h1, h => h1.line hb h.2.2
theorem SpansText.line (hb : b.ok) : ∀ {ss : List Span} {x : Str}, SpansText b ss x → okSpans ss → '\n' ∉ x
  | _, _, .nil, _ => by simp
  | _, _, .cons h1 h2, h => fun hc => (List.mem_append.1 hc).elim (h1.line hb h.1) (h2.line hb h.2)
end

theorem lines_text (hb : b.ok) {ls : List (List Span)} {xs : List Str} (hx : All2 (SpansText b) ls xs) (hl : ∀ l ∈ ls, runOk l) :
    ∀ x ∈ xs, '\n' ∉ x := by
  induction hx with
  | nil => exact fun x hx => by cases hx
  | cons h1 h2 ih =>
    intro x hx
    rcases List.mem_cons.1 hx with rfl | hx
    · exact h1.line hb (hl _ List.mem_cons_self).2.2
    · exact ih (fun l h => hl l (List.mem_cons_of_mem _ h)) x hx

/-! ### Blocks -/

theorem row_text {xs : List Str} (hn : xs ≠ []) : rowText xs = q%"| " ++ q%" | ".intercalate xs ++ q%" |" := by
  obtain ⟨x, xs, rfl⟩ := List.exists_cons_of_ne_nil hn
  clear hn
  rw [rowText]
  induction xs generalizing x with
  | nil => simp [List.intercalate]
  | cons y ys ih =>
    have e : q%" | ".intercalate (x :: y :: ys) = x ++ q%" | " ++ q%" | ".intercalate (y :: ys) := by simp [List.intercalate, List.intersperse]
    have := List.cons.inj (ih y)
    rw [List.flatMap_cons, this.2, e]
    simp

theorem all2_filled {α β : Type} {R : α → β → Prop} {rs : List (List α)} {ts : List (List β)} (h : All2 (All2 R) rs ts) (hr : ∀ r ∈ rs, r ≠ []) :
    ∀ t ∈ ts, t ≠ [] := by
  induction h with
  | nil => intro t ht; cases ht
  | cons h1 _ ih =>
    intro t ht
    rcases List.mem_cons.1 ht with rfl | ht
    · cases h1 with
      | nil => exact (hr _ List.mem_cons_self rfl).elim
      | cons _ _ => simp
    · exact ih (fun r h => hr r (List.mem_cons_of_mem _ h)) t ht

mutual
theorem BlkIs.told {i : Nat} (hb : b.ok) (hR : Says b i R) : ∀ {x : Blk} {c : Content}, BlkIs i x c → x.ok → (∀ name ∈ x.refs, Sole b name) →
    ∀ {s : Str}, c.text R T = .ok s → BlkText b x s
  | _, _, .para h1, hok, hr, s, e => by
    rw [Content.text] at e
    obtain ⟨ts, h2, rfl⟩ := Res.ok_of_map e
    have h3 := h1.told hR hr h2
    rw [para_text]
    exact .para h3
  | _, _, .code h1, hok, hr, s, e => by
    have e : (textL R T _).map (fun ts => ts.flatMap (· ++ ['\n'])) = .ok s := e
    obtain ⟨ts, h2, rfl⟩ := Res.ok_of_map e
    rw [h1.told h2]
    exact .code
  | _, _, .list h1, hok, hr, s, e => by
    rw [Content.text] at e
    obtain ⟨ts, h2, rfl⟩ := Res.ok_of_map e
    have h3 := h1.told hR hr h2
    have h4 := lines_text hb h3 hok.2
    rw [list_lines _ _ _ h4]
    exact .list h3
  | .table rows, _, .table h1, hok, hr, s, e => by
    rw [Content.text] at e
    obtain ⟨ts, h2, rfl⟩ := Res.ok_of_map e
    have h3 := h1.told hR hr h2
    have e : (ts.flatMap fun r => rowText r ++ ['\n']) = ts.flatMap fun r => q%"| " ++ q%" | ".intercalate r ++ q%" |\n" := by
      have hne : ∀ r ∈ ts, r ≠ [] := all2_filled h3 fun r hr => (hok.2 r hr).1
      clear h2 h3 e
      induction ts with
      | nil => rfl
      | cons r ts ih =>
        rw [List.flatMap_cons, List.flatMap_cons, ih fun r hr => hne r (List.mem_cons_of_mem _ hr), row_text (hne r List.mem_cons_self)]
        simp
    rw [e]
    exact .table h3
  | _, _, .defs h1, hok, hr, s, e => by
    rw [Content.text] at e
    obtain ⟨ts, h2, rfl⟩ := Res.ok_of_map e
    obtain ⟨xs, h3, rfl⟩ := h1.told hR hr h2
    rw [← List.flatMap_def]
    exact .defs h3
  | _, _, .box h1 hn, hok, hr, s, e => by
    obtain ⟨ts, h2, rfl⟩ := text_many hn (show (oneBody _).text R T = .ok s from e)
    exact .box (h1.told hb hR hok.2 hr h2)
  | _, _, .toc, hok, hr, s, e => by
    obtain rfl := Res.ok.inj e
    exact .toc
theorem BlksIs.told {i : Nat} (hb : b.ok) (hR : Says b i R) : ∀ {xs : List Blk} {cs : List Content}, BlksIs i xs cs → okBlks xs →
    (∀ name ∈ refsBlks xs, Sole b name) → ∀ {ts : List Str}, textL R T cs = .ok ts → BlksText b xs ts.flatten
  | _, _, .nil, _, _, ts, e => by
    rw [← Res.ok.inj e]
    exact .nil
  | _, _, .cons h1 h2, hok, hr, ts, e => by
    rw [refsBlks] at hr
    obtain ⟨x, xs, rfl, h3, h4⟩ := textL_cons e
    exact .cons (h1.told hb hR hok.1 (fun n hn => hr n (List.mem_append_left _ hn)) h3)
      (h2.told hb hR hok.2 (fun n hn => hr n (List.mem_append_right _ hn)) h4)
end

/-- The text of a section. -/
theorem Loaded.told (L : Loaded h b t) (hb : b.ok) (hr : RefsOk b) {ks os : List Nat} {n : Nat} {o p : Part} (hp : Place b ks n os o p)
    {s : Tree} (ha : t.At ks s) {bo : Bool} {m : Nat} {x : Str} (e : h.text bo m (h.get s.root).body = .ok x) : BlksText b p.body x := by
  obtain ⟨s', so, par, par', a1, a2, _⟩ := place_at L.made hp
  obtain rfl := ha.inj a1
  obtain ⟨R, T, hI⟩ := text_inner ⟨bo, fun _ => none⟩ h m
  have hI : ∀ c, h.text bo m c = c.text R T := hI
  have hR : Says b s.root R := by
    intro name l y hu hy
    refine ref_says L (Tree.mem_ids.2 ⟨s, ⟨ks, ha⟩, rfl⟩) hu (l := l) (bo := bo) (m := m) ?_
    rw [hI, Content.text, if_pos (by rfl)]
    exact hy
  rw [hI] at e
  rcases a2.inv.2.2.1 with ⟨h1, h2⟩ | ⟨cs, hn, h1, h2⟩
  · rw [h2] at e
    rw [h1, ← Res.ok.inj e]
    exact .nil
  · rw [h2] at e
    obtain ⟨ts, h3, rfl⟩ := text_many hn e
    exact h1.told hb hR (place_ok hb hp).inv.2.1 (fun name hm => hr.named hp hm) h3

/-! ### Contents with parts whose texts are known -/

theorem textL_all2 {cs : List Content} {ts : List Str} (e : All2 (fun c x => c.text R T = .ok x) cs ts) : textL R T cs = .ok ts := by
  induction e with
  | nil => rfl
  | cons h1 _ ih => rw [textL, h1, ih]; rfl

theorem textR_all2 {rs : List (List Content)} {rows : List (List Str)} (e : All2 (All2 fun c x => c.text R T = .ok x) rs rows) :
    textR R T rs = .ok rows := by
  induction e with
  | nil => rfl
  | cons h1 _ ih => rw [textR, textL_all2 h1, ih]; rfl

theorem textD_all2 {ds : List (Content × Content)} {rows : List (Str × Str)}
    (e : All2 (fun d x => d.1.text R T = .ok x.1 ∧ d.2.text R T = .ok x.2) ds rows) :
    textD R T ds = .ok (rows.map fun x => x.1 ++ q%": " ++ x.2 ++ ['\n']) := by
  have nn : ∀ {c : Content} {x : Str}, c.text R T = .ok x → c.isNil = false := by
    intro c x e
    cases c with
    | nil => cases e
    | _ => rfl
  induction e with
  | nil => rfl
  | @cons d x _ _ h1 _ ih =>
    obtain ⟨a, z⟩ := d
    rw [textD, nn h1.1, nn h1.2, if_neg (by simp), if_neg (by simp), h1.1, h1.2, ih]
    rfl

end Booklit.Ms
