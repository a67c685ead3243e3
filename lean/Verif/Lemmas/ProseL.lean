import Verif.Lemmas.OutlineL
import Verif.Spec.Prose

/-!
Evaluation of text without calls.
-/

namespace Booklit

variable {W : World}

theorem Lit.text_eq {c : Content} {t : Str} (h : Lit c t) (hn : c.isNil = false) (ref : Nat → Str → Bool → Location → Res Str)
    (sect : Nat → Res Str) : c.text ref sect = .ok t := by
  rcases h with ⟨rfl, rfl⟩ | rfl | ⟨ss, rfl, rfl⟩
  · cases hn
  · rfl
  · rw [Content.text]
    have : textL ref sect (ss.map .str) = .ok ss := by
      clear hn
      induction ss with
      | nil => rfl
      | cons s ss ih => simp [textL, Content.text, Res.bind, ih, Res.map]
    rw [this]
    rfl

theorem Lit.targets_eq {c : Content} {t : Str} (h : Lit c t) (hn : c.isNil = false) : targets c = some [] := by
  rcases h with ⟨rfl, rfl⟩ | rfl | ⟨ss, rfl, rfl⟩
  · cases hn
  · rfl
  · rw [targets]
    clear hn
    induction ss with
    | nil => rfl
    | cons s ss ih => rw [List.map_cons, targetsL, ih]; rfl

theorem Lit.flow {c : Content} {t : Str} (h : Lit c t) (hn : c.isNil = false) : isFlow c = some true := by
  rcases h with ⟨rfl, rfl⟩ | rfl | ⟨ss, rfl, rfl⟩
  · cases hn
  · rfl
  · rw [isFlow]
    clear hn
    induction ss with
    | nil => rfl
    | cons s ss ih => rw [List.map_cons, isFlowSeq]; exact ih

theorem evalSeq_strs {k : Nat} {inc : Inc} : ∀ (l : List Node) {i : Nat} {r : Content} {y : Str} {s : St}, AllStr l → Lit r y →
    ∃ c, evalSeq W k inc l i r s = (.ok c, s) ∧ Lit c (y ++ plainL l)
  | [], i, r, y, s, _, hr => ⟨r, rfl, by simpa [plainL] using hr⟩
  | n :: ns, i, r, y, s, h, hr => by
    obtain ⟨u, rfl⟩ := h n (by simp)
    obtain ⟨c, e, hc⟩ := evalSeq_strs ns (k := k) (inc := inc) (i := i) (s := s) (fun m hm => h m (by simp [hm])) (hr.append u)
    exact ⟨c, by rw [evalSeq]; exact e, by simpa [plainL, Node.plain] using hc⟩

/-- The contents say the lines. -/
inductive Lits : List Content → List Str → Prop
  | nil : Lits [] []
  | cons {c : Content} {t : Str} {cs : List Content} {ts : List Str} : Lit c t → c.isNil = false → Lits cs ts → Lits (c :: cs) (t :: ts)

theorem Lits.text_eq {cs : List Content} {ts : List Str} (h : Lits cs ts) (ref : Nat → Str → Bool → Location → Res Str)
    (sect : Nat → Res Str) : textL ref sect cs = .ok ts := by
  induction h with
  | nil => rfl
  | cons h hn _ ih => rw [textL, h.text_eq hn, ih]; rfl

theorem Lits.targets_eq {cs : List Content} {ts : List Str} (h : Lits cs ts) : targetsL cs = some [] := by
  induction h with
  | nil => rfl
  | cons h hn _ ih => rw [targetsL, h.targets_eq hn, ih]; rfl

theorem Lits.texts {cs : List Content} {ts : List Str} (h : Lits cs ts) : cs.map (fun c => (c.texts true).flatten) = ts := by
  induction h with
  | nil => rfl
  | cons h hn _ ih => rw [List.map_cons, h.texts, ih]

theorem Lit.notNil {c : Content} {t : Str} (h : Lit c t) (ht : t ≠ []) : c.isNil = false := by
  rcases h with ⟨rfl, rfl⟩ | rfl | ⟨ss, rfl, rfl⟩
  · exact absurd rfl ht
  · rfl
  · rfl

theorem evalLines_strs {k : Nat} {inc : Inc} : ∀ (ls : List (List Node)) {i : Nat} {s : St}, (∀ l ∈ ls, AllStr l ∧ plainL l ≠ []) →
    ∃ cs, evalLines W k inc ls i s = (.ok cs, s) ∧ Lits cs (ls.map plainL)
  | [], i, s, _ => ⟨[], rfl, .nil⟩
  | l :: ls, i, s, h => by
    obtain ⟨c, e1, h1⟩ := evalSeq_strs (W := W) (k := k) (inc := inc) l (i := i) (s := s) (h l (by simp)).1 (y := []) (.inl ⟨rfl, rfl⟩)
    obtain ⟨cs, e2, h2⟩ := evalLines_strs ls (k := k) (inc := inc) (i := i) (s := s) (fun m hm => h m (by simp [hm]))
    rw [List.nil_append] at h1
    have hn := h1.notNil (h l (by simp)).2
    refine ⟨c :: cs, ?_, .cons h1 hn h2⟩
    rw [evalLines]
    simp only [M.bind_run, M.bind, e1, e2, hn]
    rfl

theorem evalPara_strs {k : Nat} {inc : Inc} (ls : List (List Node)) (hl : ls ≠ []) {i : Nat} {r : Content} {s : St}
    (h : ∀ l ∈ ls, AllStr l ∧ plainL l ≠ []) :
    ∃ cs, evalNode W k inc (.para ls) i r s = (.ok (append r [.para cs]), s) ∧ Lits cs (ls.map plainL) := by
  obtain ⟨cs, e, h2⟩ := evalLines_strs (W := W) (k := k) (inc := inc) ls (i := i) (s := s) h
  refine ⟨cs, ?_, h2⟩
  rw [evalNode]
  simp only [M.bind_run, M.bind, e]
  have hm : ls.map plainL ≠ [] := by simpa using hl
  clear e
  generalize ls.map plainL = ts at h2 hm
  cases h2 with
  | nil => exact absurd rfl hm
  | cons h3 hn h4 =>
    cases h4 with
    | nil => rw [finishPara, h3.flow hn]; rfl
    | cons _ _ _ => rfl

theorem append_oneBody {bs : List (List Content)} (b : List Content) :
    append (oneBody (bs.map .para)) [.para b] = oneBody ((bs ++ [b]).map .para) := by
  match bs with
  | [] => rfl
  | [x] => rfl
  | x :: y :: r => simp [oneBody, append, Content.isNil]

/-- The paragraphs say the text. -/
inductive Parses : List (List Content) → List (List Str) → Prop
  | nil : Parses [] []
  | cons {c : List Content} {t : List Str} {cs : List (List Content)} {ts : List (List Str)} : Lits c t → Parses cs ts →
      Parses (c :: cs) (t :: ts)

theorem evalParas {k : Nat} {inc : Inc} : ∀ (lss : List (List (List Node))) {i : Nat} {bs : List (List Content)} {s : St},
    (∀ ls ∈ lss, ls ≠ [] ∧ ∀ l ∈ ls, AllStr l ∧ plainL l ≠ []) →
    ∃ cs, evalSeq W k inc (lss.map .para) i (oneBody (bs.map .para)) s = (.ok (oneBody ((bs ++ cs).map .para)), s) ∧
      Parses cs (lss.map (·.map plainL))
  | [], i, bs, s, _ => ⟨[], by rw [List.append_nil]; rfl, .nil⟩
  | ls :: lss, i, bs, s, h => by
    obtain ⟨c, e, hc⟩ := evalPara_strs (W := W) (k := k) (inc := inc) ls (h ls (by simp)).1 (i := i) (r := oneBody (bs.map .para)) (s := s)
      (h ls (by simp)).2
    obtain ⟨cs, e2, hcs⟩ := evalParas lss (k := k) (inc := inc) (i := i) (bs := bs ++ [c]) (s := s) (fun m hm => h m (by simp [hm]))
    refine ⟨c :: cs, ?_, .cons hc hcs⟩
    rw [List.map_cons, evalSeq]
    simp only [M.bind_run, M.bind, e]
    rw [append_oneBody]
    simpa using e2

theorem Parses.targets_eq {cs : List (List Content)} {ts : List (List Str)} (h : Parses cs ts) :
    targetsL (cs.map .para) = some [] := by
  induction h with
  | nil => rfl
  | cons h _ ih => rw [List.map_cons, targetsL, ih, targets, h.targets_eq]; rfl

theorem Parses.texts {cs : List (List Content)} {ts : List (List Str)} (h : Parses cs ts) :
    cs.map (·.map fun c => (c.texts true).flatten) = ts := by
  induction h with
  | nil => rfl
  | cons h _ ih => rw [List.map_cons, h.texts, ih]

theorem Parses.text_eq {cs : List (List Content)} {ts : List (List Str)} (h : Parses cs ts)
    (ref : Nat → Str → Bool → Location → Res Str) (sect : Nat → Res Str) :
    textL ref sect (cs.map .para) = .ok (ts.map paraText) := by
  induction h with
  | nil => rfl
  | cons h _ ih => rw [List.map_cons, textL, Content.text, h.text_eq, ih]; rfl

theorem oneBody_targets {cs : List Content} (hn : cs ≠ []) (h : targetsL cs = some []) : targets (oneBody cs) = some [] := by
  match cs, hn with
  | [c], _ =>
    rw [targetsL, targetsL] at h
    change targets c = _
    cases hc : targets c with
    | none => rw [hc] at h; cases h
    | some x => rw [hc] at h; simpa [andThen] using h
  | a :: b :: r, _ => change targets (.seq _) = _; rw [targets]; exact h

theorem oneBody_text {cs : List Content} (hn : cs ≠ []) {ref : Nat → Str → Bool → Location → Res Str} {sect : Nat → Res Str}
    {ts : List Str} (h : textL ref sect cs = .ok ts) : (oneBody cs).text ref sect = .ok ts.flatten := by
  match cs, hn with
  | [c], _ =>
    rw [textL, textL] at h
    change c.text ref sect = _
    cases hc : c.text ref sect with
    | ok x => rw [hc] at h; cases h; simp
    | err _ => rw [hc] at h; cases h
    | panic => rw [hc] at h; cases h
    | more => rw [hc] at h; cases h
  | a :: b :: r, _ => change (Content.seq _).text _ _ = _; rw [Content.text, h]; rfl

theorem joinPara_acc : ∀ (ts : List Str) (acc : Str), acc ≠ [] → (∀ t ∈ ts, t ≠ []) →
    joinPara acc ts = acc ++ (ts.flatMap fun t => ' ' :: t)
  | [], acc, _, _ => by simp [joinPara]
  | t :: ts, acc, ha, h => by
    have : acc.length > 0 := List.length_pos_iff.2 ha
    rw [joinPara, if_pos this, joinPara_acc ts _ (by simp) fun u hu => h u (by simp [hu])]
    simp

theorem joined_cons (sep a : Str) (r : List Str) : joined sep (a :: r) = a ++ r.flatMap (sep ++ ·) := by
  induction r generalizing a with
  | nil => simp [joined]
  | cons b r ih => rw [joined, ih]; simp

theorem paraText_eq {ts : List Str} (hn : ts ≠ []) (h : ∀ t ∈ ts, t ≠ []) : paraText ts = joined [' '] ts ++ q%"\n\n" := by
  match ts, hn with
  | t :: ts, _ =>
    have ht := h t (by simp)
    have e : joinPara [] (t :: ts) = joined [' '] (t :: ts) := by
      rw [joinPara, joined_cons]
      simp only [List.length_nil, gt_iff_lt, Nat.lt_irrefl, if_false, List.nil_append]
      rw [joinPara_acc ts t ht fun u hu => h u (by simp [hu])]
      rfl
    have hl : (joined [' '] (t :: ts)).length > 0 := by
      rw [joined_cons]
      have := List.length_pos_iff.2 ht
      simp; omega
    rw [paraText, e, if_pos hl]

end Booklit
