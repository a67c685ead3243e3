import Verif.Lemmas.MsParts
import Verif.Lemmas.TreeL
import Verif.Lemmas.Sound

/-!
Loading a manuscript.
-/

namespace Booklit.Ms

open Booklit Booklit.Src

variable {W : World}

/-! ### What there is to collect -/

/-- A target of the manuscript, as it is collected. -/
def TargetIs (m : Str × Str) (g : Target) : Prop :=
  ∃ (ss : List Str) (l : Location), m.1 ≠ [] ∧ ss ≠ [] ∧ ss.flatten = m.2 ∧ g = ⟨m.1, l, oneBody (ss.map .str), .nil⟩

/-- Contents with the targets `ms`. -/
def Marks (ms : List (Str × Str)) (r : Option (List Target)) : Prop := ∃ ts, r = some ts ∧ All2 TargetIs ms ts

theorem Marks.nil : Marks [] (some []) := ⟨[], rfl, .nil⟩

theorem all2_app {α β : Type} {R : α → β → Prop} {a b : List α} {c d : List β} (h1 : All2 R a c) (h2 : All2 R b d) :
    All2 R (a ++ b) (c ++ d) := by
  induction h1 with
  | nil => exact h2
  | cons h _ ih => exact .cons h ih

theorem Marks.app {a b : List (Str × Str)} {r q : Option (List Target)} (h1 : Marks a r) (h2 : Marks b q) : Marks (a ++ b) (andThen r q) := by
  obtain ⟨ts, rfl, h1⟩ := h1
  obtain ⟨us, rfl, h2⟩ := h2
  exact ⟨ts ++ us, rfl, all2_app h1 h2⟩

theorem andThen_nil (r : Option (List Target)) : andThen r (some []) = r := by
  cases r with
  | none => rfl
  | some ts => simp [andThen]

theorem nil_andThen (r : Option (List Target)) : andThen (some []) r = r := by
  cases r with
  | none => rfl
  | some ts => rfl

theorem targetsL_strs (ss : List Str) : targetsL (ss.map .str) = some [] := by
  induction ss with
  | nil => rfl
  | cons s ss ih => rw [List.map_cons, targetsL, ih]; rfl

theorem targetsL_one (c : Content) : targetsL [c] = targets c := by
  rw [targetsL, targetsL, andThen_nil]

theorem targets_oneBody {cs : List Content} (hn : cs ≠ []) : targets (oneBody cs) = targetsL cs := by
  match cs, hn with
  | [c], _ => exact (targetsL_one c).symm
  | a :: b :: r, _ => rfl

theorem targetsL_app (a b : List Content) : targetsL (a ++ b) = andThen (targetsL a) (targetsL b) := by
  induction a with
  | nil => rw [targetsL, nil_andThen]; rfl
  | cons c a ih =>
    rw [List.cons_append, targetsL, targetsL, ih]
    cases targets c with
    | none => rfl
    | some x =>
      cases targetsL a with
      | none => rfl
      | some y =>
        cases targetsL b with
        | none => rfl
        | some z => simp [andThen]

mutual
theorem SpanIs.targets {i : Nat} : ∀ {s : Span} {cs : List Content}, SpanIs i s cs → Marks s.marks (targetsL cs)
  | _, _, .text _ => by rw [targetsL_strs, Span.marks]; exact .nil
  | _, _, .code h => by
    rw [targetsL_one, Booklit.targets, targetsP, andThen_nil, targets_oneBody (by simpa using h), targetsL_strs, Span.marks]
    exact .nil
  | _, _, .styled h hn => by
    rw [targetsL_one, Booklit.targets, targetsP, andThen_nil, targets_oneBody hn, Span.marks]
    exact h.targets
  | _, _, .link h hn => by
    rw [targetsL_one, Booklit.targets, targets_oneBody hn, Span.marks]
    exact h.targets
  | _, _, .ref => .nil
  | _, _, .see _ _ _ => .nil
  | _, _, .image => .nil
  | _, _, .target h1 h2 h3 => ⟨[_], rfl, .cons ⟨_, _, h1, h2, h3, rfl⟩ .nil⟩
  | _, _, .aux h hn => by
    rw [targetsL_one, Booklit.targets, targets_oneBody hn, Span.marks]
    exact h.targets
theorem SpansIs.targets {i : Nat} : ∀ {ss : List Span} {cs : List Content}, SpansIs i ss cs → Marks (marksSpans ss) (targetsL cs)
  | _, _, .nil => .nil
  | _, _, .cons h1 h2 => by
    rw [targetsL_app, marksSpans]
    exact h1.targets.app h2.targets
end

theorem LinesIs.targets {i : Nat} {ls : List (List Span)} {cs : List Content} (h : LinesIs i ls cs) :
    Marks (ls.flatMap marksSpans) (targetsL cs) := by
  induction h with
  | nil => exact .nil
  | cons h hn _ ih =>
    rw [targetsL, targets_oneBody hn, List.flatMap_cons]
    exact h.targets.app ih

theorem RowsIs.noTargets {ls : List Str} {cs : List Content} (h : RowsIs ls cs) : targetsL cs = some [] := by
  induction h with
  | nil => rfl
  | cons h _ ih => rw [targetsL, targets_oneBody (by simpa using h), targetsL_strs, ih]; rfl

theorem GridIs.targets {i : Nat} {rs : List (List (List Span))} {css : List (List Content)} (h : GridIs i rs css) :
    Marks (rs.flatMap (·.flatMap marksSpans)) (targetsR css) := by
  induction h with
  | nil => exact .nil
  | cons h _ ih =>
    rw [targetsR, List.flatMap_cons]
    exact h.targets.app ih

theorem PairsIs.targets {i : Nat} {ds : List (List Span × List Span)} {prs : List (Content × Content)} (h : PairsIs i ds prs) :
    Marks (ds.flatMap fun d => marksSpans d.1 ++ marksSpans d.2) (targetsD prs) := by
  induction h with
  | nil => exact .nil
  | cons h1 n1 h2 n2 _ ih =>
    rw [targetsD, targets_oneBody n1, targets_oneBody n2, List.flatMap_cons]
    exact (h1.targets.app h2.targets).app ih

mutual
theorem BlkIs.targets {i : Nat} : ∀ {b : Blk} {c : Content}, BlkIs i b c → Marks b.marks (Booklit.targets c)
  | _, _, .para h => h.targets
  | _, _, .code h => by
    rw [Booklit.targets, targetsP, andThen_nil, Booklit.targets, h.noTargets, Blk.marks]
    exact .nil
  | _, _, .list h => h.targets
  | _, _, .table h => h.targets
  | _, _, .defs h => h.targets
  | _, _, .box h hn => by
    rw [Booklit.targets, targetsP, andThen_nil, targets_oneBody hn, Blk.marks]
    exact h.targets
  | _, _, .toc => .nil
theorem BlksIs.targets {i : Nat} : ∀ {bs : List Blk} {cs : List Content}, BlksIs i bs cs → Marks (marksBlks bs) (targetsL cs)
  | _, _, .nil => .nil
  | _, _, .cons h1 h2 => by
    rw [targetsL, marksBlks]
    exact h1.targets.app h2.targets
end

theorem Whole.targets {cs : List Content} {c : Content} (h : Whole cs c) : Booklit.targets c = targetsL cs := by
  rcases h with ⟨hn, rfl⟩ | rfl
  · exact targets_oneBody hn
  · rfl

mutual
/-- There are no targets in titles. -/
theorem TitleIs.noTargets : ∀ {s : Span} {cs : List Content}, TitleIs s cs → targetsL cs = some []
  | _, _, .text _ => targetsL_strs _
  | _, _, .code h => by rw [targetsL_one, Booklit.targets, targetsP, andThen_nil, h.targets, targetsL_strs]
  | _, _, .styled h hw => by rw [targetsL_one, Booklit.targets, targetsP, andThen_nil, hw.targets, h.noTargets]
  | _, _, .image => rfl
  | _, _, .aux h hn => by rw [targetsL_one, Booklit.targets, targets_oneBody hn, h.noTargets]
theorem TitlesIs.noTargets : ∀ {ss : List Span} {cs : List Content}, TitlesIs ss cs → targetsL cs = some []
  | _, _, .nil => rfl
  | _, _, .cons h1 h2 => by rw [targetsL_app, h1.noTargets, h2.noTargets]; rfl
end

theorem Shape.targets {f : Bool} {x : Sec} {par : Option Nat} {p : Part} {i : Nat} {kids : List Nat} (h : Shape f x par p i kids) (hb : Bodied x p i) :
    Marks (marksBlks p.body) x.targets := by
  have hbody : Marks (marksBlks p.body) (Booklit.targets x.body) := by
    rcases hb with ⟨e, e'⟩ | ⟨cs, hn, hc, e⟩
    · rw [e, e']; exact .nil
    · rw [e, targets_oneBody hn]; exact hc.targets
  obtain ⟨-, cs, hs, ht, e⟩ := h.title
  rw [Sec.targets, h.partials, e, targets_oneBody hs, ht.noTargets, nil_andThen, List.map_nil, targetsL, andThen_nil]
  exact hbody

mutual
/-- How deep sections are nested. -/
def depth : Part → Nat
  | .mk _ _ _ _ _ subs => depthL subs + 1
def depthL : List Part → Nat
  | [] => 0
  | p :: ps => max (depth p) (depthL ps)
end

/-- The targets in the sections. -/
def Heap.found (h : Heap) (i : Nat) : List Target := (h.get i).targets.getD []

mutual
theorem Made.collect {h0 h : Heap} {f : Bool} : ∀ {p : Part} {par : Option Nat} {t : Tree} {n : Nat}, Made f h0 par p t → MoreTags h0 h →
    depth p ≤ n → collectSection n h t.root = .ok (h.addAll (Heap.found h0) t.ids)
  | .mk title tags split hide body subs, par, .node i kids, n, .mk h1 h2 h3 h4, hm, hn => by
    rw [depth] at hn
    obtain ⟨m, rfl⟩ : ∃ m, n = m + 1 := ⟨n - 1, by omega⟩
    show collectSection (m + 1) h i = _
    obtain ⟨ts, e, _⟩ := h2.targets h3
    rw [collectSection, (hm.same i).2.2, (hm.same i).1, e, h2.children]
    have ef : Heap.found h0 i = ts := by rw [Heap.found, e]; rfl
    rw [Tree.ids, Heap.addAll, ef]
    exact MadeL.collect h4 (hm.trans (.addTargets h i ts)) (by show depthL subs ≤ m; omega)
theorem MadeL.collect {h0 h : Heap} {f : Bool} : ∀ {ps : List Part} {par : Option Nat} {ts : List Tree} {n : Nat}, MadeL f h0 par ps ts →
    MoreTags h0 h → depthL ps ≤ n → collectLoop (collectSection n) h (ts.map Tree.root) = .ok (h.addAll (Heap.found h0) (Tree.idsL ts))
  | [], _, _, n, .nil, _, _ => rfl
  | p :: ps, _, t :: ts, n, .cons h1 h2, hm, hn => by
    rw [depthL] at hn
    rw [List.map_cons, collectLoop, Made.collect h1 hm (by omega), Tree.idsL, Heap.addAll_append]
    exact MadeL.collect h2 (hm.trans (.addAll _ _ _)) (by omega)
end

theorem all2_map {α β γ : Type} {R : α → β → Prop} {S : α → γ → Prop} {f : β → γ} {a : List α} {b : List β} (h : All2 R a b)
    (hf : ∀ x y, R x y → S x (f y)) : All2 S a (b.map f) := by
  induction h with
  | nil => exact .nil
  | cons h _ ih => exact .cons (hf _ _ h) ih

mutual
/-- What the sections are when the targets have been collected. -/
theorem Made.collected {h h' : Heap} (hl : h'.length = h.length) : ∀ {p : Part} {par : Option Nat} {t : Tree}, Made false h par p t →
    (∀ j ∈ t.ids, h'.get j = { h.get j with tags := (h.get j).tags ++ (Heap.found h j).map (Target.tag j) }) → Made true h' par p t
  | p, par, .node i kids, .mk h1 h2 h3 h4, e => by
    have ei := e i (by simp [Tree.ids])
    obtain ⟨ts, et, ht⟩ := h2.targets h3
    have ef : Heap.found h i = ts := by rw [Heap.found, et]; rfl
    refine .mk (by omega) ?_ (by rw [ei]; exact h3) (MadeL.collected hl h4 fun j hj => e j (by simp [Tree.ids, hj]))
    rw [ei, ef]
    obtain ⟨l, el⟩ := h2.tags
    refine ⟨h2.parent, h2.title, h2.tag, ⟨l, ts.map (Target.tag i), ?_, all2_map ht ?_⟩, h2.split, h2.resetDepth, h2.omitToc, h2.style,
      h2.partials, h2.children⟩
    · show (h.get i).tags ++ _ = _
      rw [el]
    · rintro m _ ⟨ss, l, e1, e2, e3, rfl⟩
      exact ⟨ss, l, e1, e2, e3, rfl⟩
theorem MadeL.collected {h h' : Heap} (hl : h'.length = h.length) : ∀ {ps : List Part} {par : Option Nat} {ts : List Tree}, MadeL false h par ps ts →
    (∀ j ∈ Tree.idsL ts, h'.get j = { h.get j with tags := (h.get j).tags ++ (Heap.found h j).map (Target.tag j) }) → MadeL true h' par ps ts
  | _, _, _, .nil, _ => .nil
  | _, _, _, .cons h1 h2, e => .cons (h1.collected hl fun j hj => e j (by simp [Tree.idsL, hj]))
      (h2.collected hl fun j hj => e j (by simp [Tree.idsL, hj]))
end

/-! ### The tree -/

mutual
theorem Made.subs {f : Bool} {h : Heap} : ∀ {p : Part} {par : Option Nat} {t : Tree}, Made f h par p t → ∀ {s : Tree}, t.Sub s → ∃ par q, Made f h par q s
  | .mk title tags split hide body subs, par, .node i kids, hm, s, ⟨ks, hs⟩ => by
    rcases hs.uncons with ⟨_, rfl⟩ | ⟨k, ks', c, _, hk, hc⟩
    · exact ⟨_, _, hm⟩
    · cases hm with
      | mk h1 h2 h3 h4 => exact MadeL.subs h4 (List.mem_of_getElem? hk) ⟨ks', hc⟩
theorem MadeL.subs {f : Bool} {h : Heap} : ∀ {ps : List Part} {par : Option Nat} {ts : List Tree}, MadeL f h par ps ts →
    ∀ {t s : Tree}, t ∈ ts → t.Sub s → ∃ par q, Made f h par q s
  | [], _, _, .nil, _, _, ht, _ => by cases ht
  | p :: ps, _, t :: ts, .cons h1 h2, u, s, ht, hs => by
    rcases List.mem_cons.1 ht with rfl | ht
    · exact Made.subs h1 hs
    · exact MadeL.subs h2 ht hs
end

theorem MadeL.mem {f : Bool} {h : Heap} {par : Option Nat} {ps : List Part} {ts : List Tree} (hm : MadeL f h par ps ts) {t : Tree} (ht : t ∈ ts) :
    ∃ q, Made f h par q t := by
  induction ts generalizing ps with
  | nil => cases ht
  | cons u us ih =>
    cases hm with
    | cons h1 h2 =>
      rcases List.mem_cons.1 ht with rfl | ht
      · exact ⟨_, h1⟩
      · exact ih h2 ht

theorem MadeL.get {f : Bool} {h : Heap} {par : Option Nat} {ps : List Part} {ts : List Tree} (hm : MadeL f h par ps ts) {k : Nat} {q : Part}
    (hk : ps[k]? = some q) : ∃ t, ts[k]? = some t ∧ Made f h par q t := by
  induction ps generalizing ts k with
  | nil => simp at hk
  | cons p ps ih =>
    cases hm with
    | cons h1 h2 =>
      cases k with
      | zero => simp at hk; subst hk; exact ⟨_, rfl, h1⟩
      | succ k => exact ih h2 hk

theorem MadeL.get' {f : Bool} {h : Heap} {par : Option Nat} {ps : List Part} {ts : List Tree} (hm : MadeL f h par ps ts) {k : Nat} {t : Tree}
    (hk : ts[k]? = some t) : ∃ q, ps[k]? = some q ∧ Made f h par q t := by
  induction ps generalizing ts k with
  | nil => cases hm; simp at hk
  | cons p ps ih =>
    cases hm with
    | cons h1 h2 =>
      cases k with
      | zero => simp at hk; subst hk; exact ⟨_, rfl, h1⟩
      | succ k => exact ih h2 hk

theorem Made.inv {f : Bool} {h : Heap} {par : Option Nat} {p : Part} {t : Tree} (hm : Made f h par p t) : t.root < h.length ∧
    Shape f (h.get t.root) par p t.root (t.kids.map Tree.root) ∧ Bodied (h.get t.root) p t.root ∧ MadeL f h (some t.root) p.subs t.kids := by
  cases hm with
  | mk h1 h2 h3 h4 => exact ⟨h1, h2, h3, h4⟩

theorem Made.book {f : Bool} {h : Heap} {p : Part} {t : Tree} (hm : Made f h none p t) (hn : t.ids.Nodup) : Book h t := by
  refine ⟨hn, fun s hs => ?_, fun s hs k hk => ?_, hm.inv.2.1.parent⟩
  · obtain ⟨par, q, hq⟩ := hm.subs hs
    exact hq.inv.2.1.children
  · obtain ⟨par, q, hq⟩ := hm.subs hs
    obtain ⟨r, hr⟩ := hq.inv.2.2.2.mem hk
    exact hr.inv.2.1.parent

/-! ### Loading -/

/-- A manuscript that has been evaluated, and nothing else. -/
structure Evaluated (h : Heap) (b : Part) (t : Tree) : Prop where
  made : Made false h none b t
  top : t.root = 0
  ids : ∀ j, j ∈ t.ids ↔ j < h.length
  nodup : t.ids.Nodup

/-- A manuscript that has been loaded, and nothing else. -/
structure Loaded (h : Heap) (b : Part) (t : Tree) : Prop where
  made : Made true h none b t
  top : t.root = 0
  ids : ∀ j, j ∈ t.ids ↔ j < h.length
  nodup : t.ids.Nodup

theorem load_part {nl : Str} (hnl : Booklit.Peg.IsNl nl) {b : Part} (hb : b.ok) {path : Str} {info : FileInfo} (hf : W.fs path = some info)
    (hd : info.data = some (b.src nl)) {plugins : List Nat} (hp : plugins.head? = some 0) {n : Nat} (hn : depth b ≤ n) :
    ∃ s' t, loadFile W (n + 1) none path plugins ⟨[], []⟩ = (.ok 0, s') ∧ Loaded s'.heap b t := by
  obtain ⟨ns, r1, r2⟩ := read_part hnl hb
  have hnode : nodeOf ⟨[], []⟩ path info = .ok (.seq ns) := by
    show parseFile path info = _
    rw [parseFile, hd]
    dsimp only
    rw [r1]
  have g0 : ((⟨[], []⟩ : St).file none path plugins).heap.get 0 = fresh none path plugins := rfl
  have rd : Ready ((⟨[], []⟩ : St).file none path plugins) 0 := by
    refine ⟨?_, hp, Nat.zero_lt_one⟩
    intro j
    cases j with
    | zero => exact ⟨rfl, fun p hp => by cases hp⟩
    | succ j => exact ⟨rfl, fun p hp => by cases hp⟩
  obtain ⟨cs, kids, s1, e1, hbl, w, sh, bd, mk, nw⟩ := evalPart (W := W) (k := n) (inc := incl W n) hb (ns := ns) r2 rd g0
  have lt1 : 0 < s1.heap.length := Nat.lt_of_lt_of_le rd.lt w.len
  -- the body
  have hbody : ∃ s2, evalBody (evalNode W n (incl W n) (.seq ns)) 0 ((⟨[], []⟩ : St).file none path plugins) = (.ok (), s2) ∧
      Evaluated s2.heap b (.node 0 kids) := by
    have hnew : ∀ h : Heap, h.length = s1.heap.length → (∀ j, j ≠ 0 → h.get j = s1.heap.get j) →
        Shape false (h.get 0) none b 0 (kids.map Tree.root) → Bodied (h.get 0) b 0 → Evaluated h b (.node 0 kids) := by
      intro h hl hg h1 h2
      refine ⟨.mk (by omega) h1 h2 (mk.keep (by omega) fun j hj => hg j ?_), rfl, fun j => ?_, ?_⟩
      · have := (nw.ids j).1 hj
        simp [St.file] at this
        omega
      · have := nw.ids j
        simp only [St.file, List.nil_append, List.length_singleton] at this
        rw [Tree.ids, List.mem_cons, this, hl]
        omega
      · rw [Tree.ids]
        refine List.nodup_cons.2 ⟨fun hm => ?_, nw.nodup⟩
        have := (nw.ids 0).1 hm
        simp [St.file] at this
    have ev : evalNode W n (incl W n) (.seq ns) 0 .nil ((⟨[], []⟩ : St).file none path plugins) = (.ok (oneBody cs), s1) := by
      rw [evalNode]
      exact e1
    cases hcs : cs with
    | nil =>
      subst hcs
      refine ⟨s1, ?_, hnew s1.heap rfl (fun _ _ => rfl) sh (.inl ⟨?_, bd⟩)⟩
      · simp only [evalBody, M.bind_run, M.bind, ev]
        rfl
      · cases hb : b.body with
        | nil => rfl
        | cons x xs => rw [hb] at hbl; exact absurd rfl (hbl.ne (by simp))
    | cons c r =>
      have hne : cs ≠ [] := by rw [hcs]; simp
      refine ⟨{ s1 with heap := s1.heap.upd 0 fun x => { x with body := oneBody cs } }, ?_, hnew _ (Heap.length_upd ..)
        (fun j hj => Heap.get_upd_ne _ _ hj) ?_ (.inr ⟨cs, hne, hbl, ?_⟩)⟩
      · simp only [evalBody, M.bind_run, M.bind, ev, oneBody_notNil hbl.items hne]
        rfl
      · rw [Heap.get_upd_eq _ _ lt1]
        exact sh.body _
      · rw [Heap.get_upd_eq _ _ lt1]
  obtain ⟨s2, e2, hl⟩ := hbody
  have hlen : (s2.heap.addAll (Heap.found s2.heap) (Tree.node 0 kids).ids).length = s2.heap.length := (MoreTags.addAll _ _ _).1
  refine ⟨⟨s2.heap.addAll (Heap.found s2.heap) (Tree.node 0 kids).ids, (remember path (.seq ns) info.mtime s2).2.cache⟩, .node 0 kids, ?_,
    ⟨hl.made.collected hlen fun j hj => Heap.get_addAll_mem _ _ _ hl.nodup hj ((hl.ids j).1 hj), rfl, fun j => ?_, hl.nodup⟩⟩
  · rw [loadFile_run, evalFile_run, hf]
    simp only [hnode]
    rw [show evalBody (evalNode W n (incl W n) (.seq ns)) (List.length ([] : List Sec)) ((⟨[], []⟩ : St).file none path plugins) = (.ok (), s2) from e2]
    dsimp only
    have hc : (remember path (.seq ns) info.mtime s2).2.heap.collect (n + 1) 0 =
        .ok (s2.heap.addAll (Heap.found s2.heap) (Tree.node 0 kids).ids) := by
      show collectSection (n + 1) s2.heap 0 = _
      exact hl.made.collect (.refl _) (by omega)
    rw [show List.length ([] : List Sec) = 0 from rfl, hc]
  · rw [hl.ids j]
    show _ ↔ j < (s2.heap.addAll (Heap.found s2.heap) (Tree.node 0 kids).ids).length
    rw [hlen]

end Booklit.Ms
