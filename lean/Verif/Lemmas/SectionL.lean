import Verif.Lemmas.TreeL

/-! Lemmas about sections in a book: numbers, depth, queries, navigation and tag lookup. -/

namespace Booklit

open Tree

theorem Book.kid_parent {h : Heap} {t : Tree} (b : Book h t) {ks : List Nat} {p s : Tree} {k : Nat}
    (hp : At t ks p) (hk : p.kids[k]? = some s) : (h.get s.root).parent = some p.root :=
  b.parent p ⟨_, hp⟩ s (List.mem_of_getElem? hk)

theorem Book.kid_children {h : Heap} {t : Tree} (b : Book h t) {ks : List Nat} {p : Tree} (hp : At t ks p) :
    (h.get p.root).children = p.kids.map Tree.root := b.children p ⟨_, hp⟩

theorem roots_sublist (ks : List Tree) : (ks.map Tree.root).Sublist (idsL ks) := by
  induction ks with
  | nil => exact .slnil
  | cons k ks ih =>
    rw [List.map_cons, idsL, ids_eq]
    exact (List.Sublist.cons_cons _ (ih.trans (List.sublist_append_right ..)))

theorem Book.kid_roots_nodup {h : Heap} {t : Tree} (b : Book h t) {ks : List Nat} {p : Tree} (hp : At t ks p) :
    (p.kids.map Tree.root).Nodup := by
  have := b.nodup.sublist hp.sublist
  rw [ids_eq, List.nodup_cons] at this
  exact this.2.sublist (roots_sublist _)

theorem getElem?_root {ks : List Tree} {k : Nat} {s : Tree} (h : ks[k]? = some s) :
    (ks.map Tree.root)[k]? = some s.root := by simp [h]

/-! ### Numbers -/

theorem indexIn_of {l : List Nat} {k i : Nat} (hn : l.Nodup) (h : l[k]? = some i) : indexIn i l = k + 1 := by
  induction l generalizing k with
  | nil => simp at h
  | cons c l ih =>
    rw [List.nodup_cons] at hn
    cases k with
    | zero =>
      simp only [List.getElem?_cons_zero, Option.some.injEq] at h
      simp [indexIn, h]
    | succ k =>
      simp only [List.getElem?_cons_succ] at h
      have : c ≠ i := fun e => hn.1 (e ▸ List.mem_of_getElem? h)
      simp [indexIn, this, ih hn.2 h]

theorem decimal_ne_nil (n : Nat) : Nat.toDigits 10 n ≠ [] := Nat.toDigits_ne_nil

theorem dotted_ne_nil {l : List Nat} (h : l ≠ []) : dotted l ≠ [] := by
  match l with
  | [n] => exact decimal_ne_nil n
  | n :: m :: r => simp [dotted]

theorem dotted_snoc (l : List Nat) (k : Nat) (h : l ≠ []) :
    dotted (l ++ [k]) = dotted l ++ ['.'] ++ Nat.toDigits 10 k := by
  match l with
  | [n] => simp [dotted]
  | n :: m :: r =>
    have := dotted_snoc (m :: r) k (by simp)
    simp only [List.cons_append] at this
    simp [dotted, this]

theorem number_ends {h : Heap} {t : Tree} (b : Book h t) {ks : List Nat} {s : Tree} (hs : At t ks s) :
    Ends (fun n => h.number n s.root) (dotted (ks.map (· + 1))) := by
  induction hs with
  | here => exact (Ends.const fun n => by simp [Heap.number, b.top, dotted]).succ
  | @step ks p k s hp hk ih =>
    refine Ends.succ (ih.congr fun n hn => ?_)
    have e : indexIn s.root (p.kids.map Tree.root) = k + 1 := indexIn_of (b.kid_roots_nodup hp) (getElem?_root hk)
    simp only [Heap.number, b.kid_parent hp hk, hn, b.kid_children hp, e]
    by_cases hks : ks = []
    · subst hks; simp [dotted, decimal]
    · have hks' : ks.map (· + 1) ≠ [] := by simpa using hks
      rw [if_neg (dotted_ne_nil hks'), List.map_append, List.map_singleton, dotted_snoc _ _ hks']
      rfl

theorem digits_inj {a b : Nat} (h : Nat.toDigits 10 a = Nat.toDigits 10 b) : a = b := by
  have := congrArg (fun l => Nat.ofDigitChars 10 l 0) h
  simpa [Nat.ofDigitChars_ten_toDigits] using this

theorem dot_not_digit {n : Nat} : '.' ∉ Nat.toDigits 10 n := by
  intro h
  have := Nat.isDigit_of_mem_toDigits (by decide) (by decide) h
  exact absurd this (by decide)

theorem split_dot {a b x y : Str} (ha : '.' ∉ a) (hb : '.' ∉ b) (h : a ++ '.' :: x = b ++ '.' :: y) : a = b ∧ x = y := by
  induction a generalizing b with
  | nil =>
    cases b with
    | nil => simpa using h
    | cons c b => simp at h hb; exact absurd h.1 hb.1
  | cons c a ih =>
    cases b with
    | nil => simp at h ha; exact absurd h.1.symm ha.1
    | cons d b =>
      simp at h ha hb
      obtain ⟨e1, e2⟩ := ih ha.2 hb.2 h.2
      exact ⟨by rw [h.1, e1], e2⟩

theorem dotted_inj : ∀ {l m : List Nat}, dotted l = dotted m → l = m
  | [], [], _ => rfl
  | [], a :: m, h => absurd h.symm (dotted_ne_nil (by simp))
  | a :: l, [], h => absurd h (dotted_ne_nil (by simp))
  | [a], [b], h => by rw [digits_inj h]
  | [a], b :: c :: m, h => by
    have : '.' ∈ dotted [a] := by rw [h]; simp [dotted]
    exact absurd this dot_not_digit
  | a :: c :: l, [b], h => by
    have : '.' ∈ dotted [b] := by rw [← h]; simp [dotted]
    exact absurd this dot_not_digit
  | a :: c :: l, b :: d :: m, h => by
    obtain ⟨e1, e2⟩ := split_dot dot_not_digit dot_not_digit h
    rw [digits_inj e1, dotted_inj e2]

/-! ### Depth and other queries -/

theorem depth_ends {h : Heap} {t : Tree} (b : Book h t) {ks : List Nat} {s : Tree} (hs : At t ks s) :
    Ends (fun n => h.depth n s.root) ks.length := by
  induction hs with
  | here => exact (Ends.const fun n => by simp [Heap.depth, b.top]).succ
  | @step ks p k s hp hk ih =>
    refine Ends.succ (ih.congr fun n hn => ?_)
    simp [Heap.depth, b.kid_parent hp hk, hn]

theorem top_ends {h : Heap} {t : Tree} (b : Book h t) {ks : List Nat} {s : Tree} (hs : At t ks s) :
    Ends (fun n => h.top n s.root) t.root := by
  induction hs with
  | here => exact (Ends.const fun n => by simp [Heap.top, b.top]).succ
  | @step ks p k s hp hk ih =>
    refine Ends.succ (ih.congr fun n hn => ?_)
    simp [Heap.top, b.kid_parent hp hk, hn]

theorem containsAny_ends {h : Heap} (x : Nat) : ∀ (ks : List Tree),
    (∀ k ∈ ks, Ends (fun n => h.contains n k.root x) (decide (x ∈ k.ids))) →
    Ends (fun n => h.containsAny n (ks.map Tree.root) x) (decide (x ∈ idsL ks))
  | [], _ => Ends.const fun n => by simp [Heap.containsAny, idsL]
  | k :: ks, hk => by
    refine Ends.succ ((hk k (by simp)).congr2 (containsAny_ends x ks fun c hc => hk c (by simp [hc])) fun n h1 h2 => ?_)
    simp only [List.map_cons, Heap.containsAny, h1, idsL, List.mem_append]
    by_cases hx : x ∈ k.ids
    · simp [hx]
    · simp [hx, h2]

theorem contains_ends {h : Heap} {t : Tree} (b : Book h t) (x : Nat) (s : Tree) (hs : t.Sub s) :
    Ends (fun n => h.contains n s.root x) (decide (x ∈ s.ids)) := by
  induction s using Tree.ind with
  | h i ks ih =>
    refine Ends.succ ((containsAny_ends (h := h) x ks fun k hk => ih k hk (hs.kid hk)).congr fun n hn => ?_)
    have e := b.children _ hs
    simp only [root, kids] at e
    simp only [root, Heap.contains, e, hn, ids, List.mem_cons]
    by_cases hx : i = x
    · simp [hx]
    · simp [hx, Ne.symm hx]

/-! ### Navigation -/

theorem prevIn_of {l : List Nat} {k i : Nat} (last : Option Nat) (hn : l.Nodup) (h : l[k]? = some i) :
    prevIn i last l = if k = 0 then last else l[k - 1]? := by
  induction l generalizing k last with
  | nil => simp at h
  | cons c l ih =>
    rw [List.nodup_cons] at hn
    cases k with
    | zero =>
      simp only [List.getElem?_cons_zero, Option.some.injEq] at h
      subst h
      cases last with
      | some l => simp [prevIn]
      | none =>
        simp only [prevIn, if_true]
        have : ∀ (m : List Nat) (o : Option Nat), c ∉ m → prevIn c o m = none := by
          intro m
          induction m with
          | nil => intros; rfl
          | cons d m ihm =>
            intro o hm
            simp only [List.mem_cons, not_or] at hm
            cases o <;> simp [prevIn, Ne.symm hm.1, ihm _ hm.2]
        exact this l _ hn.1
    | succ k =>
      simp only [List.getElem?_cons_succ] at h
      have hc : c ≠ i := fun e => hn.1 (e ▸ List.mem_of_getElem? h)
      have := ih (some c) hn.2 h
      have e : prevIn i last (c :: l) = prevIn i (some c) l := by cases last <;> simp [prevIn, hc]
      rw [e, this]
      cases k <;> simp

theorem nextIn_of {l : List Nat} {k i : Nat} (hn : l.Nodup) (h : l[k]? = some i) : nextIn i false l = l[k + 1]? := by
  induction l generalizing k with
  | nil => simp at h
  | cons c l ih =>
    rw [List.nodup_cons] at hn
    cases k with
    | zero =>
      simp only [List.getElem?_cons_zero, Option.some.injEq] at h
      subst h
      cases l <;> simp [nextIn]
    | succ k =>
      simp only [List.getElem?_cons_succ] at h
      have hc : c ≠ i := fun e => hn.1 (e ▸ List.mem_of_getElem? h)
      have hc' : (c == i) = false := by simpa using hc
      simp [nextIn, hc', ih hn.2 h]

theorem prev_at {h : Heap} {t : Tree} (b : Book h t) {ks : List Nat} {p s : Tree} {k : Nat} (hp : At t ks p)
    (hk : p.kids[k]? = some s) :
    h.prev s.root = if k = 0 then some p.root else (p.kids[k - 1]?).map Tree.root := by
  simp only [Heap.prev, b.kid_parent hp hk, b.kid_children hp,
    prevIn_of none (b.kid_roots_nodup hp) (getElem?_root hk)]
  have hlt : k < p.kids.length := (List.getElem?_eq_some_iff.mp hk).1
  by_cases h0 : k = 0
  · simp [h0]
  · have : k - 1 < p.kids.length := by omega
    simp [h0, this]

/-- The section after position `ks` among its siblings or those of its nearest ancestor that has one. -/
def after (t : Tree) (ks : List Nat) : Option Nat :=
  match ks with
  | [] => none
  | k :: ks =>
    (match t.kids[k]? with
      | some c => after c ks
      | none => none).or ((t.kids[k + 1]?).map Tree.root)

theorem after_snoc {t p : Tree} {ks : List Nat} (hp : At t ks p) (k : Nat) (s : Tree) (hk : p.kids[k]? = some s) :
    after t (ks ++ [k]) = ((p.kids[k + 1]?).map Tree.root).or (after t ks) := by
  induction ks generalizing t with
  | nil =>
    obtain rfl := hp.inj .here
    simp [after, hk]
  | cons j ks ih =>
    rcases hp.uncons with ⟨e, _⟩ | ⟨j', ks', c, e, hc, hat⟩
    · simp at e
    · simp only [List.cons.injEq] at e
      obtain ⟨rfl, rfl⟩ := e
      simp only [List.cons_append, after, hc, ih hat, Option.or_assoc]

theorem nextSibling_ends {h : Heap} {t : Tree} (b : Book h t) {ks : List Nat} {s : Tree} (hs : At t ks s) :
    Ends (fun n => h.nextSibling n s.root) (after t ks) := by
  induction hs with
  | here => exact (Ends.const fun n => by simp [Heap.nextSibling, b.top, after]).succ
  | @step ks p k s hp hk ih =>
    refine Ends.succ (ih.congr fun n hn => ?_)
    rw [after_snoc hp k s hk]
    simp only [Heap.nextSibling, b.kid_parent hp hk, b.kid_children hp,
      nextIn_of (b.kid_roots_nodup hp) (getElem?_root hk), List.getElem?_map]
    cases p.kids[k + 1]? <;> simp [hn]

/-- What `Next` should give at a position. -/
def nextAt (h : Heap) (t : Tree) (ks : List Nat) (s : Tree) : Option Nat :=
  (if (h.get s.root).split then s.kids.head?.map Tree.root else none).or (after t ks)

theorem next_ends {h : Heap} {t : Tree} (b : Book h t) {ks : List Nat} {s : Tree} (hs : At t ks s) :
    Ends (fun n => h.next n s.root) (nextAt h t ks s) := by
  refine (nextSibling_ends b hs).congr fun n hn => ?_
  simp only [Heap.next, nextAt, b.kid_children hs]
  by_cases hsp : (h.get s.root).split = true
  · cases hk : s.kids with
    | nil => simpa [hk, hsp] using hn
    | cons c cs => simp [hsp]
  · simpa [hsp] using hn

theorem visible_eq (h : Heap) (t : Tree) :
    t.visible h = t.root :: (if (h.get t.root).split then visible.visibleL h t.kids else []) := by
  cases t; rfl

theorem visible_ne_nil (h : Heap) (t : Tree) : (t.visible h).head? = some t.root := by rw [visible_eq]; rfl

theorem visibleL_head (h : Heap) (ks : List Tree) : (visible.visibleL h ks).head? = ks.head?.map Tree.root := by
  cases ks with
  | nil => rfl
  | cons k ks => simp [visible.visibleL, List.head?_append, visible_ne_nil]

/-- The steps of `Next` below a subtree, continuing with `e` after it. -/
theorem visible_chain (h : Heap) (f : Nat → Option Nat) (e : Option Nat) (t : Tree)
    (hf : ∀ ks s, At t ks s → (∀ a ∈ t.ancestors ks, (h.get a).split = true) →
      f s.root = (nextAt h t ks s).or e) :
    ∀ j i, (t.visible h)[j]? = some i → f i = ((t.visible h)[j + 1]?).or e := by
  induction t using Tree.ind generalizing e with
  | h r ks ih =>
    intro j i hj
    have hroot := hf [] _ .here (by simp [ancestors])
    rw [visible_eq] at hj ⊢
    have er : (Tree.node r ks).root = r := rfl
    have ek : (Tree.node r ks).kids = ks := rfl
    simp only [er, ek] at hroot hj ⊢
    cases j with
    | zero =>
      simp only [List.getElem?_cons_zero, Option.some.injEq] at hj
      subst hj
      rw [hroot]
      simp only [nextAt, after, er, ek, Option.or_none, List.getElem?_cons_succ, ← List.head?_eq_getElem?]
      by_cases hs : (h.get r).split = true
      · simp [hs, visibleL_head]
      · simp [hs]
    | succ j =>
      by_cases hs : (h.get r).split = true
      case neg => simp [hs] at hj
      case pos =>
        simp only [hs, if_true, List.getElem?_cons_succ] at hj ⊢
        -- walk along the children
        have walk : ∀ (pre suf : List Tree), ks = pre ++ suf → ∀ j i, (visible.visibleL h suf)[j]? = some i →
            f i = ((visible.visibleL h suf)[j + 1]?).or e := by
          intro pre suf
          induction suf generalizing pre with
          | nil => intro _ j i hj; simp [visible.visibleL] at hj
          | cons k suf ihs =>
            intro hks j i hj
            have hkidx : ks[pre.length]? = some k := by rw [hks]; simp
            have hnext : ks[pre.length + 1]? = suf.head? := by
              rw [hks, List.getElem?_append_right (by omega)]
              cases suf <;> simp
            simp only [visible.visibleL] at hj ⊢
            have hk := ih k (by rw [hks]; simp) ((suf.head?.map Tree.root).or e) (by
              intro ls s hls hanc
              have := hf (pre.length :: ls) s (.cons hkidx hls) (by
                intro a ha
                simp only [ancestors, ek, hkidx, List.mem_append, List.mem_singleton, er] at ha
                rcases ha with ha | rfl
                · exact hanc a ha
                · exact hs)
              rw [this]
              have e2 : after (.node r ks) (pre.length :: ls) = (after k ls).or (suf.head?.map Tree.root) := by
                simp only [after, ek, hkidx, hnext]
              simp only [nextAt, e2, Option.or_assoc])
            by_cases hlt : j < (k.visible h).length
            · rw [List.getElem?_append_left hlt] at hj
              rw [hk j i hj]
              by_cases hlt2 : j + 1 < (k.visible h).length
              · rw [List.getElem?_append_left hlt2]
                have : (k.visible h)[j + 1]? = some (k.visible h)[j + 1] := List.getElem?_eq_getElem hlt2
                simp [this]
              · rw [List.getElem?_append_right (by omega)]
                have e1 : (k.visible h)[j + 1]? = none := List.getElem?_eq_none (by omega)
                have e2 : j + 1 - (k.visible h).length = 0 := by omega
                rw [e1, e2, ← List.head?_eq_getElem?, visibleL_head]
                rfl
            · rw [List.getElem?_append_right (by omega)] at hj
              rw [List.getElem?_append_right (by omega)]
              have := ihs (pre ++ [k]) (by simp [hks]) _ i hj
              rw [this]
              congr 2
              omega
        exact walk [] ks rfl j i hj

theorem visible_sublist (h : Heap) (t : Tree) : (t.visible h).Sublist t.ids := by
  induction t using Tree.ind with
  | h i ks ih =>
    rw [visible, ids]
    refine List.Sublist.cons_cons _ ?_
    by_cases hs : (h.get i).split = true
    · rw [if_pos hs]
      clear hs
      induction ks with
      | nil => exact List.Sublist.refl _
      | cons k ks ihl =>
        exact (ih k (by simp)).append (ihl fun c hc => ih c (by simp [hc]))
    · rw [if_neg hs]; exact List.nil_sublist _

theorem mem_visible {h : Heap} {t : Tree} {ks : List Nat} {s : Tree} (hs : At t ks s)
    (ha : ∀ a ∈ t.ancestors ks, (h.get a).split = true) : s.root ∈ t.visible h := by
  induction t using Tree.ind generalizing ks with
  | h i cs ih =>
    rw [visible_eq]
    rcases hs.uncons with ⟨rfl, rfl⟩ | ⟨k, l, c, rfl, hc, hl⟩
    · simp
    · simp only [ancestors, hc, List.mem_append, List.mem_singleton] at ha
      have h1 := ha i (.inr rfl)
      have hm := List.mem_of_getElem? hc
      have h2 := ih c hm hl fun a h => ha a (.inl h)
      simp only [root, h1, if_true, List.mem_cons]
      refine .inr ?_
      simp only [kids] at hm ⊢
      clear ih ha hc hs
      induction cs with
      | nil => simp at hm
      | cons d cs ihd =>
        simp only [visible.visibleL, List.mem_append]
        rcases List.mem_cons.mp hm with rfl | hm
        · exact .inl h2
        · exact .inr (ihd hm)

theorem visible_mem {h : Heap} {t : Tree} {i : Nat} (hi : i ∈ t.visible h) :
    ∃ ks s, At t ks s ∧ s.root = i ∧ ∀ a ∈ t.ancestors ks, (h.get a).split = true := by
  induction t using Tree.ind with
  | h r cs ih =>
    rw [visible_eq] at hi
    simp only [root, List.mem_cons] at hi
    rcases hi with rfl | hi
    · exact ⟨[], _, .here, rfl, by simp [ancestors]⟩
    · by_cases hs : (h.get r).split = true
      case neg => simp [hs] at hi
      case pos =>
        simp only [hs, if_true, kids] at hi
        have : ∃ (k : Nat) (c : Tree), cs[k]? = some c ∧ i ∈ c.visible h := by
          clear ih
          induction cs with
          | nil => simp [visible.visibleL] at hi
          | cons d cs ihd =>
            simp only [visible.visibleL, List.mem_append] at hi
            rcases hi with hi | hi
            · exact ⟨0, d, rfl, hi⟩
            · obtain ⟨k, c, hk, hc⟩ := ihd hi
              exact ⟨k + 1, c, by simpa using hk, hc⟩
        obtain ⟨k, c, hk, hc⟩ := this
        obtain ⟨ks, s, hat, e, ha⟩ := ih c (List.mem_of_getElem? hk) hc
        refine ⟨k :: ks, s, .cons hk hat, e, ?_⟩
        intro a haa
        simp only [ancestors, kids, hk, List.mem_append, List.mem_singleton, root] at haa
        rcases haa with haa | rfl
        · exact ha a haa
        · exact hs

/-! ### Ancestors and depth within a page -/

theorem ancestors_snoc {t p : Tree} {ks : List Nat} (hp : At t ks p) (k : Nat) {s : Tree} (hk : p.kids[k]? = some s) :
    t.ancestors (ks ++ [k]) = p.root :: t.ancestors ks := by
  induction ks generalizing t with
  | nil =>
    obtain rfl := hp.inj .here
    simp [ancestors, hk]
  | cons j ks ih =>
    rcases hp.uncons with ⟨e, _⟩ | ⟨j', ks', c, e, hc, hat⟩
    · simp at e
    · simp only [List.cons.injEq] at e
      obtain ⟨rfl, rfl⟩ := e
      simp [ancestors, hc, ih hat]

theorem pageDepth_ends {h : Heap} {t : Tree} (b : Book h t) {ks : List Nat} {s : Tree} (hs : At t ks s) :
    Ends (fun n => h.pageDepth n s.root) ((t.ancestors ks).takeWhile fun a => !(h.get a).resetDepth).length := by
  induction hs with
  | here => exact (Ends.const fun n => by simp [Heap.pageDepth, b.top, ancestors]).succ
  | @step ks p k s hp hk ih =>
    refine Ends.succ (ih.congr fun n hn => ?_)
    rw [ancestors_snoc hp k hk]
    simp only [Heap.pageDepth, b.kid_parent hp hk, hn]
    by_cases hr : (h.get p.root).resetDepth = true
    · simp [hr]
    · simp [hr]

/-! ### Tag lookup -/

/-- The matching tags of the given sections. -/
def tagsOf (h : Heap) (m : Str → Bool) (l : List Nat) : List Tag :=
  l.flatMap fun i => (h.get i).tags.filter fun g => m g.name

theorem tagsOf_append (h : Heap) (m : Str → Bool) (a b : List Nat) : tagsOf h m (a ++ b) = tagsOf h m a ++ tagsOf h m b := by
  simp [tagsOf]

theorem tagsDownAll_ends {h : Heap} (m : Str → Bool) : ∀ (ks : List Tree),
    (∀ k ∈ ks, Ends (fun n => h.tagsDown m n k.root) (tagsOf h m k.ids)) →
    Ends (fun n => h.tagsDownAll m n none (ks.map Tree.root)) (tagsOf h m (idsL ks))
  | [], _ => Ends.const fun n => by simp [Heap.tagsDownAll, idsL, tagsOf]
  | k :: ks, hk => by
    refine Ends.succ ((hk k (by simp)).congr2 (tagsDownAll_ends m ks fun c hc => hk c (by simp [hc])) fun n h1 h2 => ?_)
    simp [Heap.tagsDownAll, h1, h2, idsL, tagsOf_append]

theorem tagsDown_ends {h : Heap} {t : Tree} (b : Book h t) (m : Str → Bool) (s : Tree) (hs : t.Sub s) :
    Ends (fun n => h.tagsDown m n s.root) (tagsOf h m s.ids) := by
  induction s using Tree.ind with
  | h i ks ih =>
    refine Ends.succ ((tagsDownAll_ends (h := h) m ks fun k hk => ih k hk (hs.kid hk)).congr fun n hn => ?_)
    have e := b.children _ hs
    simp only [root, kids] at e
    simp [root, Heap.tagsDown, e, hn, ids, tagsOf]

/-- Leaving out one of the children. -/
theorem tagsDownAll_except {h : Heap} (m : Str → Bool) (x : Tree) : ∀ (ks : List Tree),
    (∀ k ∈ ks, Ends (fun n => h.tagsDown m n k.root) (tagsOf h m k.ids)) → (ks.map Tree.root).Nodup → x ∈ ks →
    ∃ r, Ends (fun n => h.tagsDownAll m n (some x.root) (ks.map Tree.root)) r ∧
      (r ++ tagsOf h m x.ids).Perm (tagsOf h m (idsL ks))
  | [], _, _, hx => by simp at hx
  | k :: ks, hk, hn, hx => by
    rw [List.map_cons, List.nodup_cons] at hn
    rcases List.mem_cons.mp hx with rfl | hx
    · refine ⟨tagsOf h m (idsL ks), ?_, ?_⟩
      · have : ∀ (cs : List Tree), (∀ c ∈ cs, Ends (fun n => h.tagsDown m n c.root) (tagsOf h m c.ids)) →
            x.root ∉ cs.map Tree.root →
            Ends (fun n => h.tagsDownAll m n (some x.root) (cs.map Tree.root)) (tagsOf h m (idsL cs)) := by
          intro cs
          induction cs with
          | nil => intros; exact Ends.const fun n => by simp [Heap.tagsDownAll, idsL, tagsOf]
          | cons c cs ih =>
            intro hc hnx
            simp only [List.map_cons, List.mem_cons, not_or] at hnx
            refine Ends.succ ((hc c (by simp)).congr2 (ih (fun d hd => hc d (by simp [hd])) hnx.2) fun n h1 h2 => ?_)
            simp [Heap.tagsDownAll, h1, h2, idsL, tagsOf_append, hnx.1]
        refine Ends.succ ((this ks (fun c hc => hk c (by simp [hc])) hn.1).congr fun n h1 => ?_)
        simp [Heap.tagsDownAll, h1]
      · rw [idsL, tagsOf_append]; exact List.perm_append_comm
    · have hne : x.root ≠ k.root := fun e => hn.1 (e ▸ List.mem_map_of_mem hx)
      obtain ⟨r, hr, hp⟩ := tagsDownAll_except m x ks (fun c hc => hk c (by simp [hc])) hn.2 hx
      refine ⟨tagsOf h m k.ids ++ r, Ends.succ ((hk k (by simp)).congr2 hr fun n h1 h2 => ?_), ?_⟩
      · simp [Heap.tagsDownAll, h1, h2, hne]
      · rw [idsL, tagsOf_append, List.append_assoc]; exact hp.append_left _

theorem tagsUp_ends {h : Heap} {t : Tree} (b : Book h t) (m : Str → Bool) {ks : List Nat} {p : Tree} (hp : At t ks p)
    (ex : Option Nat) (missing : List Tag)
    (hx : (ex = none ∧ missing = []) ∨ ∃ x ∈ p.kids, ex = some x.root ∧ missing = tagsOf h m x.ids) :
    ∃ r, Ends (fun n => h.tagsUp m n ex p.root) r ∧ (r ++ missing).Perm (tagsOf h m t.ids) := by
  have below : ∀ {ks : List Nat} {p : Tree}, At t ks p → ∀ {ex : Option Nat} {missing : List Tag},
      ((ex = none ∧ missing = []) ∨ ∃ x ∈ p.kids, ex = some x.root ∧ missing = tagsOf h m x.ids) →
      ∃ r, Ends (fun n => h.tagsDownAll m n ex (h.get p.root).children) r ∧
        (r ++ missing).Perm (tagsOf h m (idsL p.kids)) := by
    intro ks p hp ex missing hx
    have hd : ∀ k ∈ p.kids, Ends (fun n => h.tagsDown m n k.root) (tagsOf h m k.ids) :=
      fun k hk => tagsDown_ends b m k (Sub.kid ⟨_, hp⟩ hk)
    rw [b.kid_children hp]
    rcases hx with ⟨rfl, rfl⟩ | ⟨x, hxk, rfl, rfl⟩
    · exact ⟨_, tagsDownAll_ends m p.kids hd, by simp⟩
    · exact tagsDownAll_except m x p.kids hd (b.kid_roots_nodup hp) hxk
  have own : ∀ p : Tree, tagsOf h m p.ids = (h.get p.root).tags.filter (fun g => m g.name) ++ tagsOf h m (idsL p.kids) := by
    intro p; rw [ids_eq]; simp [tagsOf]
  induction hp generalizing ex missing with
  | here =>
    obtain ⟨r, hr, hperm⟩ := below .here hx
    refine ⟨(h.get t.root).tags.filter (fun g => m g.name) ++ r, Ends.succ (hr.congr fun n hn => ?_), ?_⟩
    · simp [Heap.tagsUp, hn, b.top]
    · rw [own, List.append_assoc]; exact hperm.append_left _
  | @step ks p k s hp hk ih =>
    obtain ⟨r, hr, hperm⟩ := below (.step hp hk) hx
    obtain ⟨a, ha, haperm⟩ := ih (some s.root) (tagsOf h m s.ids) (.inr ⟨s, List.mem_of_getElem? hk, rfl, rfl⟩)
    refine ⟨(h.get s.root).tags.filter (fun g => m g.name) ++ r ++ a,
      Ends.succ (hr.congr2 ha fun n h1 h2 => ?_), ?_⟩
    · simp [Heap.tagsUp, h1, h2, b.kid_parent hp hk]
    · refine List.Perm.trans ?_ haperm
      refine List.Perm.trans ?_ List.perm_append_comm
      rw [own s]
      generalize (h.get s.root).tags.filter (fun g => m g.name) = o
      have h1 : (o ++ r ++ a ++ missing).Perm (o ++ r ++ (missing ++ a)) := by
        rw [List.append_assoc (o ++ r)]
        exact List.perm_append_comm.append_left _
      refine h1.trans ?_
      rw [← List.append_assoc, List.append_assoc o]
      exact (hperm.append_left o).append_right a

theorem findTag_ends {h : Heap} {t : Tree} (b : Book h t) {ks : List Nat} {s : Tree} (hs : At t ks s) (name : Str) :
    ∃ r, Ends (fun n => h.findTag n s.root name) r ∧ r.Perm (t.tagsNamed h name) := by
  obtain ⟨r, hr, hp⟩ := tagsUp_ends b (fun o => o == name) hs none [] (.inl ⟨rfl, rfl⟩)
  refine ⟨r, hr, ?_⟩
  simp only [List.append_nil] at hp
  have e : tagsOf h (fun o => o == name) t.ids = t.tagsNamed h name := by
    simp only [tagsOf, tagsNamed]
    congr 1; funext i; congr 1; funext g
    by_cases hg : g.name = name <;> simp [hg]
  rwa [e] at hp

end Booklit
