import Verif.Lemmas.TargetsL
import Verif.Props.Calls
import Verif.Props.Load

/-!
Collection of targets: C42.
-/

namespace Booklit.Props

open Booklit

/-- **C42, partial**: whatever the documents and the earlier loads, after a successful load every section of the book
has the tags it was given with its title, followed by exactly one anchored tag for each target in its title, body
and partials, in document order. Missing compared with C42: targets inside references and inside other targets are
passed over, see `C42_false`. -/
theorem C42_targets_become_tags_partial {W : World} (hW : W.SolidPlugins) {n : Nat} {path : Str} {plugins : List Nat}
    {s s' : St} {i : Nat} (hr : Reach W s) (h : loadFile W n none path plugins s = (.ok i, s')) :
    ∃ t : Tree, t.root = i ∧ Book s'.heap t ∧ ∀ j ∈ t.ids, ∃ own : List Tag, (∀ g ∈ own, g.anchor = [] ∧ g.content = .nil) ∧
      (s'.heap.get j).tags = own ++ (s'.heap.get j).contents.flatMap (Content.anchors false j) := by
  obtain ⟨s1, h2, he, hc, rfl⟩ := loadFile_ok h
  obtain ⟨t', ht', hb⟩ := C28_loaded_tree h
  obtain ⟨rfl, t, ht, hn, hch, hrange⟩ := evalFile_tree he
  have m := collect_more n _ _ _ hc
  have hok : HeapOk (fun c => c.solid = true) s1.heap := by
    have := evalFile_heapOk (contentInv_solid hW) (n := n) (parent := none) (path := path) (plugins := plugins)
      (hr.heapOk (contentInv_solid hW))
    rw [he] at this
    exact this
  have hanch : NoAnchors s.heap.length s1.heap := by
    have := evalFile_noAnchors (W := W) (n := n) (parent := none) (path := path) (plugins := plugins) (s := s)
    rw [he] at this
    exact this
  have e : t' = t := by
    have b2 := hb.children
    refine Tree.unique (h := h2) ?_ b2 ?_
    · rw [ht', ht]
    · intro u hu; rw [(m.same _).1]; exact hch u hu
  subst e
  refine ⟨t', ht, hb, fun j hj => ⟨(s1.heap.get j).tags, hanch j (hrange j hj).1 (hrange j hj).2, ?_⟩⟩
  have := collect_tags (h := s1.heap) (h' := h2) (n := n) hn hch (fun j hj => (hrange j hj).2)
    (fun j hj => (hok j (hrange j hj).2).contents) (by rw [ht]; exact hc) j hj
  dsimp only
  rw [this]
  obtain ⟨gs, e⟩ := m.2 j
  rw [e]
  rfl

/-- A section with targets in its body, in styled text and in a partial. -/
example : okAnd (loadText q%"\\title{T}\n\na \\target{x} b \\italic{\\target{y}{Y}}\n\n\\set-partial{P}{\\target{z}}\n")
    (fun i s => (s.heap.get i).tags.map (fun g => (g.name, g.anchor)) ==
      [(q%"t", []), (q%"x", q%"x"), (q%"y", q%"y"), (q%"z", q%"z")]) = true := by decide +kernel

/-- No plugin of the sample world returns a content with holes. -/
example (text : Str) : (oneFile text).SolidPlugins := by
  intro q name f hf h i args ha c hc _
  simp only [oneFile] at hf
  split at hf
  · split at hf
    · cases hf; simp at hc; subst hc; rfl
    · split at hf
      · cases hf; simp at hc; subst hc; rfl
      · split at hf
        · cases hf; simp at hc; subst hc; rfl
        · split at hf
          · cases hf; simp at hc
          · cases hf
  · cases hf

/-- **C42** for documents without targets inside references or targets: every target, wherever it is, becomes one
anchored tag. -/
theorem C42_all_targets_become_tags_partial {W : World} (hW : W.SolidPlugins) {n : Nat} {path : Str} {plugins : List Nat}
    {s s' : St} {i : Nat} (hr : Reach W s) (h : loadFile W n none path plugins s = (.ok i, s')) :
    ∃ t : Tree, t.root = i ∧ Book s'.heap t ∧ ∀ j ∈ t.ids,
      (∀ c ∈ (s'.heap.get j).contents, c.all Content.plainInside = true) →
      ∃ own : List Tag, (∀ g ∈ own, g.anchor = [] ∧ g.content = .nil) ∧
        (s'.heap.get j).tags = own ++ (s'.heap.get j).contents.flatMap (Content.anchors true j) := by
  obtain ⟨t, ht, hb, hj⟩ := C42_targets_become_tags_partial hW hr h
  refine ⟨t, ht, hb, fun j hm hp => ?_⟩
  obtain ⟨own, h1, h2⟩ := hj j hm
  refine ⟨own, h1, ?_⟩
  rw [h2]
  congr 1
  have : ∀ cs : List Content, (∀ c ∈ cs, c.all Content.plainInside = true) →
      cs.flatMap (Content.anchors false j) = cs.flatMap (Content.anchors true j) := by
    intro cs
    induction cs with
    | nil => intro _; rfl
    | cons c cs ih =>
      intro hc
      simp only [List.mem_cons, forall_eq_or_imp] at hc
      rw [List.flatMap_cons, List.flatMap_cons, ih hc.2]
      congr 1
      exact (anchors_plain j c hc.1).symm
  exact this _ hp

/-- **C42 is false in general**: in this document the body has a target `y` that gets no tag, because it is inside
the text of a reference; likewise for a target inside a target. -/
theorem C42_false :
    okAnd (loadText q%"\\title{T}\n\n\\reference{t}{see \\target{y}}\n\n\\target{a}{A}{b \\target{z}}\n") (fun i s =>
      (((s.heap.get i).body.anchors true i).map Tag.name == [q%"y", q%"a", q%"z"]) &&
      ((s.heap.get i).tags.map Tag.name == [q%"t", q%"a"])) = true := by decide +kernel

/-- **C42**, the order in which the Go map of partials is iterated: collecting the same book with the partials of its
sections in any other order also succeeds, and gives every section the same tags up to order; those of title and
body come first in both. -/
theorem C42_partials_in_any_order {h h1 h' : Heap} {t : Tree} (hb : Book h t) (hl : ∀ j ∈ t.ids, j < h.length)
    (hs : ∀ j ∈ t.ids, ∀ c ∈ (h.get j).contents, c.solid = true) (hlen : h1.length = h.length)
    (hp : ∀ j, ∃ ps, ps.Perm (h.get j).partials ∧ h1.get j = { h.get j with partials := ps })
    {n : Nat} (hc : h.collect n t.root = .ok h') :
    ∃ N, ∀ m, N ≤ m → ∃ h1', h1.collect m t.root = .ok h1' ∧ ∀ j ∈ t.ids,
      (h1'.get j).tags.Perm (h'.get j).tags ∧ ∃ a b,
        (h'.get j).tags = (h.get j).tags ++ ([(h.get j).title, (h.get j).body].flatMap (Content.anchors false j)) ++ a ∧
        (h1'.get j).tags = (h.get j).tags ++ ([(h.get j).title, (h.get j).body].flatMap (Content.anchors false j)) ++ b := by
  have hch : ∀ u, t.Sub u → (h1.get u.root).children = u.kids.map Tree.root := by
    intro u hu
    obtain ⟨ps, _, e⟩ := hp u.root
    rw [e]; exact hb.children u hu
  have hs1 : ∀ j ∈ t.ids, ∀ c ∈ (h1.get j).contents, c.solid = true := by
    intro j hj c hc
    obtain ⟨ps, hps, e⟩ := hp j
    apply hs j hj
    rw [e] at hc
    simp only [Sec.contents, List.mem_cons, List.mem_map] at hc ⊢
    rcases hc with h | h | ⟨p, h, rfl⟩
    · exact .inl h
    · exact .inr (.inl h)
    · exact .inr (.inr ⟨p, hps.mem_iff.1 h, rfl⟩)
  have hT : ∀ j ∈ t.ids, ∃ ts, (h1.get j).targets = some ts := fun j hj => by
    obtain ⟨ts, e, _⟩ := Sec.targets_parts j _ (hs1 j hj)
    exact ⟨ts, e⟩
  obtain ⟨N, hN⟩ := collect_tree (fun j => ((h1.get j).targets).getD []) t
  refine ⟨N, fun m hm => ⟨_, hN m hm h1 hch fun j hj => ?_, fun j hj => ?_⟩⟩
  · obtain ⟨ts, e⟩ := hT j hj; simp [e]
  · have e1 := collect_tags hb.nodup hb.children hl hs hc j hj
    have e2 := collect_tags hb.nodup hch (fun j hj => by rw [hlen]; exact hl j hj) hs1
      (hN m hm h1 hch fun j hj => by obtain ⟨ts, e⟩ := hT j hj; simp [e]) j hj
    obtain ⟨ps, hps, e⟩ := hp j
    rw [e1, e2, e]
    simp only [Sec.contents, List.flatMap_cons]
    refine ⟨?_, _, _, by simp only [List.flatMap_nil, List.append_nil, List.append_assoc]; rfl,
      by simp only [List.flatMap_nil, List.append_nil, List.append_assoc]; rfl⟩
    exact ((((hps.map _).flatMap_right _).append_left _).append_left _).append_left _

end Booklit.Props
