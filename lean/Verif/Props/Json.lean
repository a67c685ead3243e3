import Verif.Props.Output
import Verif.Props.Renders
import Verif.Lemmas.JsonL
import Verif.Lemmas.IndexL

/-!
C69: the file of the search index.
-/

namespace Booklit.Props

open Booklit Tree

/-- **C69**: whatever is in titles, texts and tags, the file of the search index is JSON, and a reader finds in it under
each name exactly the entry of the index. -/
theorem C69_reads {h : Heap} {bo : Bool} {ext : Str} {n i : Nat} {ix : SearchIndex} (short : Bool)
    (hx : h.searchIndex bo ext n i = .ok ix) :
    ∃ j, Json.read (jsonIndex short ix) = some j ∧ ∀ name, j.get name = (ix.lookup name).map SearchDoc.json :=
  ⟨_, read_index short ix, get_index ix (searchIndex_nodup hx)⟩

/-- **C69**: the order in which the entries are visited, which Go leaves open for maps, makes no difference to the file. -/
theorem C69_any_order {h : Heap} {bo : Bool} {ext : Str} {n i : Nat} {ix : SearchIndex} (short : Bool)
    (hx : h.searchIndex bo ext n i = .ok ix) {ix' : SearchIndex} (hp : ix'.Perm ix) : jsonIndex short ix' = jsonIndex short ix := by
  rw [jsonIndex, jsonIndex, sortKeys_congr hp ((hp.map _).nodup_iff.2 (searchIndex_nodup hx))]

/-- **C69**: the file can be put into a page or a script: up to the newline at its end it has no control characters, no
characters that have a meaning in HTML, and no line separators. -/
theorem C69_harmless (short : Bool) (ix : SearchIndex) :
    ∃ s, jsonIndex short ix = s ++ ['\n'] ∧ ∀ c ∈ s, inertChar c = true := by
  refine ⟨['{'] ++ jsonEntries short (sortKeys ix) ++ ['}'], by simp [jsonIndex], fun c hc => ?_⟩
  simp only [List.mem_append, List.mem_singleton] at hc
  rcases hc with (rfl | hc) | rfl
  · decide
  · exact List.all_eq_true.1 (jsonEntries_inert short _) c hc
  · decide

/-- **C69**: loaded documents have a search index, if no title of a section or target in them leaves anything out (as
`\\reference{tag}` leaves out its text) and other plugins make nothing special. Broken references are no obstacle. -/
theorem C69_documents {W : World} {F : Content → Prop} (hF : W.Makes F) (hm : ∀ c, F c → c.simple = true)
    (hs : W.SolidPlugins) (hfs : W.fs [] = none) {n : Nat} {path : Str} {plugins : List Nat} {s s' : St} {i : Nat}
    (hr : Reach W s) (h0 : plugins.head? = some 0) (hl : loadFile W n none path plugins s = (.ok i, s')) :
    ∃ t, t.root = i ∧ Book s'.heap t ∧ ((∀ j ∈ t.ids, ∀ g ∈ (s'.heap.get j).tags, g.title.nilFree = true) → ∀ bo ext,
      ∃ ix N, ∀ m, N ≤ m → s'.heap.searchIndex bo ext m i = .ok ix) := by
  have hr' : Reach W s' := by
    have := Reach.load n none path plugins hr (by simp) h0
    rw [hl] at this
    exact this
  obtain ⟨t, rfl, b, htags⟩ := C42_targets_become_tags_partial hs hr hl
  have solid : ∀ j ∈ t.ids, ∀ c ∈ (s'.heap.get j).contents, c.isNil = false ∧ c.all Content.noHoles = true := by
    intro j hj c hc
    by_cases hj' : j < s'.heap.length
    · exact solid_iff.1 ((hr'.heapOk (contentInv_solid hs) j hj').contents c hc)
    · rw [Heap.get_out hj'] at hc
      simp only [Sec.contents, Sec.fresh, List.map_nil, List.mem_cons, List.not_mem_nil, or_false, or_self] at hc
      subst hc
      exact ⟨rfl, rfl⟩
  refine ⟨t, rfl, b, fun hn bo ext => index_told b (books_told ⟨bo, fun _ => none⟩ b ?_ ?_ ?_ ?_) ext⟩
  · exact fun j _ => C49_own_tags hr' j
  · intro j hj g hg d hd
    refine ⟨by simpa using (all_iff _).1 (hn j hj g hg) d hd, fun k e => ?_⟩
    have := parts_shown (P := fun i d => d.ordinary i) hF hfs hr' (fun _ _ _ o => origin_simple hm o) j g.title
      (by simp only [Sec.shown, List.mem_cons, List.mem_map]; exact .inr (.inr ⟨g, hg, rfl⟩)) d hd
    rw [e] at this
    exact this
  · intro j hj g hg d hd
    have h1 := tags_parts (P := fun i d => d.ordinary i ∧ d.needed) hF hfs hr' (fun _ _ _ o => ⟨origin_simple hm o, o.needed hm⟩) j g hg d hd
    refine inText_of hj h1.1 h1.2 ?_
    obtain ⟨own, h2, h3⟩ := htags j hj
    rw [h3, List.mem_append, List.mem_flatMap] at hg
    rcases hg with hg | ⟨c, hc, hg⟩
    · rw [(h2 g hg).2] at hd
      simp only [Content.parts, List.mem_singleton] at hd
      rw [hd]
      rfl
    · obtain ⟨a, ha, hg⟩ := List.mem_filterMap.1 hg
      cases a with
      | target name l ti co =>
        cases hg
        exact (all_iff _).1 (solid j hj c hc).2 d (parts_trans (parts_shallow _ ha)
          (by rw [Content.parts]; exact List.mem_cons_of_mem _ (by simp [hd])))
      | _ => cases hg
  · intro j hj
    have hc := solid j hj (s'.heap.get j).body (by simp [Sec.contents])
    refine ⟨hc.1, fun d hd => ?_⟩
    have h1 := parts_shown (P := fun i d => d.ordinary i ∧ d.needed) hF hfs hr' (fun _ _ _ o => ⟨origin_simple hm o, o.needed hm⟩) j
      (s'.heap.get j).body (by simp [Sec.shown]) d hd
    exact inText_of hj h1.1 h1.2 ((all_iff _).1 hc.2 d hd)

/-! ### Cases -/

/-- The file of a document's search index. -/
def indexFile (text : Str) : Option Str :=
  match loadText text with
  | (.ok i, s) =>
    match s.heap.searchIndex false q%"html" 9 i with
    | .ok ix => some (jsonIndex true ix)
    | _ => none
  | _ => none

example : indexFile q%"\\title{A \"<b>\"}{t}\n\nx\n\n\\section{\\title{B}\n\ny\\\\z\n}\n" =
    some (q%"{\"b\":{\"location\":\"t.html#b\",\"title\":\"B\",\"text\":\"  y\\\\z \",\"depth\":1,\"section_tag\":\"b\"}," ++
      q%"\"t\":{\"location\":\"t.html\",\"title\":\"A \\\"\\u003cb\\u003e\\\"\",\"text\":\"x\\n\\n\",\"depth\":0,\"section_tag\":\"t\"}}\n") := by
  decide +kernel

/-- A document with a target that is titled by a reference to itself. -/
def selfTitled : Str := q%"\\title{A}\n\n\\target{x}{\\reference{x}}\n"

/-- **C69**, the condition on titles is needed: this document is loaded and its page is rendered, but making its search
index does not come to an end. -/
theorem C69_needed :
    okAnd (loadText selfTitled) (fun i s => i == 0 && match s.heap.page ⟨false, fun _ => none⟩ 9 0 with | .ok _ => true | _ => false) = true ∧
    ∀ n ix, (loadText selfTitled).2.heap.searchIndex false q%"html" n 0 ≠ .ok ix := by
  refine ⟨by decide +kernel, fun n ix e => ?_⟩
  generalize hh : (loadText selfTitled).2.heap = h at e
  have b : Book h (.node 0 []) := by
    subst hh
    exact Book.of_check (by decide +kernel) (by decide +kernel) (by decide +kernel)
  have own : ∀ j ∈ (Tree.node 0 []).ids, ∀ g ∈ (h.get j).tags, g.sec = some j := by
    have : (Tree.node 0 []).ids.all (fun j => (h.get j).tags.all fun g => g.sec == some j) = true := by
      subst hh
      decide +kernel
    simpa using this
  obtain ⟨ps, -, h1, h2⟩ := C49_search_index (t := .node 0 []) b own e
  have self : ∀ g : Tag, (match g.title with | .ref 0 t .nil false _ => t == q%"x" | _ => false) = true →
      ∃ l, g.title = .ref 0 q%"x" .nil false l := by
    intro g hg
    split at hg
    · next e => exact ⟨_, by rw [e, beq_iff_eq.1 hg]⟩
    · cases hg
  have h3 : ∀ g ∈ (Tree.node 0 []).tagsNamed h q%"x", ∃ l, g.title = .ref 0 q%"x" .nil false l := by
    have : ((Tree.node 0 []).tagsNamed h q%"x").all
        (fun g => match g.title with | .ref 0 t .nil false _ => t == q%"x" | _ => false) = true := by
      subst hh
      decide +kernel
    exact fun g hg => self g (List.all_eq_true.1 this g hg)
  have h4 : ∃ g l, h.resolve 9 0 q%"x" false = some (.tag g) ∧ g.title = .ref 0 q%"x" .nil false l := by
    have : (match h.resolve 9 0 q%"x" false with
        | some (.tag g) => (match g.title with | .ref 0 t .nil false _ => t == q%"x" | _ => false)
        | _ => false) = true := by
      subst hh
      decide +kernel
    split at this
    · next g e =>
      obtain ⟨l, h⟩ := self g this
      exact ⟨g, l, e, h⟩
    · cases this
  obtain ⟨g, l, h4, h5⟩ := h4
  have h6 : (ix.lookup q%"x").isSome = true := by
    rw [h1]
    have : (Tree.node 0 []).ids.any (fun j => (h.get j).tags.any fun g => g.name == q%"x") = true := by
      subst hh
      decide +kernel
    simpa using this
  obtain ⟨d, h6⟩ := Option.isSome_iff_exists.1 h6
  obtain ⟨g', j, h7, -, -, -, -, -, h8, -⟩ := h2 _ _ h6
  obtain ⟨l', h9⟩ := h3 g' (List.mem_of_getLast? h7)
  rw [h9] at h8
  exact text_loop h4 h5 n l' _ h8

end Booklit.Props
