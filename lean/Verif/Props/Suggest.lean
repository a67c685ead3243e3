import Verif.Lemmas.SimilarL
import Verif.Props.ErrorPage

/-!
C102: the tags that are suggested for a misspelt one.
-/

namespace Booklit.Props

open Booklit Tree

/-- **C102**: what is suggested for a reference to an unknown tag. If rendering a page of a loaded book fails because of it, the tags suggested are,
each as often as the book has it, exactly those tags of the book that are fewer mistakes away than half the length of the longer name. -/
theorem C102_suggestions {W : World} {F : Content → Prop} (hF : W.Makes F) (hm : ∀ c, F c → c.placeless = true)
    (hfs : W.fs [] = none) {n : Nat} {path : Str} {plugins : List Nat} {s s' : St} {i : Nat} (hr : Reach W s)
    (h0 : plugins.head? = some 0) (hl : loadFile W n none path plugins s = (.ok i, s')) {S : Site}
    (hS : ∀ i c, S.force i = some c → ∀ d ∈ c.parts true, d.placeless = true) {M : Wording} (hM : M.similar = similarTags) :
    ∃ t, t.root = i ∧ Book s'.heap t ∧ ∀ o ∈ t.ids, ∀ k tag known p l, s'.heap.page S k o = .err (.unknownTag tag known p l) →
      ∀ g, (g ∈ M.like tag known ↔ g ∈ t.tagNames s'.heap ∧ Near tag g) ∧
        (Near tag g → (M.like tag known).count g = (t.tagNames s'.heap).count g) := by
  obtain ⟨t, h1, h2, h3⟩ := C75_reference_errors hF hm hfs hr h0 hl hS
  refine ⟨t, h1, h2, fun o ho k tag known p l he g => ?_⟩
  rcases h3 o ho k _ he with ⟨w, e⟩ | ⟨tag', known', p', l', e, -, h4, h5⟩ | ⟨tag', ds, p', l', e, -⟩
  · cases e
  · cases e
    have hne : g ∈ t.tagNames s'.heap → g ≠ tag := by
      rintro hg rfl
      obtain ⟨j, hj, hg⟩ := List.mem_flatMap.1 hg
      obtain ⟨a, ha, rfl⟩ := List.mem_map.1 hg
      have : a ∈ t.tagsNamed s'.heap a.name := List.mem_flatMap.2 ⟨j, hj, List.mem_filter.2 ⟨ha, by simp⟩⟩
      rw [h4] at this
      cases this
    refine ⟨?_, fun hn => ?_⟩
    · rw [Wording.like, List.mem_filter, hM, similarTags_iff, h5.mem_iff]
      refine ⟨fun ⟨h, hs⟩ => ⟨h, hs.resolve_left fun ⟨e1, e2⟩ => hne h (by rw [e1, e2])⟩, fun ⟨h, hs⟩ => ⟨h, .inr hs⟩⟩
    · rw [Wording.like, List.count_filter (by rw [hM, similarTags_iff]; exact .inr hn), h5.count_eq]
  · cases e

/-- **C102**: a tag with one letter too much, missing or wrong is suggested if one of the names has three letters or more. -/
theorem C102_slip {a b : Str} (h : Slip a b) (hl : 3 ≤ max a.length b.length) : Near a b ∧ similarTags a b = true := by
  have : Near a b := ⟨1, .one h (.none _), by omega⟩
  exact ⟨this, similarTags_iff.2 (.inr this)⟩

/-- **C102**: and it is not if both names are shorter. -/
theorem C102_short {a b : Str} (hne : a ≠ b) (hl : max a.length b.length ≤ 2) : similarTags a b = false := by
  rw [Bool.eq_false_iff]
  intro h
  rcases similarTags_iff.1 h with ⟨rfl, rfl⟩ | ⟨n, h1, h2⟩
  · exact hne rfl
  · cases h1 with
    | none => exact hne rfl
    | one _ _ => omega

/-- **C102**: which of two names was meant and which was written does not matter. -/
theorem C102_symmetric {a b : Str} : similarTags a b = similarTags b a := by
  have slip : ∀ {a b : Str}, Slip a b → Slip b a := by
    intro a b h
    cases h with
    | more u c v => exact .less u c v
    | less u c v => exact .more u c v
    | wrong u c d v => exact .wrong u d c v
  have snoc : ∀ {n : Nat} {a b c : Str}, Slips n a b → Slip b c → Slips (n + 1) a c := by
    intro n a b c h h'
    induction h with
    | none a => exact .one h' (.none _)
    | one h1 _ ih => exact .one h1 (ih h')
  have slips : ∀ {n : Nat} {a b : Str}, Slips n a b → Slips n b a := by
    intro n a b h
    induction h with
    | none a => exact .none a
    | one h1 _ ih => exact snoc ih (slip h1)
  have near : ∀ {a b : Str}, Near a b → Near b a := fun ⟨n, h1, h2⟩ => ⟨n, slips h1, by rw [Nat.max_comm]; exact h2⟩
  rw [Bool.eq_iff_iff, similarTags_iff, similarTags_iff]
  exact ⟨fun h => h.imp And.symm near, fun h => h.imp And.symm near⟩

/-- **C102**: the error page lists them. -/
theorem C102_page (M : Wording) {fs : Disk8} {css : Str} (hcss : css.all (fun c => c != '<' && c != '&') = true) {tag : Str} {known : List Str} {p : Str}
    {l : Location} (h : ∀ sp ∈ (Err.unknownTag tag known p l).places, sp.Fine fs) :
    ∃ ds, readHtml (errorResponse M fs css (.unknownTag tag known p l)) = some ds ∧
      ofName q%"li" ds = (M.like tag known).map fun t => arrivingBytes (utf8 t) := by
  obtain ⟨ds, h1, -, h2⟩ := C76_page M fs hcss _ h
  exact ⟨ds, h1, h2.suggestions⟩

/-! ### Examples -/

/-- Words as they are, with the similarity of booklit. -/
def realWords : Wording := { words with similar := similarTags }

example : similarTags q%"intorduction" q%"introduction" = true ∧ similarTags q%"intro" q%"introduction" = false ∧ similarTags q%"kitten" q%"sitting" = true ∧
    similarTags q%"tu" q%"t" = false ∧ similarTags q%"abc" q%"xyz" = false ∧ similarTags q%"plugin" q%"plugins" = true := by decide +kernel

example : Slip q%"plugin" q%"plugins" := .more q%"plugin" 's' []

/-- Of the tags `setup`, `startup` and `usage`, the first is suggested for `setpu`. -/
example : (match answer (oneFile q%"\\title{T}{setup}\n\n\\section{\\title{U}{startup}}\n\n\\section{\\title{V}{usage}}\n\n\\reference{setpu}") (htmlEngine plainSite) 9 19 q%"x.lit" q%"/setup.html" ⟨[], []⟩ with
    | (.err (.unknownTag t known _ _), _) => t == q%"setpu" && realWords.like t known == [q%"setup"]
    | _ => false) = true := by decide +kernel

end Booklit.Props
