import Verif.Lemmas.BelowL
import Verif.Props.Overwritten

/-!
C54 and C26 for tags with slashes.
-/

namespace Booklit.Props

open Booklit

/-- What the paths of the files in a directory begin with. -/
def inDir (dest : Str) : Str :=
  if cleanPath dest = q%"." then [] else if cleanPath dest = q%"/" then q%"/" else cleanPath dest ++ ['/']

theorem wander_snoc {c : Str} (hc : Plain c) : ∀ (cs x y : List Str), wander x (cs ++ [c]) = some y → ∃ z, y = c :: z
  | [], x, y, h => by
    rw [List.nil_append, wander.eq_def] at h
    dsimp only at h
    rw [if_neg (by simp [hc.2.1, hc.2.2.1]), if_neg hc.2.2.2, wander.eq_def] at h
    exact ⟨x, (Option.some.inj h).symm⟩
  | p :: cs, x, y, h => by
    rw [List.cons_append, wander.eq_def] at h
    dsimp only at h
    split at h
    · exact wander_snoc hc cs _ _ h
    · split at h
      · split at h
        · cases h
        · exact wander_snoc hc cs _ _ h
      · exact wander_snoc hc cs _ _ h

/-- A file with an extension lies in a directory, it is not one. -/
theorem below_ne {name ext : Str} (he : goodExt ext) {ps : List Str} (h : Below (name ++ ['.'] ++ ext) ps) : ps ≠ [] := by
  obtain ⟨cs, hne, hns, e, hw⟩ := h
  rcases List.eq_nil_or_concat cs with rfl | ⟨init, c, rfl⟩
  · exact absurd rfl hne
  rw [List.concat_eq_append] at hns e hw
  rw [intercalate_join, joinSlash_snoc, List.append_assoc] at e
  have hcs : '/' ∉ c := hns c (by simp)
  have hc : ∃ a, c = a ++ ('.' :: ext) := by
    rcases List.append_eq_append_iff.1 e with ⟨a, h1, h2⟩ | ⟨a, h1, h2⟩
    · -- the extension reaches into the part before
      rcases List.eq_nil_or_concat a with rfl | ⟨a, x, rfl⟩
      · exact ⟨[], by simpa using h2.symm⟩
      · exfalso
        rw [List.concat_eq_append] at h1 h2
        have hx : x = '/' := by
          rcases trail_end init with h3 | ⟨q, h3⟩
          · rw [h3] at h1
            simp at h1
          · rw [h3, ← List.append_assoc] at h1
            have := List.append_inj_right' h1 rfl
            simpa using this.symm
        subst hx
        have hm : '/' ∈ '.' :: ext := by
          have : '/' ∈ ['.'] ++ ext := by rw [h2]; simp
          simpa using this
        rcases List.mem_cons.1 hm with h3 | h3
        · exact absurd h3 (by decide)
        · exact he.1 h3
    · exact ⟨a, by simpa using h2⟩
  obtain ⟨a, rfl⟩ := hc
  obtain ⟨z, hz⟩ := wander_snoc (c := a ++ '.' :: ext) (by
    have := plain_fileName (name := a) (ext := ext) (fun hm => hcs (List.mem_append_left _ hm)) he
    simpa using this) init [] _ hw
  intro e0
  subst e0
  cases hz

theorem within_parts (dest : Str) {ps : List Str} (hp : ps ≠ []) :
    rootOf dest ++ joinSlash (partsOf dest ++ ps) = inDir dest ++ joinSlash ps := by
  have hj : ∀ as : List Str, as ≠ [] → joinSlash (as ++ ps) = joinSlash as ++ '/' :: joinSlash ps := by
    intro as
    induction as with
    | nil => intro h; exact absurd rfl h
    | cons a as ih =>
      intro _
      cases as with
      | nil =>
        cases ps with
        | nil => exact absurd rfl hp
        | cons p ps => rfl
      | cons b as =>
        rw [List.cons_append, List.cons_append, joinSlash, joinSlash, ← List.cons_append, ih (by simp)]
        simp
  have hne := partsOf_ne dest
  have hgood : GoodParts (dest.head? == some '/') (partsOf dest).reverse := cleanParts_good trivial
  have hc : cleanPath dest = if (dest.head? == some '/') = true then '/' :: joinSlash (partsOf dest)
      else if joinSlash (partsOf dest) = [] then q%"." else joinSlash (partsOf dest) := rfl
  have hns := partsOf_noSlash dest
  rw [inDir, rootOf, hc]
  by_cases hr : (dest.head? == some '/') = true
  · simp only [hr, if_true]
    rw [if_neg (by intro e; injection e with e _; exact absurd e (by decide))]
    cases hd : partsOf dest with
    | nil => simp [joinSlash]
    | cons a as =>
      rw [if_neg, hj _ (by simp)]
      · simp
      · intro e
        injection e with _ e
        rw [joinSlash_eq_nil (by rw [← hd]; exact hne)] at e
        cases e
  · simp only [hr, if_false, Bool.false_eq_true]
    cases hd : partsOf dest with
    | nil => simp [joinSlash]
    | cons a as =>
      have h0 : joinSlash (a :: as) ≠ [] := by
        intro e
        rw [joinSlash_eq_nil (by rw [← hd]; exact hne)] at e
        cases e
      rw [if_neg h0, if_neg, if_neg, hj _ (by simp)]
      · simp
      · -- not the root
        intro e
        rw [← hd] at e
        have := joinSlash_inj (as := partsOf dest) (bs := [[], []]) (by simp [hd]) (by simp) hns (by simp) (by rw [e]; rfl)
        exact hne [] (by rw [this]; simp) rfl
      · -- not `.`
        intro e
        rw [← hd] at e
        have := joinSlash_inj (as := partsOf dest) (bs := [q%"."]) (by simp [hd]) (by simp) hns (by decide) (by rw [e]; rfl)
        rw [this] at hgood
        exact hgood.2.1 rfl

/-- **C54 (part)**: if the tag of a page, followed part by part, does not lead above the place it starts from, the page is
written in the output directory or a directory below it, at the place the tag leads to. Missing: tags that lead out of it,
see `C54_false`. -/
theorem C54_below_partial (h : Heap) (i : Nat) {dest ext : Str} (hd : dest ≠ []) (he : goodExt ext) {ps : List Str}
    (hb : Below ((h.get i).primaryTag.name ++ ['.'] ++ ext) ps) :
    h.filePathOf dest ext i = inDir dest ++ ['/'].intercalate ps ∧ ps ≠ [] ∧ ∀ p ∈ ps, p ≠ q%".." ∧ '/' ∉ p ∧ p ≠ [] := by
  have hp := below_ne he hb
  obtain ⟨e, ha⟩ := joinPath_below hd hb hp
  refine ⟨?_, hp, ha⟩
  rw [Heap.filePathOf, Heap.fileName, e, within_parts dest hp, intercalate_join]

/-- Tags without slashes, and tags like `guide/../api/x`, lead to a place below. -/
example : Below q%"x.html" [q%"x.html"] ∧ Below q%"guide/.././api//x.html" [q%"api", q%"x.html"] :=
  ⟨⟨[q%"x.html"], by simp, by simp, by decide, by decide⟩,
    ⟨[q%"guide", q%"..", q%".", q%"api", [], q%"x.html"], by simp, by simp, by decide, by decide⟩⟩

/-- **C26 (part)** for tags with slashes: two pages whose tags do not lead out of the output directory are written to the
same file if and only if the tags lead to the same place. -/
theorem C26_same_place (h : Heap) (i j : Nat) {dest ext : Str} (hd : dest ≠ []) (he : goodExt ext) {ps qs : List Str}
    (hi : Below ((h.get i).primaryTag.name ++ ['.'] ++ ext) ps) (hj : Below ((h.get j).primaryTag.name ++ ['.'] ++ ext) qs) :
    h.filePathOf dest ext i = h.filePathOf dest ext j ↔ ps = qs := by
  obtain ⟨e1, n1, a1⟩ := C54_below_partial h i hd he hi
  obtain ⟨e2, n2, a2⟩ := C54_below_partial h j hd he hj
  constructor
  · intro e
    rw [e1, e2, intercalate_join, intercalate_join] at e
    exact joinSlash_inj n1 n2 (fun c hc => (a1 c hc).2.1) (fun c hc => (a2 c hc).2.1) (List.append_cancel_left e)
  · rintro rfl
    rw [e1, e2]

/-- The tags of `C26_false` lead to the same place; the directory `o/ut` in front of it. -/
example : Below q%"b.html" [q%"b.html"] ∧ Below q%"a/../b.html" [q%"b.html"] ∧ inDir q%"o/./ut/" = q%"o/ut/" :=
  ⟨⟨[q%"b.html"], by simp, by simp, by decide, by decide⟩,
    ⟨[q%"a", q%"..", q%"b.html"], by simp, by simp, by decide, by decide⟩, by decide⟩

end Booklit.Props
