import Verif.Lemmas.MsEditL
import Verif.Spec.MsTyped

/-!
Manuscripts that differ in the text of one page only, as plain text.
-/

namespace Booklit.Ms

open Booklit

variable {b b' : Part} {os : List Nat}

mutual
theorem Off.typedToc : ∀ {ks pg : List Nat} {p p' : Part}, Off os ks pg p p' → p'.typedToc ks = p.typedToc ks
  | _, _, _, _, .mk (subs := subs) (subs' := subs') _ _ h3 => by
    rw [Part.typedToc, Part.typedToc, h3.typedToc]
    cases h3 <;> rfl
theorem OffL.typedToc : ∀ {ks pg : List Nat} {split : Bool} {k : Nat} {ps ps' : List Part}, OffL os ks pg split k ps ps' →
    typedEntries ks k ps' = typedEntries ks k ps
  | _, _, _, _, _, _, .nil => rfl
  | _, _, _, _, _, _, .cons h1 h2 => by rw [typedEntries, typedEntries, h2.typedToc, h1.same.1, h1.typedToc]
end

mutual
theorem Off.typed : ∀ {ks pg : List Nat} {p p' : Part}, Off os ks pg p p' → pg ≠ os → p'.typed ks = p.typed ks
  | ks, pg, _, _, .mk (title := title) (tags := tags) (split := split) (hide := hide) (body := body) (subs := subs) (subs' := subs') h1 h2 h3, hne => by
    have e := h2 hne
    subst e
    have e := (Off.mk (title := title) (tags := tags) (hide := hide) h1 h2 h3).typedToc
    rw [Part.typed, Part.typed, e]
    cases split with
    | true => rfl
    | false => rw [OffL.typed h3 hne]
theorem OffL.typed : ∀ {ks pg : List Nat} {k : Nat} {ps ps' : List Part}, OffL os ks pg false k ps ps' → pg ≠ os →
    typedParts ks k ps' = typedParts ks k ps
  | _, _, _, _, _, .nil, _ => rfl
  | _, _, _, _, _, .cons h1 h2, hne => by rw [typedParts, typedParts, h2.typed hne, Off.typed h1 hne]
end

/-- The pages are the same but for the one at `os`. -/
theorem Off.typedPage {ks : List Nat} {p p' : Part} (hp : Off os ks ks p p') (hne : ks ≠ os) : typedPage ks p' = typedPage ks p := by
  rw [Ms.typedPage, Ms.typedPage, hp.same.1, hp.typed hne]

/-- The files of pages are the same. -/
theorem Off.apart (off : Off os [] [] b b') (hp : PagesApart b) : PagesApart b' := by
  intro ks1 p1 h1
  obtain ⟨_, p2, h2, h3, -⟩ := off.symm.place h1
  obtain ⟨-, -, -, rfl⟩ := place_unique h2 (place_part h2)
  have e := h3.same.2.1
  refine ⟨by rw [← e]; exact (hp _ _ h2).1, fun ks3 p3 h4 e3 => ?_⟩
  obtain ⟨_, p4, h5, h6, -⟩ := off.symm.place h4
  obtain ⟨-, -, -, rfl⟩ := place_unique h5 (place_part h5)
  exact (hp _ _ h2).2 _ _ h5 (by rw [h6.same.2.1, e, e3])

end Booklit.Ms
