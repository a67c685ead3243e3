import Verif.Spec.Below
import Verif.Lemmas.PathL

/-!
Paths below a directory.
-/

namespace Booklit

theorem wander_clean {r : Bool} {out : List Str} : ∀ (ps x y : List Str), wander x ps = some y → (∀ p ∈ x, p ≠ q%"..") →
    cleanParts r (x ++ out) ps = (y ++ out).reverse ∧ ∀ p ∈ y, p ≠ q%".." ∧ (p ∈ x ∨ p ∈ ps ∧ p ≠ [])
  | [], x, y, h, hx => by
    cases h
    exact ⟨rfl, fun p hp => ⟨hx p hp, .inl hp⟩⟩
  | p :: ps, x, y, h, hx => by
    rw [wander.eq_def] at h
    dsimp only at h
    rw [cleanParts_cons]
    split at h
    · rename_i h1
      rw [if_pos h1]
      obtain ⟨e, hy⟩ := wander_clean ps x y h hx
      refine ⟨e, fun q hq => ⟨(hy q hq).1, ?_⟩⟩
      rcases (hy q hq).2 with h2 | h2
      · exact .inl h2
      · exact .inr ⟨List.mem_cons_of_mem _ h2.1, h2.2⟩
    · rename_i h1
      rw [if_neg h1]
      split at h
      · rename_i h2
        rw [if_pos h2]
        cases x with
        | nil => cases h
        | cons a x =>
          rw [List.cons_append]
          dsimp only
          rw [if_neg (hx a List.mem_cons_self)]
          obtain ⟨e, hy⟩ := wander_clean ps x y h fun p hp => hx p (List.mem_cons_of_mem _ hp)
          refine ⟨e, fun q hq => ⟨(hy q hq).1, ?_⟩⟩
          rcases (hy q hq).2 with h2 | h2
          · exact .inl (List.mem_cons_of_mem _ h2)
          · exact .inr ⟨List.mem_cons_of_mem _ h2.1, h2.2⟩
      · rename_i h2
        rw [if_neg h2]
        have hx' : ∀ q ∈ p :: x, q ≠ q%".." := by
          intro q hq
          rcases List.mem_cons.1 hq with rfl | hq
          · exact h2
          · exact hx q hq
        obtain ⟨e, hy⟩ := wander_clean ps (p :: x) y h hx'
        refine ⟨e, fun q hq => ⟨(hy q hq).1, ?_⟩⟩
        rcases (hy q hq).2 with h3 | h3
        · rcases List.mem_cons.1 h3 with rfl | h3
          · exact .inr ⟨List.mem_cons_self, fun e => h1 (.inl e)⟩
          · exact .inl h3
        · exact .inr ⟨List.mem_cons_of_mem _ h3.1, h3.2⟩

theorem intercalate_join : ∀ cs : List Str, ['/'].intercalate cs = joinSlash cs
  | [] => rfl
  | [c] => by simp [joinSlash]
  | c :: d :: cs => by
    rw [joinSlash, ← intercalate_join (d :: cs)]
    simp

theorem splitSlash_joined : ∀ {cs : List Str}, cs ≠ [] → (∀ c ∈ cs, '/' ∉ c) →
    splitSlash [] (joinSlash cs) = cs
  | [], h, _ => absurd rfl h
  | [c], _, hc => by rw [joinSlash, splitSlash_plain (hc c (by simp))]; rfl
  | c :: d :: cs, _, hc => by
    rw [joinSlash, splitSlash_cons, splitSlash_plain (hc c (by simp)),
      splitSlash_joined (cs := d :: cs) (by simp) fun x hx => hc x (List.mem_cons_of_mem _ hx)]
    rfl

theorem cleanParts_append {r : Bool} : ∀ (ps : List Str) (out qs : List Str),
    cleanParts r out (ps ++ qs) = cleanParts r (cleanParts r out ps).reverse qs
  | [], out, qs => by simp [cleanParts]
  | p :: ps, out, qs => by
    rw [List.cons_append, cleanParts_cons, cleanParts_cons]
    split
    · exact cleanParts_append ps out qs
    · split
      · cases out with
        | nil =>
          dsimp only
          split <;> exact cleanParts_append ps _ qs
        | cons o out =>
          dsimp only
          split <;> exact cleanParts_append ps _ qs
      · exact cleanParts_append ps _ qs

/-- Joining a directory and a path that leads to a place below it. -/
theorem joinPath_below {dest path : Str} {ps : List Str} (hd : dest ≠ []) (h : Below path ps) (hp : ps ≠ []) :
    joinPath dest path = rootOf dest ++ joinSlash (partsOf dest ++ ps) ∧ ∀ p ∈ ps, p ≠ q%".." ∧ '/' ∉ p ∧ p ≠ [] := by
  obtain ⟨cs, hne, hns, rfl, hw⟩ := h
  obtain ⟨e, hy⟩ := wander_clean (r := dest.head? == some '/') (out := (partsOf dest).reverse) cs [] _ hw (by simp)
  have hall : ∀ p ∈ ps, p ≠ q%".." ∧ '/' ∉ p ∧ p ≠ [] := by
    intro p hp
    obtain ⟨h1, h2⟩ := hy p (by simpa using hp)
    rcases h2 with h2 | h2
    · cases h2
    · exact ⟨h1, hns p h2.1, h2.2⟩
  refine ⟨?_, hall⟩
  have hhead : (dest ++ '/' :: ['/'].intercalate cs).head? = dest.head? := by
    cases dest with
    | nil => exact absurd rfl hd
    | cons _ _ => rfl
  have hparts : cleanParts (dest.head? == some '/') [] (splitSlash [] (dest ++ '/' :: ['/'].intercalate cs)) = partsOf dest ++ ps := by
    rw [splitSlash_cons, cleanParts_append, intercalate_join, splitSlash_joined hne hns]
    simpa [partsOf] using e
  rw [joinPath, if_pos hd, cleanPath, hhead]
  simp only [hparts]
  rw [rootOf]
  split
  · rfl
  · rw [if_neg]
    · rfl
    · rw [joinSlash_eq_nil]
      · simp [hp]
      · intro p hp
        rcases List.mem_append.1 hp with h1 | h1
        · exact partsOf_ne dest p h1
        · exact (hall p h1).2.2

theorem joinSlash_inj {as bs : List Str} (ha : as ≠ []) (hb : bs ≠ []) (has : ∀ c ∈ as, '/' ∉ c) (hbs : ∀ c ∈ bs, '/' ∉ c)
    (e : joinSlash as = joinSlash bs) : as = bs := by
  rw [← splitSlash_joined ha has, e, splitSlash_joined hb hbs]

end Booklit
